import Verif.Mad.CompactSpec
import Verif.Mad.SaidMore

/-! # Once around the loop of `compact` -/

namespace Verif.Mad

section
variable (w : World) (kind : Kind) (saids : Saids)

mutual
/-- Once around: the innermost maps with said fields are replaced. -/
def rdV : Val → Except Err Val
  | .map fs => match rdF fs with
    | .error e => .error e
    | .ok (fs1, nested) =>
      if anySaid saids fs && !nested then
        match makify w kind true saids fs1 with
        | .error e => .error e
        | .ok (_, fs2, _) => .ok (saidVal saids fs2)
      else .ok (.map fs1)
  | v => .ok v

def rdF : List (List Char × Val) → Except Err (Flds × Bool)
  | [] => .ok ([], false)
  | (l, v) :: r =>
    if isMap v && saidLabel saids l then .error .invalidValue
    else if hasSaidV saids v then
      match rdV v with
      | .error e => .error e
      | .ok v1 => match rdF r with
        | .error e => .error e
        | .ok (r1, _) => .ok ((l, v1) :: r1, true)
    else match rdF r with
      | .error e => .error e
      | .ok (r1, n) => .ok ((l, v) :: r1, n)
end

mutual
/-- The trace, with paths as labels from the value on. -/
def trV : Val → Except Err (Val × List (List (List Char) × Flds))
  | .map fs => match trF fs with
    | .error e => .error e
    | .ok (fs1, nested, ls) =>
      if anySaid saids fs && !nested then
        match makify w kind true saids fs1 with
        | .error e => .error e
        | .ok (_, fs2, _) => .ok (.map fs2, ls ++ [([], fs2)])
      else .ok (.map fs1, ls)
  | v => .ok (v, [])

def trF : List (List Char × Val) → Except Err (Flds × Bool × List (List (List Char) × Flds))
  | [] => .ok ([], false, [])
  | (l, v) :: r =>
    if isMap v && saidLabel saids l then .error .invalidValue
    else if hasSaidV saids v then
      match trV v with
      | .error e => .error e
      | .ok (v1, ls) => match trF r with
        | .error e => .error e
        | .ok (r1, _, ls') => .ok ((l, v1) :: r1, true, ls.map (fun p => (l :: p.1, p.2)) ++ ls')
    else match trF r with
      | .error e => .error e
      | .ok (r1, n, ls') => .ok ((l, v) :: r1, n, ls')
end
end

/-- The text of a path. -/
def pathOf (p : List (List Char)) : List Char := p.flatMap fun l => '.' :: l

/-- With the texts of the paths, after a given one. -/
def withPath {α : Type} (path : List Char) (ls : List (List (List Char) × α)) : List (List Char × α) := ls.map fun p => (path ++ pathOf p.1, p.2)

theorem withPath_append {α : Type} (path : List Char) (a b : List (List (List Char) × α)) :
    withPath path (a ++ b) = withPath path a ++ withPath path b := by simp [withPath]

theorem withPath_cons {α : Type} (path l : List Char) (a : List (List (List Char) × α)) :
    withPath path (a.map fun p => (l :: p.1, p.2)) = withPath (path ++ '.' :: l) a := by
  simp [withPath, pathOf]

mutual
theorem traceV_eq (w : World) (kind : Kind) (saids : Saids) : ∀ (v : Val) (path : List Char),
    traceV w kind saids path v = match trV w kind saids v with
      | .error e => .error e
      | .ok (v1, ls) => .ok (v1, withPath path ls)
  | .map fs, path => by
    rw [traceV, trV, traceF_eq w kind saids fs path]
    cases trF w kind saids fs with
    | error e => rfl
    | ok x =>
      obtain ⟨fs1, nested, ls⟩ := x
      dsimp only
      split
      · cases makify w kind true saids fs1 with
        | error e => rfl
        | ok y => dsimp only; rw [withPath_append]; simp [withPath, pathOf]
      · rfl
  | .null, path => by simp [traceV, trV, withPath]
  | .bool _, path => by simp [traceV, trV, withPath]
  | .num _, path => by simp [traceV, trV, withPath]
  | .text _, path => by simp [traceV, trV, withPath]
  | .list _, path => by simp [traceV, trV, withPath]

theorem traceF_eq (w : World) (kind : Kind) (saids : Saids) : ∀ (fs : Flds) (path : List Char),
    traceF w kind saids path fs = match trF w kind saids fs with
      | .error e => .error e
      | .ok (fs1, n, ls) => .ok (fs1, n, withPath path ls)
  | [], path => by simp [traceF, trF, withPath]
  | (l, v) :: r, path => by
    rw [traceF, trF]
    split
    · rfl
    split
    · rw [traceV_eq w kind saids v]
      cases trV w kind saids v with
      | error e => rfl
      | ok x =>
        obtain ⟨v1, ls⟩ := x
        dsimp only
        rw [traceF_eq w kind saids r path]
        cases trF w kind saids r with
        | error e => rfl
        | ok y =>
          obtain ⟨r1, n, ls'⟩ := y
          dsimp only
          rw [withPath_append, withPath_cons]
    · rw [traceF_eq w kind saids r path]
      cases trF w kind saids r with
      | error e => rfl
      | ok y => rfl
end

/-! ## Paths -/

theorem splitDot_ne (s : List Char) : splitDot s ≠ [] := by
  induction s with
  | nil => simp [splitDot]
  | cons c r ih =>
    unfold splitDot
    split
    · simp
    · split <;> simp

theorem splitDot_label : ∀ (l s : List Char), '.' ∉ l → splitDot (l ++ '.' :: s) = l :: splitDot s
  | [], s, _ => by simp [splitDot]
  | c :: l, s, h => by
    simp only [List.mem_cons, not_or] at h
    rw [List.cons_append, splitDot, if_neg (fun e => h.1 e.symm), splitDot_label l s h.2]

theorem splitDot_one : ∀ (l : List Char), '.' ∉ l → splitDot l = [l]
  | [], _ => by simp [splitDot]
  | c :: l, h => by
    simp only [List.mem_cons, not_or] at h
    rw [splitDot, if_neg (fun e => h.1 e.symm), splitDot_one l h.2]

theorem splitDot_path : ∀ (p : List (List Char)), (∀ l ∈ p, '.' ∉ l) → splitDot (pathOf p) = [] :: p
  | [], _ => by simp [pathOf, splitDot]
  | l :: p, h => by
    have ih := splitDot_path p (fun x hx => h x (by simp [hx]))
    have hl := h l (by simp)
    simp only [pathOf, List.flatMap_cons, List.cons_append]
    rw [splitDot, if_pos rfl]
    congr 1
    cases p with
    | nil => simpa using splitDot_one l hl
    | cons m q =>
      simp only [pathOf, List.flatMap_cons, List.cons_append] at ih ⊢
      rw [splitDot_label _ _ hl]
      rw [splitDot, if_pos rfl] at ih
      injection ih with _ ih
      rw [ih]

theorem pathOf_inj {p q : List (List Char)} (hp : ∀ l ∈ p, '.' ∉ l) (hq : ∀ l ∈ q, '.' ∉ l) (h : pathOf p = pathOf q) : p = q := by
  have a := splitDot_path p hp
  rw [h, splitDot_path q hq] at a
  injection a with _ a
  exact a.symm

end Verif.Mad
