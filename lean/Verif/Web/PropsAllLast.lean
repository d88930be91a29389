import Verif.Web.AllLast
import Verif.Web.Props
/-! # C243: last values of all sets -/

namespace Verif.Web

open Verif.Db (Bytes Entry Tbl suffix unsuffix SepOk WF Sorted lexLt)

/-- Specification: keys and values of all entries, in their order. -/
def pairs (sep : Nat) (t : Tbl) : List (Bytes × Bytes) := t.filterMap fun e => match unsuffix sep e.1 with
  | .error _ => none
  | .ok (k, _) => some (k, e.2)

theorem diskAllLoop_eq (sep : Nat) (l : List Entry) : ∀ (key : Bytes) last, (∀ p, last = some p → p.1 = key) → diskAllLoop sep key last l = allLastLoop sep last l := by
  induction l with
  | nil => intro key last _; cases last <;> rfl
  | cons e l ih =>
    obtain ⟨x, v⟩ := e
    intro key last hlast
    unfold diskAllLoop allLastLoop
    cases unsuffix sep x with
    | error e => rfl
    | ok q =>
      obtain ⟨ck, n⟩ := q
      dsimp only
      have hnew : ∀ p, some (ck, v) = some p → p.1 = ck := fun p hp => by cases hp; rfl
      by_cases hm : ck ≠ key
      · rw [if_pos hm, ih ck _ hnew]
        cases last with
        | none =>
          dsimp only
          cases allLastLoop sep (some (ck, v)) l <;> rfl
        | some p =>
          have hm' : ck ≠ p.1 := by rw [hlast p rfl]; exact hm
          dsimp only
          rw [if_pos hm']
          rfl
      · have hm' : ck = key := Decidable.byContradiction hm
        rw [if_neg hm, ih key _ (by rw [← hm']; exact hnew)]
        cases last with
        | none => rfl
        | some p =>
          dsimp only
          rw [if_neg (by rw [hlast p rfl]; exact hm)]

/-- C243: with the separator `.` both databases yield or raise the same; without a key, with every separator. -/
theorem c243_same (sep : Nat) (t : Tbl) (key : Bytes) (h : key = [] ∨ sep = 46) : allLast sep t key = diskAllLast sep t key := by
  unfold allLast diskAllLast
  by_cases hk : key = []
  · rw [if_pos hk, if_pos hk]
    cases t with
    | nil => rfl
    | cons e t =>
      obtain ⟨x, v⟩ := e
      dsimp only
      cases hx : unsuffix sep x with
      | error e => unfold allLastLoop; rw [hx]
      | ok q =>
        obtain ⟨k, n⟩ := q
        exact (diskAllLoop_eq sep _ k none fun p hp => by cases hp).symm
  · have := h.resolve_left hk
    subst this
    rw [if_neg hk, if_neg hk]
    exact (diskAllLoop_eq 46 _ key none fun p hp => by cases hp).symm

/-- Keep the last item of each run of equal keys. -/
def lastRuns : List (Bytes × Bytes) → List (Bytes × Bytes)
  | [] => []
  | [p] => [p]
  | p :: q :: r => if q.1 ≠ p.1 then p :: lastRuns (q :: r) else lastRuns (q :: r)

theorem allLastLoop_eq {sep : Nat} (hs : SepOk sep) (l : List Entry) (hl : ∀ e ∈ l, ∃ k i, e.1 = suffix sep k i) : ∀ last, allLastLoop sep last l = .ok (lastRuns (last.toList ++ pairs sep l)) := by
  induction l with
  | nil => rintro (_ | p) <;> rfl
  | cons e l ih =>
    obtain ⟨x, v⟩ := e
    obtain ⟨k, i, hx⟩ := hl (x, v) (by simp)
    simp only at hx; subst hx
    have ih := ih fun e he => hl e (by simp [he])
    have hp : pairs sep ((suffix sep k i, v) :: l) = (k, v) :: pairs sep l := by
      unfold pairs
      rw [List.filterMap_cons, Db.unsuffix_suffix hs]
    intro last
    unfold allLastLoop
    rw [Db.unsuffix_suffix hs, hp]
    dsimp only
    cases last with
    | none => dsimp only; rw [ih]; rfl
    | some p =>
      dsimp only
      by_cases hm : k ≠ p.1
      · rw [if_pos hm, ih]
        simp [lastRuns, hm]
      · have hm' : k = p.1 := Decidable.byContradiction hm
        rw [if_neg hm, ih]
        simp [lastRuns, hm']

/-- Equal keys are together. -/
def Together : List (Bytes × Bytes) → Prop
  | [] => True
  | a :: l => (∀ b r, l = b :: r → b.1 ≠ a.1 → ∀ c ∈ l, c.1 ≠ a.1) ∧ Together l

theorem lastRuns_spec (l : List (Bytes × Bytes)) (hl : Together l) :
    ((lastRuns l).map (·.1)).Nodup ∧ ∀ p, p ∈ lastRuns l ↔ (l.filter (fun q => decide (q.1 = p.1))).getLast? = some p := by
  induction l with
  | nil => exact ⟨List.nodup_nil, fun p => by simp [lastRuns]⟩
  | cons a l ih =>
    obtain ⟨h1, h2⟩ := hl
    obtain ⟨i1, i2⟩ := ih h2
    cases l with
    | nil =>
      refine ⟨by simp [lastRuns], fun p => ?_⟩
      simp only [lastRuns, List.mem_singleton]
      by_cases hp : a.1 = p.1
      · rw [List.filter_cons_of_pos (by simpa using hp)]
        simp [eq_comm]
      · rw [List.filter_cons_of_neg (by simpa using hp)]
        constructor
        · rintro rfl; exact absurd rfl hp
        · intro h; cases h
    | cons b r =>
      unfold lastRuns
      by_cases hb : b.1 ≠ a.1
      · rw [if_pos hb]
        have hne := h1 b r rfl hb
        refine ⟨?_, fun p => ?_⟩
        · rw [List.map_cons, List.nodup_cons]
          refine ⟨fun hm => ?_, i1⟩
          obtain ⟨q, hq, hqa⟩ := List.mem_map.1 hm
          have := (List.mem_filter.1 (List.mem_of_getLast? ((i2 q).1 hq))).1
          exact hne q this hqa
        · rw [List.mem_cons, i2]
          by_cases hp : a.1 = p.1
          · rw [List.filter_cons_of_pos (a := a) (by simpa using hp)]
            have hnil : (b :: r).filter (fun q => decide (q.1 = p.1)) = [] := by
              refine List.filter_eq_nil_iff.2 fun q hq => ?_
              have := hne q hq
              rw [decide_eq_true_eq, ← hp]
              exact this
            rw [hnil]
            simp [eq_comm]
          · rw [List.filter_cons_of_neg (a := a) (by simpa using hp)]
            constructor
            · rintro (rfl | h)
              · exact absurd rfl hp
              · exact h
            · exact .inr
      · rw [if_neg hb]
        have hb' : b.1 = a.1 := Decidable.byContradiction hb
        refine ⟨i1, fun p => ?_⟩
        rw [i2]
        by_cases hp : a.1 = p.1
        · rw [List.filter_cons_of_pos (a := a) (by simpa using hp), List.filter_cons_of_pos (a := b) (by simp [hb', hp])]
          rw [List.getLast?_cons_cons]
        · rw [List.filter_cons_of_neg (a := a) (by simpa using hp)]

theorem together {sep : Nat} (hs : SepOk sep) {K : Bytes → Prop} {B : Nat} (hap : ∀ k k', K k → K k' → ¬ (k ++ [sep]) <+: k') {t : Tbl} (h : WF sep K B t) : Together (pairs sep t) := by
  induction t with
  | nil => trivial
  | cons e t ih =>
    have ih := ih h.tail
    obtain ⟨x, v⟩ := e
    obtain ⟨k, i, hk, _, hx⟩ := h.keys (x, v) (by simp)
    simp only at hx; subst hx
    have hp : pairs sep ((suffix sep k i, v) :: t) = (k, v) :: pairs sep t := by
      unfold pairs
      rw [List.filterMap_cons, Db.unsuffix_suffix hs]
    rw [hp]
    refine ⟨?_, ih⟩
    cases t with
    | nil => intro b r hb; cases hb
    | cons e' t =>
      obtain ⟨y, w⟩ := e'
      obtain ⟨k', i', hk', _, hy⟩ := h.keys (y, w) (by simp)
      simp only at hy; subst hy
      have hp' : pairs sep ((suffix sep k' i', w) :: t) = (k', w) :: pairs sep t := by
        unfold pairs
        rw [List.filterMap_cons, Db.unsuffix_suffix hs]
      rw [hp']
      intro b r hb hne c hc
      cases hb
      rcases List.mem_cons.1 hc with rfl | hc
      · exact hne
      · intro hck
        obtain ⟨⟨z, u⟩, hz, hzc⟩ := List.mem_filterMap.1 hc
        obtain ⟨k2, i2, _, _, hz2⟩ := h.keys (z, u) (by simp [hz])
        simp only at hz2; subst hz2
        simp only [Db.unsuffix_suffix hs] at hzc
        cases hzc
        simp only at hck
        subst hck
        have l1 := h.sorted.head (suffix sep k' i', w) (by simp)
        have l2 := h.sorted.tail.head (suffix sep k2 i2, u) hz
        have hpre : (k2 ++ [sep]) <+: suffix sep k' i' :=
          Db.prefix_convex (x := suffix sep k2 i) (z := suffix sep k2 i2) ⟨Db.hex32 i, by simp [suffix, Db.onKey]⟩ ⟨Db.hex32 i2, by simp [suffix, Db.onKey]⟩ (Db.lexLt_asymm l1) (Db.lexLt_asymm l2)
        rcases Db.prefix_split (by simp) (Db.sep_not_mem hs i') hpre with h3 | h3
        · exact hne h3.symm
        · exact hap _ _ hk hk' h3

/-- **C243 (partial).** Iterating the last values of all sets from a key on yields one item for each key that has entries from there on, the last of its entries. Missing: keys that are another one followed by the separator. -/
theorem c243_last_partial {sep : Nat} (hs : SepOk sep) {K : Bytes → Prop} {B : Nat} (hap : ∀ k k', K k → K k' → ¬ (k ++ [sep]) <+: k') {t : Tbl} (h : WF sep K B t) (key : Bytes) :
    ∃ M, allLast sep t key = .ok M ∧ (M.map (·.1)).Nodup ∧
      ∀ p, p ∈ M ↔ ((pairs sep (if key = [] then t else t.fro (suffix sep key 0))).filter (fun q => decide (q.1 = p.1))).getLast? = some p := by
  have hw : WF sep K B (if key = [] then t else t.fro (suffix sep key 0)) := by
    split
    · exact h
    · exact h.sublist (List.dropWhile_sublist _)
  unfold allLast
  generalize (if key = [] then t else t.fro (suffix sep key 0)) = l at hw
  obtain ⟨s1, s2⟩ := lastRuns_spec (pairs sep l) (together hs hap hw)
  refine ⟨lastRuns (pairs sep l), ?_, s1, s2⟩
  exact allLastLoop_eq hs l (fun e he => by
    obtain ⟨k, i, _, _, hx⟩ := hw.keys e he
    exact ⟨k, i, hx⟩) none

namespace Demo

/-- Two sets. -/
def two : Tbl := [(suffix 46 [65] 0, [1]), (suffix 46 [65] 1, [2]), (suffix 46 [66] 0, [3])]

/-- The hypotheses of `c243_last_partial` are met, and something is yielded. -/
example : WF 46 (fun k => k = [65] ∨ k = [66]) 2 two ∧ (∀ k k' : Bytes, (k = [65] ∨ k = [66]) → (k' = [65] ∨ k' = [66]) → ¬ (k ++ [46]) <+: k') ∧
    allLast 46 two [] = .ok [([65], [2]), ([66], [3])] ∧ allLast 46 two [66] = .ok [([66], [3])] := by
  refine ⟨⟨by unfold Sorted; decide +kernel, ?_⟩, ?_, by decide +kernel, by decide +kernel⟩
  · intro e he
    simp only [two, List.mem_cons, List.not_mem_nil, or_false] at he
    rcases he with rfl | rfl | rfl
    · exact ⟨_, 0, .inl rfl, by decide, rfl⟩
    · exact ⟨_, 1, .inl rfl, by decide, rfl⟩
    · exact ⟨_, 0, .inr rfl, by decide, rfl⟩
  · rintro k k' (rfl | rfl) (rfl | rfl) <;> decide

/-- **C243 fails for nested keys.** A key that is another one followed by the separator and a number divides its set: both parts are yielded. -/
theorem c243_nested_keys :
    let k : Bytes := [65]
    let t : Tbl := [(suffix 46 k 0, [1]), (suffix 46 (suffix 46 k 0) 0, [9]), (suffix 46 k 1, [2])]
    allLast 46 t [] = .ok [(k, [1]), (suffix 46 k 0, [9]), (k, [2])] ∧ diskAllLast 46 t [] = .ok [(k, [1]), (suffix 46 k 0, [9]), (k, [2])] := by decide +kernel

/-- **C243 fails on disk for other separators.** From a key on, with `!`, its own set is left out. -/
theorem c243_separator :
    let t : Tbl := [(suffix 33 [65] 0, [1]), (suffix 33 [66] 0, [2])]
    diskAllLast 33 t [65] = .ok [([66], [2])] ∧ allLast 33 t [65] = .ok [([65], [1]), ([66], [2])] := by decide +kernel

end Demo

end Verif.Web
