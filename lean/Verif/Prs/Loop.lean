import Verif.Prs.Eats

/-!
# The attachments of a message
-/

namespace Verif.Prs

open Verif.Matter (Mat)
open Verif.Idr (Ixr)
open Verif.Ctr (Ver Counter)
open Verif.B64

/-- A group of attachments or a nested message, with what the parser makes of it. -/
inductive Item {β : Type} (v : Ver) (bin : Bool) (sub : P (Exts β)) : Bytes → List (Slot × Elem) → List (Exts β) → Prop where
  | att {c : Counter} {t b : Bytes} {as : List (Slot × Elem)} : GoodCtr v c → writeCtr v bin c = .ok t → classify v c.code = .att → Piece bin b →
      (∀ abort, Eats v (attach v c (coldOf bin) abort) b as) → Item v bin sub (t ++ b) as []
  | nest {c : Counter} {t b : Bytes} {e : Exts β} : GoodCtr v c → writeCtr v bin c = .ok t → classify v c.code = .nest → Piece bin b →
      Eats v sub (t ++ b) e → Item v bin sub (t ++ b) [] [e]

/-- Several, one after the other. -/
inductive Items {β : Type} (v : Ver) (bin : Bool) (sub : P (Exts β)) : Bytes → List (Slot × Elem) → List (Exts β) → Prop where
  | nil : Items v bin sub [] [] []
  | cons {e1 e2 : Bytes} {a1 a2 : List (Slot × Elem)} {n1 n2 : List (Exts β)} : Item v bin sub e1 a1 n1 → Items v bin sub e2 a2 n2 →
      Items v bin sub (e1 ++ e2) (a1 ++ a2) (n1 ++ n2)

/-- What may follow attachments that are not enclosed: nothing, a message with a version string, or a counter that is none of an attachment. -/
def Stop (v : Ver) (rest : Bytes) : Prop :=
  rest = [] ∨ sniff rest = .ok .msg ∨
    ∃ cold c, sniff rest = .ok cold ∧ cold ≠ .msg ∧ peekCtr v cold rest = ⟨.ok c, 0⟩ ∧ (classify v c.code = .stop ∨ classify v c.code = .nest)

theorem peek_ok {v : Ver} {cold : Cold} {c : Counter} {buf : Bytes} (fut : List Bytes) (abort : Bool) (h : peekCtr v cold buf = ⟨.ok c, 0⟩) :
    peek cold abort ⟨buf, fut, v⟩ = .ok c ⟨buf, fut, v⟩ := by
  show extractGo (peekCtr v cold) abort v fut buf = _
  rw [extractGo_ok abort v fut h]
  simp

theorem Item.front {β : Type} {v : Ver} {bin : Bool} {sub : P (Exts β)} {enc : Bytes} {as : List (Slot × Elem)} {ns : List (Exts β)}
    (h : Item v bin sub enc as ns) : Piece bin enc ∧ enc ≠ [] ∧ ∀ rest, sniff (enc ++ rest) = .ok (coldOf bin) := by
  cases h with
  | att h1 h2 h3 h4 h5 =>
    obtain ⟨t, t1, t2, t3, t4, t5, t6, t7⟩ := ctr_frames h1 bin
    rw [h2] at t1
    injection t1 with t1
    subst t1
    exact ⟨t4.append h4, by simp [t5], fun rest => by rw [List.append_assoc]; exact t6 _⟩
  | nest h1 h2 h3 h4 h5 =>
    obtain ⟨t, t1, t2, t3, t4, t5, t6, t7⟩ := ctr_frames h1 bin
    rw [h2] at t1
    injection t1 with t1
    subst t1
    exact ⟨t4.append h4, by simp [t5], fun rest => by rw [List.append_assoc]; exact t6 _⟩

theorem Items.front {β : Type} {v : Ver} {bin : Bool} {sub : P (Exts β)} {enc : Bytes} {as : List (Slot × Elem)} {ns : List (Exts β)}
    (h : Items v bin sub enc as ns) : Piece bin enc ∧ (enc ≠ [] → ∀ rest, sniff (enc ++ rest) = .ok (coldOf bin)) := by
  induction h with
  | nil => exact ⟨Piece.nil bin, by simp⟩
  | cons h1 _ ih =>
    obtain ⟨f1, f2, f3⟩ := h1.front
    refine ⟨f1.append ih.1, fun _ rest => ?_⟩
    rw [List.append_assoc]
    exact f3 _

theorem coldOf_ne (bin : Bool) : coldOf bin ≠ .msg := by cases bin <;> simp [coldOf]

/-- What the loop does after an attachment. -/
def next {β : Type} (sub : P (Exts β)) (framed enclosed : Bool) (n : Nat) (cold : Cold) (acc : Atts β) : P (Atts β) := do
  let b ← getBuf
  if b = [] then pure acc
  else if enclosed then loop sub framed enclosed n cold acc
  else do
    let cold ← sniffP
    if cold = .msg then pure acc else loop sub framed enclosed n cold acc

theorem loop_att {β : Type} {sub : P (Exts β)} {framed enclosed : Bool} {n : Nat} {cold : Cold} {acc : Atts β} {s s' : St} {c : Counter}
    {es : List (Slot × Elem)} (hp : peek cold (framed || enclosed) s = .ok c s) (hc : classify s.ver c.code = .att)
    (ha : attach s.ver c cold (framed || enclosed) { s with buf := s.buf.drop (ctrSize s.ver cold c) } = .ok es s') :
    loop sub framed enclosed (n + 1) cold acc s = next sub framed enclosed n cold ⟨acc.atts ++ es, acc.nests⟩ s' := by
  rw [loop, bind_ok hp]
  have hv : getVer s = .ok s.ver s := rfl
  rw [bind_ok hv, hc]
  simp only
  have hd : delCtr cold c s = .ok () { s with buf := s.buf.drop (ctrSize s.ver cold c) } := rfl
  rw [bind_ok hd, bind_ok ha]
  rfl

theorem loop_nest {β : Type} {sub : P (Exts β)} {framed : Bool} {n : Nat} {cold : Cold} {acc : Atts β} {s s' : St} {c : Counter}
    {e : Exts β} (hp : peek cold (framed || true) s = .ok c s) (hc : classify s.ver c.code = .nest) (ha : sub s = .ok e s') :
    loop sub framed true (n + 1) cold acc s = next sub framed true n cold ⟨acc.atts, acc.nests ++ [e]⟩ s' := by
  rw [loop, bind_ok hp]
  have hv : getVer s = .ok s.ver s := rfl
  rw [bind_ok hv, hc]
  simp only [Bool.true_eq_false, if_false]
  rw [bind_ok ha]
  rfl

theorem loop_stop {β : Type} {sub : P (Exts β)} {framed : Bool} {n : Nat} {cold : Cold} {acc : Atts β} {s : St} {c : Counter}
    (hp : peek cold (framed || false) s = .ok c s) (hc : classify s.ver c.code = .stop ∨ classify s.ver c.code = .nest) :
    loop sub framed false (n + 1) cold acc s = .ok acc s := by
  rw [loop, bind_ok hp]
  have hv : getVer s = .ok s.ver s := rfl
  rw [bind_ok hv]
  rcases hc with hc | hc <;> rw [hc] <;> rfl

theorem next_end {β : Type} {sub : P (Exts β)} {framed enclosed : Bool} {n : Nat} {cold : Cold} {acc : Atts β} {v : Ver} {rest : Bytes}
    (he : enclosed = true → rest = []) (hs : enclosed = false → Stop v rest) (hn : enclosed = false → 0 < n) :
    next sub framed enclosed n cold acc ⟨rest, [], v⟩ = .ok acc ⟨rest, [], v⟩ := by
  have hg : getBuf ⟨rest, [], v⟩ = .ok rest ⟨rest, [], v⟩ := rfl
  unfold next
  rw [bind_ok hg]
  by_cases h0 : rest = []
  · rw [if_pos h0]; rfl
  · rw [if_neg h0]
    cases enclosed with
    | true => exact absurd (he rfl) h0
    | false =>
      simp only [Bool.false_eq_true, if_false]
      rcases hs rfl with h | h | ⟨cold', c, h1, h2, h3, h4⟩
      · exact absurd h h0
      · have : sniffP ⟨rest, [], v⟩ = .ok .msg ⟨rest, [], v⟩ := by simp [sniffP, h]
        rw [bind_ok this]
        rfl
      · have : sniffP ⟨rest, [], v⟩ = .ok cold' ⟨rest, [], v⟩ := by simp [sniffP, h1]
        rw [bind_ok this, if_neg h2]
        have := hn rfl
        obtain ⟨n', rfl⟩ : ∃ n', n = n' + 1 := ⟨n - 1, by omega⟩
        exact loop_stop (peek_ok [] _ h3) h4

theorem next_more {β : Type} {sub : P (Exts β)} {framed enclosed : Bool} {n : Nat} {bin : Bool} {acc : Atts β} {v : Ver} {buf : Bytes}
    (h0 : buf ≠ []) (hs : sniff buf = .ok (coldOf bin)) :
    next sub framed enclosed n (coldOf bin) acc ⟨buf, [], v⟩ = loop sub framed enclosed n (coldOf bin) acc ⟨buf, [], v⟩ := by
  have hg : getBuf ⟨buf, [], v⟩ = .ok buf ⟨buf, [], v⟩ := rfl
  unfold next
  rw [bind_ok hg, if_neg h0]
  cases enclosed with
  | true => rfl
  | false =>
    simp only [Bool.false_eq_true, if_false]
    have : sniffP ⟨buf, [], v⟩ = .ok (coldOf bin) ⟨buf, [], v⟩ := by simp [sniffP, hs]
    rw [bind_ok this, if_neg (coldOf_ne bin)]

/-- The loop takes all attachments and stops where they end. -/
theorem loop_items {β : Type} {v : Ver} {bin : Bool} {sub : P (Exts β)} {framed enclosed : Bool} {rest : Bytes} (hr : AllLt 256 rest)
    (he : enclosed = true → rest = []) (hs : enclosed = false → Stop v rest) {enc : Bytes} {as : List (Slot × Elem)} {ns : List (Exts β)}
    (h : Items v bin sub enc as ns) (hns : enclosed = false → ns = []) :
    enc ≠ [] → ∀ n acc, enc.length + 1 ≤ n → loop sub framed enclosed n (coldOf bin) acc ⟨enc ++ rest, [], v⟩ =
      .ok ⟨acc.atts ++ as, acc.nests ++ ns⟩ ⟨rest, [], v⟩ := by
  induction h with
  | nil => intro h0; exact absurd rfl h0
  | @cons e1 e2 a1 a2 n1 n2 h1 h2 ih =>
    intro _ n acc hn
    obtain ⟨p1, p2⟩ := h2.front
    have hr2 : AllLt 256 (e2 ++ rest) := (allLt_append _ _ _).2 ⟨p1.lt, hr⟩
    have hlen : 0 < e1.length := List.length_pos_iff.2 h1.front.2.1
    rw [List.length_append] at hn
    obtain ⟨n, rfl⟩ : ∃ n', n = n' + 1 := ⟨n - 1, by omega⟩
    have hrest : ∀ acc, next sub framed enclosed n (coldOf bin) acc ⟨e2 ++ rest, [], v⟩ =
        .ok ⟨acc.atts ++ a2, acc.nests ++ n2⟩ ⟨rest, [], v⟩ := by
      intro acc
      by_cases h0 : e2 = []
      · cases h2 with
        | nil =>
          simp only [List.nil_append, List.append_nil]
          exact next_end he hs (fun _ => by omega)
        | cons g1 g2 => exact absurd h0 (by simp [g1.front.2.1])
      · rw [next_more (by simp [h0]) (p2 h0 rest)]
        refine ih ?_ h0 n acc (by omega)
        intro h
        have := hns h
        exact (List.append_eq_nil_iff.1 this).2
    rw [List.append_assoc]
    cases h1 with
    | @att c t b _ g1 g2 g3 g4 g5 =>
      obtain ⟨t', t1, t2, t3, t4, t5, t6, t7⟩ := ctr_frames g1 bin
      rw [g2] at t1
      injection t1 with t1
      subst t1
      rw [List.append_assoc]
      have hlt : AllLt 256 (b ++ (e2 ++ rest)) := (allLt_append _ _ _).2 ⟨g4.lt, hr2⟩
      rw [loop_att (s := ⟨t ++ (b ++ (e2 ++ rest)), [], v⟩) (s' := ⟨e2 ++ rest, [], v⟩) (peek_ok [] _ (t2 _ hlt)) g3
        (by simp only [t3, List.drop_left]; exact g5 _ _ hr2), hrest]
      simp
    | @nest c t b e g1 g2 g3 g4 g5 =>
      cases enclosed with
      | false => exact absurd (hns rfl) (by simp)
      | true =>
        obtain ⟨t', t1, t2, t3, t4, t5, t6, t7⟩ := ctr_frames g1 bin
        rw [g2] at t1
        injection t1 with t1
        subst t1
        have hlt : AllLt 256 (b ++ (e2 ++ rest)) := (allLt_append _ _ _).2 ⟨g4.lt, hr2⟩
        rw [loop_nest (s := ⟨t ++ b ++ (e2 ++ rest), [], v⟩) (s' := ⟨e2 ++ rest, [], v⟩)
          (peek_ok [] _ (by rw [List.append_assoc]; exact t2 _ hlt)) g3 (g5 _ hr2), hrest]
        simp

theorem loopAll_items {β : Type} {v : Ver} {bin : Bool} {sub : P (Exts β)} {framed enclosed : Bool} {rest : Bytes} (hr : AllLt 256 rest)
    (he : enclosed = true → rest = []) (hs : enclosed = false → Stop v rest) {enc : Bytes} {as : List (Slot × Elem)} {ns : List (Exts β)}
    (h : Items v bin sub enc as ns) (hns : enclosed = false → ns = []) (h0 : enc ≠ []) :
    loopAll sub framed enclosed (coldOf bin) ⟨enc ++ rest, [], v⟩ = .ok ⟨as, ns⟩ ⟨rest, [], v⟩ := by
  unfold loopAll
  rw [loop_items hr he hs h hns h0 _ _ (by simp [total])]
  simp

end Verif.Prs
