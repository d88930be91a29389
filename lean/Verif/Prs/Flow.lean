import Verif.Prs.Generic

/-!
# Messages in generic groups
-/

namespace Verif.Prs

open Verif.Matter (Mat)
open Verif.Idr (Ixr)
open Verif.Ctr (Ver Counter)
open Verif.B64

/-- Messages and generic groups of messages. -/
inductive Flow {β : Type} (L : Loader β) : Ver → Bytes → List (Exts β) → Prop where
  | run {u w : Ver} {b : Bytes} {es : List (Exts β)} : Upto L u b es w [] → Flow L u b es
  | msg {v : Ver} {self : Bool} {enc rest : Bytes} {e : Exts β} {es : List (Exts β)} : Sent L v self enc e → (self = false → Stop v rest) → Flow L v rest es →
      Flow L v (enc ++ rest) (e :: es)
  | group {v w : Ver} {bin : Bool} {t pre body rest : Bytes} {es1 es2 : List (Exts β)} : Group v bin t (pre ++ body) → Genus v bin pre w →
      (pre = [] → ∃ c t' r, Front v bin c t' ∧ c.code ≠ gvcCode ∧ body = t' ++ r) → Flow L w body es1 → Flow L v rest es2 →
      Flow L v (t ++ ((pre ++ body) ++ rest)) (es1 ++ es2)

theorem allLt_nil (n : Nat) : AllLt n [] := by intro b hb; simp at hb

theorem Group.lt {v : Ver} {bin : Bool} {t content : Bytes} (h : Group v bin t content) : AllLt 256 t := by
  obtain ⟨c, f, _⟩ := h.front
  exact f.facts.2.2.1.lt

theorem Flow.lt {β : Type} {L : Loader β} {u : Ver} {b : Bytes} {es : List (Exts β)} (h : Flow L u b es) : AllLt 256 b := by
  induction h with
  | run h => exact h.lt (allLt_nil _)
  | msg h1 _ _ ih => exact (allLt_append _ _ _).2 ⟨h1.head.2, ih⟩
  | group h1 h2 _ _ _ ih1 ih2 =>
    exact (allLt_append _ _ _).2 ⟨h1.lt, (allLt_append _ _ _).2 ⟨(allLt_append _ _ _).2 ⟨h2.lt, ih1⟩, ih2⟩⟩

theorem ascend_field {β : Type} : ∀ (l : List (Ver × Bytes)) (g : GSt β) (x : List (Ver × Bytes)), ascend { g with stack := x } l = ascend g l
  | [], _, _ => rfl
  | (v, b) :: tl, g, x => by
    simp only [ascend]
    by_cases h : g.cur.buf = []
    · simp only [if_pos h]
      exact ascend_field tl { g with cur := ⟨b, g.cur.fut, v⟩, svrsn := some v } x
    · simp only [if_neg h]

theorem group_pop {β : Type} {L : Loader β} {d n : Nat} {g : GSt β} {v : Ver} {rest : Bytes} {st : List (Ver × Bytes)} (hs : g.stack = (v, rest) :: st)
    (hb : g.cur.buf = []) (hf : g.cur.fut = []) : group L d (n + 1) g = group L d (n + 1) { g with cur := ⟨rest, [], v⟩, svrsn := some v, stack := st } := by
  rw [group_ascend, group_ascend L d n { g with cur := ⟨rest, [], v⟩, svrsn := some v, stack := st }, hs]
  simp only [ascend, if_pos hb, hf]
  rw [ascend_field st { g with cur := ⟨rest, [], v⟩, svrsn := some v } st]

theorem inside_open {β : Type} {L : Loader β} {d n : Nat} {g : GSt β} {v w : Ver} {bin : Bool} {pre body rest : Bytes} (h1 : Genus v bin pre w)
    (h2 : pre = [] → ∃ c t' r, Front v bin c t' ∧ c.code ≠ gvcCode ∧ body = t' ++ r) (hl : AllLt 256 body) (hsv : g.svrsn = none ∨ g.svrsn = some v) :
    ∃ sv, inside L d n g (coldOf bin) v (pre ++ body) rest =
      group L d n { g with eggs := true, cur := ⟨body, [], w⟩, framed := true, svrsn := sv, stack := (v, rest) :: g.stack } ∧ (sv = none ∨ sv = some w) := by
  unfold inside
  cases h1 with
  | same =>
    obtain ⟨c, t', r, f1, f2, f3⟩ := h2 rfl
    rw [List.nil_append]
    subst f3
    rw [peek_ok [] g.framed (f1.facts.1 r ((allLt_append _ _ _).1 hl).2)]
    simp only [if_neg f2]
    refine ⟨g.svrsn, ?_, hsv⟩
    have : g.svrsn.getD v = v := by rcases hsv with h | h <;> rw [h] <;> rfl
    rw [this]
  | @change c _ _ f1 f2 f3 =>
    rw [peek_ok [] g.framed (f1.facts.1 body hl)]
    simp only [if_pos f2, f1.facts.2.1, List.drop_left, setVer_ok f3]
    exact ⟨some w, rfl, Or.inr rfl⟩

/-- `groupParsator` takes all the messages, whatever groups they are in. -/
theorem group_flow {β : Type} {L : Loader β} {u : Ver} {b : Bytes} {es : List (Exts β)} (h : Flow L u b es) {d : Nat} : b.length ≤ d →
    ∀ (n : Nat) (g : GSt β), g.cur = ⟨b, [], u⟩ → b.length < n → (g.svrsn = none ∨ g.svrsn = some u) →
    ∃ n' g', group L (d + 1) n g = group L (d + 1) n' g' ∧ g'.cur.buf = [] ∧ g'.cur.fut = [] ∧ g'.stack = g.stack ∧ g'.out = g.out ++ es ∧
      n ≤ n' + b.length ∧ 0 < n' := by
  induction h with
  | @run u w b es h =>
    intro hd n g hc hn _
    obtain ⟨n', k1, k2, k3, k4⟩ := group_upto h (allLt_nil _) (d := d) (by simpa using hd) n g hc hn
    exact ⟨n', _, k1, rfl, rfl, rfl, rfl, by simpa using k2, by simpa using k3⟩
  | @msg v self enc rest e es h1 h2 h3 ih =>
    intro hd n g hc hn hsv
    obtain ⟨n, rfl⟩ : ∃ m, n = m + 1 := ⟨n - 1, by omega⟩
    have hpos := List.length_pos_iff.2 h1.head.1.ne
    simp only [List.length_append] at hd hn
    rw [group_one (bin := true) (pre := []) .same h1 (by omega) h3.lt h2 hc]
    obtain ⟨n', g', k1, k2, k3, k4, k5, k6, k7⟩ := ih (by omega) n { g with cur := ⟨rest, [], v⟩, out := g.out ++ [e] } rfl (by omega) hsv
    exact ⟨n', g', k1, k2, k3, k4, by rw [k5]; simp, by simp only [List.length_append]; omega, k7⟩
  | @group v w bin t pre body rest es1 es2 h1 h2 h3 h4 h5 ih1 ih2 =>
    intro hd n g hc hn hsv
    obtain ⟨n, rfl⟩ : ∃ m, n = m + 1 := ⟨n - 1, by omega⟩
    have hpos : 0 < t.length := by
      obtain ⟨c, f, _⟩ := h1.front
      exact List.length_pos_iff.2 f.facts.2.2.2.1
    simp only [List.length_append] at hd hn
    rw [group_generic h1 ((allLt_append _ _ _).2 ⟨h2.lt, h4.lt⟩) h5.lt hc]
    obtain ⟨sv, i1, i2⟩ := inside_open (L := L) (d := d + 1) (n := n) (rest := rest) h2 h3 h4.lt hsv
    rw [i1]
    obtain ⟨n1, g1, k1, k2, k3, k4, k5, k6, k7⟩ := ih1 (by omega) n { g with eggs := true, cur := ⟨body, [], w⟩, framed := true, svrsn := sv, stack := (v, rest) :: g.stack }
      rfl (by omega) i2
    rw [k1]
    obtain ⟨n1, rfl⟩ : ∃ m, n1 = m + 1 := ⟨n1 - 1, by omega⟩
    rw [group_pop k4 k2 k3]
    obtain ⟨n2, g2, j1, j2, j3, j4, j5, j6, j7⟩ := ih2 (by omega) (n1 + 1) { g1 with cur := ⟨rest, [], v⟩, svrsn := some v, stack := g.stack } rfl (by omega)
      (Or.inr rfl)
    refine ⟨n2, g2, j1, j2, j3, j4, ?_, by simp only [List.length_append]; omega, j7⟩
    rw [j5]
    simp only [k5, List.append_assoc]

theorem parse_flow {β : Type} {L : Loader β} {u : Ver} {b : Bytes} {es : List (Exts β)} (h : Flow L u b es) (framed : Bool) (n : Nat) (hb : b ≠ []) :
    parse L framed (n + 1) ⟨b, [], u⟩ = (es, true) := by
  have ht : total ⟨b, [], u⟩ = b.length := by simp [total]
  obtain ⟨n', g', k1, k2, k3, k4, k5, k6, k7⟩ := group_flow h (Nat.le_refl _) (b.length + 1) { cur := ⟨b, [], u⟩, framed := framed } rfl (by omega) (Or.inl rfl)
  obtain ⟨n', rfl⟩ : ∃ m, n' = m + 1 := ⟨n' - 1, by omega⟩
  have hg : groupAll L framed ⟨b, [], u⟩ = ⟨es, .done, g'.cur⟩ := by
    unfold groupAll
    rw [ht, k1, group_done k4 k2, k5]
    rfl
  unfold parse
  simp only [if_neg hb, hg, after, reduceCtorEq, if_false]
  have : parse L framed n g'.cur = ([], true) := by
    cases n with
    | zero => simp [parse, k2]
    | succ n => simp [parse, k2]
  simp [this]

end Verif.Prs
