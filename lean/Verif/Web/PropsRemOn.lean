import Verif.Web.OnSets
import Verif.Web.Props
import Verif.Db.PropsRemOn
/-! # C240: removing sets from a number on in browsers -/

namespace Verif.Web

open Verif.Db (Bytes Entry Tbl suffix split2 onKey Sorted)

theorem doomedSet_loop (sep : Nat) (k : Bytes) (l : List Entry) :
    (∃ e, doomedSet sep k l = .error e ∧ Db.remLoop2 sep k l = .error e) ∨
    ∃ a r, l = a ++ r ∧ doomedSet sep k l = .ok (a.map (·.1)) ∧ Db.remLoop2 sep k l = .ok (r, !a.isEmpty) := by
  induction l with
  | nil => exact .inr ⟨[], [], rfl, rfl, rfl⟩
  | cons x l ih =>
    obtain ⟨x, v⟩ := x
    unfold doomedSet Db.remLoop2
    cases split2 sep x with
    | error e => exact .inl ⟨e, rfl, rfl⟩
    | ok p =>
      obtain ⟨ck, cn⟩ := p
      dsimp only
      by_cases hc : ck ≠ k
      · rw [if_pos hc, if_pos hc]
        exact .inr ⟨[], (x, v) :: l, rfl, rfl, rfl⟩
      · rw [if_neg hc, if_neg hc]
        rcases ih with ⟨e, h1, h2⟩ | ⟨a, r, h1, h2, h3⟩
        · rw [h1, h2]
          exact .inl ⟨e, rfl, rfl⟩
        · rw [h2, h3]
          exact .inr ⟨(x, v) :: a, r, by rw [h1]; rfl, rfl, rfl⟩

/-- C240: with any key, removing from a number on does in browsers what it does on disk, and answers or raises the same. -/
theorem c240_same {sep : Nat} {t : Tbl} (h : Sorted t) {k : Bytes} (hk : k ≠ []) (n : Nat) : remOnAllSet sep t k n = Db.remOnAllIoSet sep t k n := by
  unfold remOnAllSet Db.remOnAllIoSet
  rw [if_neg hk]
  have hsplit := Db.before_fro t (onKey sep k n)
  rcases doomedSet_loop sep k (t.fro (onKey sep k n)) with ⟨e, h1, h2⟩ | ⟨a, r, h1, h2, h3⟩
  · rw [h1, h2]
  · rw [h2, h3]
    dsimp only
    rw [h1] at hsplit
    have hd := delAll_mid (a := t.before (onKey sep k n)) (b := a) (c := r) (by rw [hsplit]; exact h)
    rw [hsplit] at hd
    rw [hd]
    cases a <;> simp

/-- The hypotheses of `c240_same` are met, and something is removed. -/
example : Sorted Db.Demo41.t ∧ (remOnAllSet 46 Db.Demo41.t [65] 1).2 = .ok true ∧ (remOnAllSet 46 Db.Demo41.t [65] 1).1.length = 3 :=
  ⟨Db.Demo41.wf.wf.sorted, by decide +kernel, by decide +kernel⟩

end Verif.Web
