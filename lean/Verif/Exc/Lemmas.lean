import Verif.Exc.Spec


/-! # What one delivery can do -/

namespace Verif.Exc

open Verif.Thold (Thold)
open Verif.Kel (Id Dig Sig)
open Verif.Krm (Tab get_pin get_put get_rem get_mem)

variable {routes : Routes} {env : Env} {now : Int} {e : Exc} {m : Msg} {a : Att}

/-- The signatures are good. -/
def Auth (env : Env) (m : Msg) (a : Att) : Prop :=
  (a.tsgs ≠ [] ∧ ∀ t ∈ a.tsgs, checkTsg env m t = .good) ∨ (a.tsgs = [] ∧ a.cigars ≠ [] ∧ checkCigars env m a.cigars = true)

/-- What `process` can do. -/
inductive Proc (routes : Routes) (env : Env) (now : Int) (e : Exc) (m : Msg) (a : Att) : Exc → Except Err Unit → Prop
  | drop (r) : Proc routes env now e m a e r
  | wait (acts) : (∀ x ∈ acts, ∃ p n, x = Act.query p n) →
      Proc routes env now e m a { (escrow now e m a.tsgs a).1 with acts := e.acts ++ acts } (.error .missing)
  | save (acts) (r) : Auth env m a → essrCheck env m a = true → vet (routes m.route) env e m (given m a.nests) = .ok true →
      (acts = [] ∨ acts = [.handled m] ∧ ∃ h, routes m.route = some h ∧ h.handle.isSome) →
      Proc routes env now e m a { log e m a with acts := e.acts ++ [.saved m.said] ++ acts } r

theorem checkTsgs_good (env : Env) (m : Msg) : ∀ (l : List Tsg) (o : Option Tsg), checkTsgs env m l = (.good, o) → ∀ t ∈ l, checkTsg env m t = .good
  | [], _, _ => by simp
  | t :: l, o, h => by
    unfold checkTsgs at h
    cases hc : checkTsg env m t with
    | good =>
      rw [hc] at h
      intro t' ht'
      rcases List.mem_cons.1 ht' with h1 | h1
      · exact h1 ▸ hc
      · exact checkTsgs_good env m l o h t' h1
    | wait => rw [hc] at h; exact absurd h (by simp)
    | fail x => rw [hc] at h; exact absurd h (by simp)

theorem accept_proc (ha : Auth env m a) : Proc routes env now e m a (accept routes env e m a).1 (accept routes env e m a).2 := by
  unfold accept
  by_cases he : essrCheck env m a = true
  · rw [if_neg (by simp [he])]
    cases hv : vet (routes m.route) env e m (given m a.nests) with
    | error x => exact Proc.drop _
    | ok b =>
      cases b with
      | false => exact Proc.drop _
      | true =>
        dsimp only
        unfold callHandler
        cases hr : routes m.route with
        | none =>
          have := Proc.save (routes := routes) (now := now) (e := e) [] (.ok ()) ha he hv (Or.inl rfl)
          simpa using this
        | some h =>
          cases hh : h.handle with
          | none =>
            have := Proc.save (routes := routes) (now := now) (e := e) [] (.ok ()) ha he hv (Or.inl rfl)
            simpa [hh] using this
          | some f =>
            simp only [hh]
            exact Proc.save (routes := routes) (now := now) (e := e) [.handled m] _ ha he hv (Or.inr ⟨rfl, h, hr, by simp [hh]⟩)
  · rw [if_pos (by simpa using he)]
    exact Proc.drop _

theorem process_proc : Proc routes env now e m a (process routes env now e m a).1 (process routes env now e m a).2 := by
  unfold process
  by_cases ht : a.tsgs ≠ []
  · rw [if_pos ht]
    rcases hc : checkTsgs env m a.tsgs with ⟨c, o⟩
    cases c with
    | good => exact accept_proc (Or.inl ⟨ht, checkTsgs_good env m _ o hc⟩)
    | fail x => exact Proc.drop _
    | wait =>
      dsimp only
      by_cases hf : (escrow now e m a.tsgs a).2 = true
      · rw [if_pos hf]
        exact Proc.wait _ (by
          intro x hx
          cases o with
          | none => simp at hx
          | some t => exact ⟨t.1.1, t.1.2.1, by simpa using hx⟩)
      · rw [if_neg hf]
        have := Proc.wait (routes := routes) (env := env) (now := now) (e := e) (m := m) (a := a) [] (by simp)
        simpa [escrow] using this
  · rw [if_neg ht]
    have ht : a.tsgs = [] := by simpa using ht
    by_cases hg : a.cigars ≠ []
    · rw [if_pos hg]
      by_cases hk : checkCigars env m a.cigars = true
      · rw [if_pos hk]
        exact accept_proc (Or.inr ⟨ht, hg, hk⟩)
      · rw [if_neg hk]
        exact Proc.drop _
    · rw [if_neg hg]
      have := Proc.wait (routes := routes) (env := env) (now := now) (e := e) (m := m) (a := a) [] (by simp)
      rw [ht] at this
      simpa [escrow] using this

end Verif.Exc
