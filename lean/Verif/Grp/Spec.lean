import Verif.Grp.Model

/-!
# Vocabulary of the properties of group and delegation workflows
-/

namespace Verif.Grp

open Verif.Kel (Id Dig Event Kever Seal Ilk)

/-- Histories from `w0` to `w` each of whose steps satisfies `G`. -/
inductive Hist (env : Env) (G : World → Inp → Prop) (w0 : World) : World → Prop
  | nil : Hist env G w0 w0
  | step {w} (i : Inp) (h : Hist env G w0 w) (g : G w i) : Hist env G w0 (w.step env i)

/-- Nothing is asked of steps. -/
def Any (_ : World) (_ : Inp) : Prop := True

/-- `Was env G w0 w Q`: on the way to `w` there was a moment with `Q`. -/
def Was (env : Env) (G : World → Inp → Prop) (w0 w : World) (Q : World → Prop) : Prop := ∃ w1, Hist env G w0 w1 ∧ Hist env G w1 w ∧ Q w1

/-- What is logged at the number of an event that waits for signatures is that event, whenever the Counselor looks. -/
def Genuine (w : World) (i : Inp) : Prop :=
  (i = .counsel ∨ ∃ n, i = .crashCounsel n) → ∀ x ∈ w.gpse, ∀ sd, lastAt w.node x.1 x.2.1.num = some sd → sd = x.2.2

/-- The own node holds an event of `dp` with the seal, the last one at its number and fully witnessed. -/
def Sealed (n : Kel.Node) (dp : Id) (s : Seal) : Prop :=
  ∃ sn d e, lastAt n dp sn = some d ∧ n.db.evts dp d = some e ∧ s ∈ e.seals ∧ n.fullyWitnessed e = true

/-- The event of identifier `p` with number `sn` and digest `d` is sealed by the delegator of `p`. -/
def Approved (n : Kel.Node) (p : Id) (sn : Nat) (d : Dig) : Prop :=
  ∃ k dp dk, n.kevers p = some k ∧ k.delpre = some dp ∧ n.kevers dp = some dk ∧ Sealed n dk.pre ⟨p, sn, d⟩

/-- All witnesses have receipted: there are as many receipts as witnesses. -/
def Receipted (n : Kel.Node) (p : Id) (d : Dig) : Prop := ∃ k, n.kevers p = some k ∧ (n.db.wigs p d).length = k.wits.length

/-- The event waits in one of the escrows of the Counselor. -/
def Waits (w : World) (x : Entry) : Prop := x ∈ w.gpse ∨ x ∈ w.gdee ∨ x ∈ w.gpwe

/-- Calls for a group come one after the other, passes raise nothing and are not interrupted, events in the log have signatures. -/
def Calm (w : World) : Inp → Prop
  | .start p _ _ => ∀ x, Waits w x → x.1 ≠ p
  | .counsel => (counsel w).2 = none ∧ ∀ p sn sd, lastAt w.node p sn = some sd → w.node.db.sigs p sd ≠ []
  | .crashCounsel _ => False
  | _ => True

end Verif.Grp
