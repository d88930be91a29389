import Verif.Iss.Model
import Verif.Vry.Spec

/-!
# Vocabulary of the properties of the issuing workflow
-/

namespace Verif.Iss

open Verif.Kel (Id Dig Event)
open Verif.Tel (TEvt)
open Verif.Vry (VNode VEnv VInp Cred Anchor VDelivers)
open Verif.Grp (Num)

/-- Histories from `w0` to `w` each of whose steps satisfies `G`. -/
inductive Hist (env : VEnv) (G : World → Inp → Prop) (w0 : World) : World → Prop
  | nil : Hist env G w0 w0
  | step {w} (i : Inp) (h : Hist env G w0 w) (g : G w i) : Hist env G w0 (w.step env i)

/-- Nothing is asked of steps. -/
def Any (_ : World) (_ : Inp) : Prop := True

/-- Key events lie in `U`, transaction events in `V`, credentials with their anchors in `W`. -/
def Delivered (U : Event → Prop) (V : TEvt → Prop) (W : Cred → Anchor → Prop) (_ : World) : Inp → Prop
  | .node i => VDelivers U V W [i]
  | .issue _ c a => W c a
  | .crashIssue c a => W c a
  | _ => True

/-- `w` is the state after some history from an empty node. -/
def Reached (env : VEnv) (U : Event → Prop) (V : TEvt → Prop) (W : Cred → Anchor → Prop) (w : World) : Prop :=
  ∃ prefixes groups mid habs, Hist env (Delivered U V W) (World.start (VNode.start prefixes groups mid) habs) w

/-- On the way from `w0` to `w` there was a moment with `Q`. -/
def Was (env : VEnv) (G : World → Inp → Prop) (w0 w : World) (Q : World → Prop) : Prop := ∃ w1, Hist env G w0 w1 ∧ Hist env G w1 w ∧ Q w1

/-- The input is the call `a`, possibly cut off. -/
def Inp.asks (a : Ask) : Inp → Prop
  | .ask b => b = a
  | .crashAsk b _ => b = a
  | _ => False

/-- On the way from `w0` to `w` there was a call `a` in a state with `Q`. -/
def Asked (env : VEnv) (G : World → Inp → Prop) (w0 w : World) (Q : World → Ask → Prop) : Prop :=
  ∃ w1 i a, Hist env G w0 w1 ∧ G w1 i ∧ Hist env G (w1.step env i) w ∧ i.asks a ∧ Q w1 a

/-- The key event that `a`, called in state `w`, is about: of a group the one given, otherwise the last one of the controller. -/
def About (w : World) (a : Ask) (p : Id) (sn : Nat) (d : Dig) : Prop :=
  w.regs (if a.call = .incept then a.pre else a.regk) = some p ∧
    ((w.habs p = some true ∧ a.anc.2 = (sn, d)) ∨ (w.habs p ≠ some true ∧ ∃ k, w.v.t.node.kevers p = some k ∧ k.sn = sn ∧ k.serder.said = d))

/-- The call is for the event of `p` with number `sn`. -/
def Ask.For (a : Ask) (p : Id) (sn : Nat) : Prop := a.pre = p ∧ ((a.call = .incept ∧ sn = 0) ∨ (a.call ≠ .incept ∧ sn = a.sn))

/-- As many witnesses as `p` has now have receipted its event `d`. -/
def Receipted (w : World) (p : Id) (d : Dig) : Prop :=
  ∃ k, w.v.t.node.kevers p = some k ∧ (k.wits = [] ∨ (w.v.t.node.db.wigs p d).length = k.wits.length)

/-- The group `p` has completed its event `d` with number `sn`. -/
def GroupDone (w : World) (p : Id) (sn : Nat) (d : Dig) : Prop := ∃ n : Num, n.num = sn ∧ w.cgms p n = some d

/-- Something waits for the event with this identifier and number. -/
def Pending (w : World) (k : Slot) : Prop := (∃ x, (k, x) ∈ w.tpwe) ∨ (∃ d x, ((k, d), x) ∈ w.tmse) ∨ ∃ x, (k, x) ∈ w.tede

/-- It was entered as complete. -/
def Done (w : World) (k : Slot) : Prop := (w.ctel k.1 k.2).isSome = true

/-- Groups complete no other events than those waited for, and passes of the Registrar are not interrupted. -/
def Calm (w : World) : Inp → Prop
  | .registrar => ∀ x ∈ w.tmse, ∀ d, w.cgms x.2.1 x.2.2.1 = some d → d = x.2.2.2
  | .crashRegistrar _ => False
  | _ => True

/-- Passes of the Credentialer are not interrupted. -/
def CredCalm (_ : World) : Inp → Prop
  | .crashCredentialer _ => False
  | _ => True

/-- No call is about identifier `p`. -/
def NotFor (p : Id) (_ : World) (i : Inp) : Prop := ∀ a, i.asks a → a.pre ≠ p

end Verif.Iss
