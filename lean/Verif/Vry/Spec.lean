import Verif.Vry.Model
import Verif.Tel.Spec

/-! # Vocabulary of the statements about credentials -/

namespace Verif.Vry

open Verif.Kel (Id Dig Event)
open Verif.Tel (TNode TEvt Reger TDelivers TInp VcSt)

/-- The history of the transaction event node inside a history. -/
def VInp.inner : VInp → Option TInp
  | .tel i => some i
  | _ => none

/-- The credential and anchor carried by an input, if any. -/
def VInp.cred? : VInp → Option (Cred × Anchor)
  | .cred _ c a => some (c, a)
  | _ => none

/-- Key events lie in `U`, transaction events in `V`, credentials with their anchors in `W`. -/
structure VDelivers (U : Event → Prop) (V : TEvt → Prop) (W : Cred → Anchor → Prop) (h : List VInp) : Prop where
  inner : TDelivers U V (h.filterMap VInp.inner)
  creds : ∀ i ∈ h, ∀ c a, i.cred? = some (c, a) → W c a

/-- No two credentials of `W` share a digest. -/
def NoCollC (W : Cred → Anchor → Prop) : Prop := ∀ x y a b, W x a → W y b → x.said = y.said → x = y

/-- `v` is the state after some history. -/
def VReached (env : VEnv) (U : Event → Prop) (V : TEvt → Prop) (W : Cred → Anchor → Prop) (v : VNode) : Prop :=
  ∃ prefixes groups mid h, VDelivers U V W h ∧ v = (VNode.start prefixes groups mid).run env h

/-- Credential `c` was accepted: its digest is among the saved ones and leads to it. -/
structure Saved (s : Store) (c : Cred) : Prop where
  listed : c.said ∈ s.saved
  stored : s.creds c.said = some c

/-- The last operator that constrains the issuer. -/
def lastDelegative (ops : List Op) : Option Op :=
  (ops.filter (fun o => decide (o = .i2i ∨ o = .ni2i ∨ o = .di2i))).getLast?

/-- What the operators of an edge from `near` to `far` demand. -/
structure Allowed (near far : Cred) (ops : List Op) : Prop where
  /-- Negation and delegated issuers are not supported. -/
  noNot : .not ∉ ops
  noDi2i : lastDelegative ops ≠ some .di2i
  /-- Issuer to issuee: the far credential was issued to the near issuer. -/
  i2i : lastDelegative ops = some .i2i → far.issuee = some near.issuer
  /-- The same by default, when the far credential has an issuee. -/
  dflt : (∀ o ∈ ops, o = .unknown) → ∀ x, far.issuee = some x → x = near.issuer
  /-- Equal issuees. -/
  e1e : .e1e ∈ ops → ∃ x, near.issuee = some x ∧ far.issuee = some x

/-- Registry `k` is known and the log of credential `d` not empty; its status is not too old. -/
def Current (late : Dig → Bool) (r : Reger) (k : Id) (d : Dig) (P : VcSt → Prop) : Prop :=
  ∃ tv st, (r.fetch k).2 = some tv ∧ r.vcState tv d = .ok (some st) ∧ late st.said = false ∧ P st

/-- An edge is fulfilled. -/
def Fulfilled (env : VEnv) (late : Dig → Bool) (r : Reger) (s : Store) (near : Cred) (e : Edge) : Prop :=
  ∃ far, e.n = some far.said ∧ Saved s far ∧ Allowed near far e.ops ∧
    (∀ k, e.schema = some k → k = far.schema ∨ (k ∈ s.schemas ∧ env.fits k far = true)) ∧
    Current late r far.regid far.said (fun st => st.ilk.revoked = false)

/-- All that is asked of a credential. -/
structure Acceptable (env : VEnv) (late : Dig → Bool) (r : Reger) (s : Store) (c : Cred) : Prop where
  status : Current late r c.regid c.said (fun _ => True)
  known : c.schema ∈ s.schemas
  fits : env.fits c.schema c = true
  edges : ∃ es, c.edges = some es ∧ ∀ e ∈ es, Fulfilled env late r s c e

/-- `d` waits in some escrow. -/
def Waiting (s : Store) (d : Dig) : Prop := d ∈ s.mre ∨ d ∈ s.mce ∨ d ∈ s.mse

end Verif.Vry
