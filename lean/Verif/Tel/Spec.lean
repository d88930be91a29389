import Verif.Tel.Model
import Verif.Kel.Spec

/-! # Vocabulary of the statements about transaction event logs -/

namespace Verif.Tel

open Verif.Kel (Id Dig Sig Couple Event Node Inp)

/-- The key event carried by an input, if any. -/
def TInp.event : TInp → Option Event
  | .kel i => i.delivers
  | _ => none

/-- The transaction event carried by an input, if any. -/
def TInp.tevent : TInp → Option TEvt
  | .tel _ _ e _ _ => some e
  | _ => none

/-- All key events carried by a history lie in `U`, all transaction events in `V`. -/
def TDelivers (U : Event → Prop) (V : TEvt → Prop) (h : List TInp) : Prop :=
  (∀ i ∈ h, ∀ e, i.event = some e → U e) ∧ (∀ i ∈ h, ∀ e, i.tevent = some e → V e)

/-- No two transaction events of `V` share a digest. -/
def NoCollT (V : TEvt → Prop) : Prop := ∀ x y, V x → V y → x.said = y.said → x = y

/-- Registry identifiers are the digests of their inception events (serdering: both "d" and "i" of a vcp message are its digest). -/
def SelfAddressing (V : TEvt → Prop) : Prop := ∀ x, V x → x.ilk = .vcp → x.pre = x.said

/-- `t` is the state after some history with events in `U` and `V`. -/
def TReached (env : TEnv) (U : Event → Prop) (V : TEvt → Prop) (t : TNode) : Prop :=
  ∃ prefixes groups mid h, TDelivers U V h ∧ t = (TNode.start prefixes groups mid).run env h

/-- `iss` sealed `e`: an accepted event of its key event log has exactly one anchor, which is the seal of `e`. -/
def Sealed (env : TEnv) (n : Node) (iss : Id) (e : TEvt) : Prop :=
  ∃ x, Kel.Accepted n.db iss x ∧ env.anc x = .one e.pre e.sn e.said

/-- `v` is a stored inception event of registry `k`, sealed by the identifier it names as its issuer. -/
structure Registered (env : TEnv) (n : Node) (r : Reger) (k : Id) (v : TEvt) : Prop where
  ilk : v.ilk = .vcp
  pre : v.pre = k
  stored : r.tvts k v.said = some v
  sealed : Sealed env n v.issuer v

/-- `e` is entry `on` of the log of `p`. -/
structure InLog (r : Reger) (p : Id) (on : Nat) (e : TEvt) : Prop where
  entry : (on, e.said) ∈ r.tels p
  stored : r.tvts p e.said = some e

/-- The event counts as a revocation. -/
def TIlk.revoked (i : TIlk) : Bool := i == .rev || i == .brv

end Verif.Tel
