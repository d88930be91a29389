import Verif.Kel.Run

/-! # Vocabulary of the statements about key event logs -/

namespace Verif.Kel

open Verif.Thold (Thold)

/-- All events delivered by a history lie in `U`. -/
def Delivers (U : Event → Prop) (h : List Inp) : Prop := ∀ i ∈ h, ∀ e, i.delivers = some e → U e

/-- No two events of `U` share a digest (collision freedom of the digest on the events that occur). -/
def NoColl (U : Event → Prop) : Prop := ∀ x y, U x → U y → x.said = y.said → x = y

/-- `n` is the state of a node after some history of inputs whose events all lie in `U`. -/
def Reached (env : Env) (U : Event → Prop) (n : Node) : Prop :=
  ∃ prefixes groups mid h, Delivers U h ∧ n = (Node.start prefixes groups mid).run env h

/-- No delegated rotation occurs. -/
def NoDrt (U : Event → Prop) : Prop := ∀ e, U e → e.ilk ≠ .drt

/-- `x` is an accepted event of `p`: it is in the first-seen log and its body is stored. -/
def Accepted (db : Db) (p : Id) (x : Event) : Prop := x.said ∈ db.fels p ∧ db.evts p x.said = some x

/-- `a` is the establishment event whose keys are authoritative for `x`: `x` itself if it is one, otherwise the one found by
following prior digests through interaction events. -/
inductive Authority (db : Db) (p : Id) : Event → Event → Prop
  | est {x : Event} (h : x.ilk.est = true) : Authority db p x x
  | ixn {x y a : Event} (h : x.ilk = .ixn) (hp : y.said = x.prior) (hs : y.sn + 1 = x.sn) (hy : Accepted db p y)
      (ha : Authority db p y a) : Authority db p x a

/-- The signature `s` is by the key at its position in `keys`, over `x`. -/
def SignedBy (env : Env) (keys : List Id) (x : Event) (s : Sig) : Prop :=
  ∃ key, keys[s.index]? = some key ∧ env.verify key s.raw x = true

/-- Processing the message turns `n` into `n'` and the event enters the first-seen log. -/
def Enters (env : Env) (n : Node) (e : Event) (ss ws : List Sig) (couple : Option Couple) (eager isLocal : Bool)
    (n' : Node) : Prop :=
  n' = (n.processEvent env e ss ws couple eager isLocal).1 ∧ n'.db.fels e.pre ≠ n.db.fels e.pre

/-- Key state, key event logs and first-seen logs agree. -/
def LogsEq (n n' : Node) : Prop :=
  n'.db.kels = n.db.kels ∧ n'.db.fels = n.db.fels ∧ n'.db.fons = n.db.fons ∧ n'.db.states = n.db.states ∧
  n'.kevers = n.kevers

end Verif.Kel
