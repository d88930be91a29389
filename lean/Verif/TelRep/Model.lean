import Verif.Tel.PropsWait
/-!
# Model of the answering of queries for transaction event logs (src/keri/vdr/eventing.py 1577-1631, 2507-2569)

Messages are what the parser hands to `Tevery.processEvent`: event, source seal and signatures of backers. That these survive writing and parsing is the subject of other modules.
-/

namespace Verif.TelRep

open Verif.Kel (Id Dig Sig Couple Event Node)
open Verif.Tel

/-- A transaction event message with its attachments. -/
structure TMsg where
  e : TEvt
  c : Option Couple
  sigs : List Sig
  deriving DecidableEq

/-- eventing.py:2538-2569 `cloneTvt`. -/
def cloneTvt (r : Reger) (p : Id) (d : Dig) : Except TExn TMsg :=
  match r.tvts p d with
  | none => .error .missingEntry
  | some e => .ok ⟨e, r.ancs p d, r.tibs p d⟩

/-- The messages of some entries of a log; an exception ends the iteration. -/
def cloneEach (r : Reger) (p : Id) : List (Nat × Dig) → Except TExn (List TMsg)
  | [] => .ok []
  | x :: xs => match cloneTvt r p x.2 with
    | .error e => .error e
    | .ok m => match cloneEach r p xs with
      | .error e => .error e
      | .ok ms => .ok (m :: ms)

/-- eventing.py:2507-2529 `clonePreIter`: from a number on. -/
def clonePre (r : Reger) (p : Id) (fn : Nat) : Except TExn (List TMsg) := cloneEach r p ((r.tels p).filter fun x => decide (fn ≤ x.1))

/-- eventing.py:1602-1617, a query on route tels for registry `ri` and credential `vci`, if any, from a known source: `none` when nothing is sent. Not modelled: queries that lack a field, which raise
KeyError, and those without source, which raise AttributeError. -/
def tels (r : Reger) (ri : Id) (vci : Option Id) : Except TExn (Option (List TMsg)) :=
  match clonePre r ri 0 with
  | .error e => .error e
  | .ok ms => match vci with
    | none => .ok (if ms = [] then none else some ms)
    | some vci => match clonePre r vci 0 with
      | .error e => .error e
      | .ok ms' => .ok (if ms ++ ms' = [] then none else some (ms ++ ms'))

/-- A message from elsewhere processed; whatever is raised is dropped. -/
def receive (env : TEnv) (n : Node) (r : Reger) (m : TMsg) : Reger := (r.processEvent env n false false m.e m.c m.sigs).1

/-- Messages one after the other. -/
def replay (env : TEnv) (n : Node) (r : Reger) (ms : List TMsg) : Reger := ms.foldl (receive env n) r

/-- A reply to a query on route tsn. -/
inductive Reply where
  | registry (s : TState)
  | credential (s : VcSt)
  deriving DecidableEq

/-- eventing.py:1619-1628, a query on route tsn for registry `ri` and credential `vci`, if any: what is replied, in order, and whether it ended without exception. `vcState` (1144) is called with an
argument `vcpre` that it does not have, which raises TypeError. -/
def tsn (r : Reger) (ri : Id) (vci : Option Id) : List Reply × Bool :=
  match (r.fetch ri).2 with
  | none => ([], true)
  | some t => match vci with
    | none => ([.registry t.state], true)
    | some _ => ([.registry t.state], false)

end Verif.TelRep
