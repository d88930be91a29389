import Verif.Kel.Run

/-!
# Replay of first-seen logs and cleaning of a database (src/keri/db/basing.py)

`Baser.clonePreIter` and `cloneAllPreIter` turn first-seen logs into messages, `Baser.clean` has a new empty database verify
them and takes its place. Messages are modelled as what the parser hands to `Kevery.processEvent`: event body, signatures,
witness signatures and source seal couple; that attachments survive serialization and parsing is the subject of other
modules. Left out: receipts of others (`rcts`, `vrcs`), which do not touch key event logs, dates, and the sub-databases that
`clean` copies without looking at them.
-/

namespace Verif.Replay

open Verif.Kel

/-- A key event message with its attachments, as `cloneEvtMsg` builds it (basing.py:1787-1788). -/
structure Msg where
  e : Event
  sigs : List Sig
  wigs : List Sig
  couple : Option Couple
  deriving DecidableEq

/-- basing.py:1711-1789 `cloneEvtMsg`: no message without stored body (1733-1734) or stored signatures (1737-1738). The date
(1781-1782) is stored whenever the event is, so its absence is not modelled. -/
def cloneEvt (db : Db) (pre : Id) (dig : Dig) : Option Msg :=
  match db.evts pre dig with
  | none => none
  | some e => if db.sigs pre dig = [] then none else some ⟨e, db.sigs pre dig, db.wigs pre dig, db.aess pre dig⟩

/-- basing.py:1655-1680 `clonePreIter`: the messages of the first-seen log from ordinal `fn` on; events without message are
skipped. -/
def clonePre (db : Db) (pre : Id) (fn : Nat) : List Msg := ((db.fels pre).drop fn).filterMap (cloneEvt db pre)

/-- basing.py:1683-1707 `cloneAllPreIter`: identifier after identifier in the order of the database keys. `order` lists the
identifiers that have a first-seen log in that order. -/
def cloneAll (db : Db) (order : List Id) : List Msg := order.flatMap fun p => clonePre db p 0

/-- parsing.py:1405 and 642-648: a message parsed from a remote source; whatever is raised is logged and dropped. -/
def receive (env : Env) (n : Node) (x : Msg) : Node := (n.processEvent env x.e x.sigs x.wigs x.couple false false).1

/-- Messages parsed one after the other. -/
def replay (env : Env) (n : Node) (xs : List Msg) : Node := xs.foldl (receive env) n

/-- basing.py:75-127 `statedict`: a key state in memory, or else one reloaded from `.states` (eventing.py:2301-2332) when the
body of its last event is stored. -/
def lookup (n : Node) (p : Id) : Option Kever :=
  match n.kevers p with
  | some k => some k
  | none => match n.db.states p with
    | none => none
    | some k => match n.db.evts p k.serder.said with
      | none => none
      | some e => some { k with serder := e }

/-- A record of `.habs`: identifier and, for a group identifier, the local member. -/
structure Hab where
  hid : Id
  mid : Option Id
  deriving DecidableEq

/-- The new database: empty and without identifiers of its own while it verifies the messages, basing.py:1540-1560. -/
def cleanCopy (env : Env) (db : Db) (order : List Id) : Node :=
  replay env (Node.start [] [] (fun _ => none)) (cloneAll db order)

/-- basing.py:1565-1574: `.states` is among the sub-databases copied without verification; `put` does not overwrite. -/
def copyStates (env : Env) (db : Db) (order : List Id) : Node :=
  let c := cleanCopy env db order
  { c with db := { c.db with states := fun p => match c.db.states p with
      | some k => some k
      | none => db.states p } }

/-- basing.py:1596-1603: the records kept are those whose identifier is found among the key states of the copy. -/
def keptHabs (env : Env) (db : Db) (order : List Id) (habs : List Hab) : List Hab :=
  habs.filter fun h => (lookup (copyStates env db order) h.hid).isSome

/-- basing.py:1521-1652 `clean`: the node after its database was replaced. Own identifiers and groups are those of the records
kept (1618-1630); a key state found through `.states` when the records were tested stays in memory (100). -/
def clean (env : Env) (db : Db) (order : List Id) (habs : List Hab) : Node :=
  let c := copyStates env db order
  let hs := keptHabs env db order habs
  { db := c.db,
    kevers := fun p => if p ∈ hs.map Hab.hid then lookup c p else c.kevers p,
    prefixes := oset (hs.map Hab.hid),
    groups := oset ((hs.filter fun h => h.mid.isSome).map Hab.hid),
    mid := fun p => match hs.find? fun h => decide (h.hid = p) with
      | none => none
      | some h => h.mid }

end Verif.Replay
