import Verif.Kel.Model

/-!
# Escrow passes and histories (src/keri/core/eventing.py 6027-7000)

A history is a list of inputs: delivered key events, escrow passes, the retry of a single escrow entry (so that the states
inside a pass are states of a history too), changes of the set of own identifiers, and receipts of
witnesses arriving (arbitrary signatures added to the stored witness signatures of any event, so nothing proved depends on how
receipts are checked), and approvals recorded for any event (`aess.pin`: confirm.py:109, delegating.py:153, grouping.py:220; any
couple for any event, so nothing proved depends on how approvals are decided).
-/

namespace Verif.Kel

/-- The escrows that re-run `processEvent`. The likely-duplicitous escrow is not among them: nothing is ever entered in it. -/
inductive Esc where
  | outOfOrder | partialSigs | partialWigs | partialDels | delegable
  deriving DecidableEq, Repr

/-- Entries of an escrow in key order (`getAllItemIter`). -/
def Db.entries (db : Db) : Esc → List (Id × Nat × Dig)
  | .outOfOrder => db.ooes
  | .partialSigs => db.pses
  | .partialWigs => db.pwes
  | .partialDels => db.pdes
  | .delegable => db.delegables

/-- `rem(keys=pre, on=sn, val=edig)`. -/
def Db.remEntry (db : Db) (x : Id × Nat × Dig) : Esc → Db
  | .outOfOrder => { db with ooes := db.ooes.filter (fun y => decide (y ≠ x)) }
  | .partialSigs => { db with pses := db.pses.filter (fun y => decide (y ≠ x)) }
  | .partialWigs => { db with pwes := db.pwes.filter (fun y => decide (y ≠ x)) }
  | .partialDels => { db with pdes := db.pdes.filter (fun y => decide (y ≠ x)) }
  | .delegable => { db with delegables := db.delegables.filter (fun y => decide (y ≠ x)) }

/-- The exception on which an entry stays: OutOfOrderError (6154), MissingSignatureError (6292), MissingWitnessSignatureError
(6449), MissingDelegationError (6601), MissingDelegableApprovalError (6973). -/
def Esc.keep : Esc → Exn
  | .outOfOrder => .outOfOrder
  | .partialSigs => .missingSignature
  | .partialWigs => .missingWitness
  | .partialDels => .missingDelegation
  | .delegable => .missingApproval

/-- Couple and eagerness passed on: out-of-order passes neither (6142), delegables the approved seal from `aess` without
eagerness (6962-6967), the others the escrowed couple with `eager=True` (6269-6272, 6427-6430, 6573-6576). -/
def Esc.couple (db : Db) (pre : Id) (d : Dig) : Esc → Option Couple × Bool
  | .outOfOrder => (none, false)
  | .delegable => (db.aess pre d, false)
  | _ => (db.udes pre d, true)

/-- `udes.rem`: on success of partial sigs, wigs and dels (6315, 6471, 6626), also on other errors of partial dels (6615). -/
def Esc.cleanUde (db : Db) (pre : Id) (d : Dig) (ok : Bool) : Esc → Db
  | .partialDels => { db with udes := upd2 db.udes pre d none }
  | .partialSigs => if ok then { db with udes := upd2 db.udes pre d none } else db
  | .partialWigs => if ok then { db with udes := upd2 db.udes pre d none } else db
  | _ => db

/-- One entry of an escrow pass: missing source, stale entry, missing event or signatures remove it; otherwise the event is
processed again with what is stored. Lines 6076-6171, 6206-6325, 6356-6475, 6506-6631, 6908-6990. `stale` tells which
entries have timed out. -/
def Node.escStep (env : Env) (kind : Esc) (stale : Dig → Bool) (n : Node) (x : Id × Nat × Dig) : Node :=
  let (pre, _, d) := x
  let drop : Node → Bool → Node := fun n ok => { n with db := Esc.cleanUde (n.db.remEntry x kind) pre d ok kind }
  match n.db.esrs pre d with
  | none => drop n false
  | some isLocal =>
    if stale d then drop n false
    else match n.db.evts pre d with
      | none => drop n false
      | some e =>
        if n.db.sigs pre d = [] then drop n false
        else if kind = .delegable ∧ n.db.aess pre d = none then n
        else
          match n.processEvent env e (n.db.sigs pre d) (n.db.wigs pre d) (kind.couple n.db pre d).1
              (kind.couple n.db pre d).2 isLocal with
          | (n', .ok ()) => drop n' true
          | (n', .error x) => if x = kind.keep then n' else drop n' false

/-- One escrow pass over the entries present at its start (the iteration reads a snapshot). -/
def Node.escPass (env : Env) (kind : Esc) (stale : Dig → Bool) (n : Node) : Node :=
  (n.db.entries kind).foldl (fun n x => n.escStep env kind stale x) n

/-- eventing.py:6027-6044 `processEscrows`: order of the passes (receipt escrows do not touch key event logs). -/
def Node.processEscrows (env : Env) (stale : Dig → Bool) (n : Node) : Node :=
  (((n.escPass env .outOfOrder stale).escPass env .partialDels stale).escPass env .partialWigs stale).escPass env
    .partialSigs stale

/-- Inputs of a node. -/
inductive Inp where
  | event (e : Event) (ss ws : List Sig) (couple : Option Couple) (eager isLocal : Bool)
  | pass (kind : Esc) (stale : Dig → Bool)
  | retry (kind : Esc) (stale : Dig → Bool) (x : Id × Nat × Dig)
  | config (prefixes groups : List Id) (mid : Id → Option Id)
  | receipts (pre : Id) (d : Dig) (ws : List Sig)
  | approve (pre : Id) (d : Dig) (c : Couple)

/-- Effect of one input. -/
def Node.step (env : Env) (n : Node) : Inp → Node
  | .event e ss ws c eager isLocal => (n.processEvent env e ss ws c eager isLocal).1
  | .pass kind stale => n.escPass env kind stale
  | .retry kind stale x => n.escStep env kind stale x
  | .config p g m => { n with prefixes := p, groups := g, mid := m }
  | .receipts p d ws => { n with db := { n.db with wigs := upd2 n.db.wigs p d (ioPut (n.db.wigs p d) ws) } }
  | .approve p d c => { n with db := { n.db with aess := upd2 n.db.aess p d (some c) } }

/-- A node before any input. -/
def Node.start (prefixes groups : List Id) (mid : Id → Option Id) : Node :=
  { db := Db.empty, kevers := fun _ => none, prefixes := prefixes, groups := groups, mid := mid }

/-- A history run from the start. -/
def Node.run (env : Env) (n : Node) (h : List Inp) : Node := h.foldl (fun n i => n.step env i) n

/-- The event delivered by an input, if any. -/
def Inp.delivers : Inp → Option Event
  | .event e .. => some e
  | _ => none

end Verif.Kel
