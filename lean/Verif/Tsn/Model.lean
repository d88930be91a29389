/-!
# Model of notices of the state of registries and credentials (src/keri/vdr/eventing.py 1642-1922, 1968-1983; db/escrowing.py 101-238)

What the node knows when a notice is processed is a `View`, which may change in any way between two steps: logs and states of registries (`Verif.Tel`), key states, the watchers of own
identifiers, the clock, and what `acceptReply` (routing.py:181-431, `Verif.Rpy`) says of the signatures. The digest of the notice before, which is handed to `acceptReply`, is that of an
event of a registry (eventing.py:1748, 1778, 1887, 1921); nothing is stored under it in the stores of replies (routing.py:238, 317), so that it makes no difference and is left out.

Simplifications: the digest in a log is that of the event stored under it (1770-1774, 1909-1919), with its number (1913); entries of an escrow are in the order of arrival over all keys;
an iteration goes over the entries as they were when it began.
-/

namespace Verif.Tsn

abbrev Id := Nat
abbrev Dig := Nat

/-- A reply message on route `/tsn/registry/{aid}` or `/tsn/credential/{aid}` with the record in its field "a" (eventing.py:1702-1711, 1721-1726, 1832-1847): digest, kind, source, `key` is
"i" of the record, `regk` "ri" of a credential's, `pre` "ii" of a registry's, number "s", event digest "d", `regsn` is "s" of "ra" or 0, whether "c" has NB, backers "b", date. -/
structure Notice where
  said : Dig
  cred : Bool
  aid : Id
  key : Id
  regk : Id
  pre : Id
  sn : Nat
  d : Dig
  regsn : Nat
  nb : Bool
  baks : List Id
  dt : Nat
  deriving DecidableEq

/-- State of a registry: controller, number, whether without backers, backers. -/
structure Tv where
  pre : Id
  sn : Nat
  nb : Bool
  baks : List Id
  deriving DecidableEq

/-- What a node knows: `wits` are the witnesses of known identifiers, `tev` the registries, `tels` the digest at a number of a log, `wats` watchers of own identifiers; `accept` is what
`acceptReply` returns for a notice with attachments, `none` when it raises. -/
structure View (Att : Type) where
  lax : Bool
  wits : Id → Option (List Id)
  tev : Id → Option Tv
  tels : Id → Nat → Option Dig
  wats : List Id
  now : Nat
  accept : Notice → List Att → Option Bool

/-- The escrows (eventing.py:1714, 1761, 1850, 1860, 1900): registry-mae, registry-ooo, credential-mre, credential-mae, credential-ooo. -/
inductive Typ where
  | rmae | rooo | cmre | cmae | cooo
  deriving DecidableEq

/-- Exceptions by class. -/
inductive Exn where
  | missingAnchor | missingRegistry | outOfOrder | untrusted | unverified | validation
  deriving DecidableEq

/-- An entry of an escrow: type, identifier, source, digest of the notice. -/
structure Entry where
  typ : Typ
  key : Id
  aid : Id
  said : Dig
  deriving DecidableEq

/-- What is asked for (eventing.py:1716, 1763, 1852, 1862, 1902) and told (1779, 1922). -/
inductive Cue where
  | query (pre : Id)
  | telquery (regk : Id) (vci : Option Id)
  | saved (n : Notice)
  deriving DecidableEq

/-- Stores of the Broker (escrowing.py:53-87): dates, notices and signatures by digest, escrows, and the digest saved by identifier and source. -/
structure Db (Att : Type) where
  dts : Dig → Option Nat
  sns : Dig → Option Notice
  atts : Dig → List Att
  esc : List Entry
  saved : Id → Id → Option Dig
  cues : List Cue

/-- Nothing stored. -/
def Db.empty (Att : Type) : Db Att := ⟨fun _ => none, fun _ => none, fun _ => [], [], fun _ _ => none, []⟩

def upd {α β : Type} [DecidableEq α] (f : α → β) (a : α) (b : β) : α → β := fun x => if x = a then b else f x

variable {Att : Type} [DecidableEq Att]

/-- `.put` of a store with one value: does not replace. -/
def put {β : Type} (f : Dig → Option β) (k : Dig) (v : β) : Dig → Option β :=
  match f k with
  | none => upd f k (some v)
  | some _ => f

/-- Entry of an insertion ordered set. -/
def addAll {α : Type} [DecidableEq α] (l : List α) : List α → List α
  | [] => l
  | x :: xs => addAll (if x ∈ l then l else l ++ [x]) xs

/-- escrowing.py:175-208 `escrowStateNotice`, and the cue when the entry is new (eventing.py:1714-1716 and alike). -/
def Db.escrow (db : Db Att) (typ : Typ) (n : Notice) (atts : List Att) (cue : Cue) : Db Att :=
  let e : Entry := ⟨typ, n.key, n.aid, n.said⟩
  { db with dts := put db.dts n.said n.dt, sns := put db.sns n.said n, atts := upd db.atts n.said (addAll (db.atts n.said) atts),
            esc := if e ∈ db.esc then db.esc else db.esc ++ [e], cues := if e ∈ db.esc then db.cues else db.cues ++ [cue] }

/-- escrowing.py:210-228 `updateReply`, under the digest of the event, and the cue (eventing.py:1778-1779, 1921-1922). -/
def Db.update (db : Db Att) (n : Notice) : Db Att :=
  { db with dts := put db.dts n.d n.dt, sns := upd db.sns n.d (some n), saved := upd db.saved n.key (upd (db.saved n.key) n.aid (some n.d)), cues := db.cues ++ [.saved n] }

/-- eventing.py:1750-1779 and 1889-1922: signatures, then the log. -/
def Db.finish (v : View Att) (db : Db Att) (typ : Typ) (n : Notice) (atts : List Att) (cue : Cue) : Db Att × Except Exn Unit :=
  match v.accept n atts with
  | none => (db, .error .validation)
  | some false => (db, .error .unverified)
  | some true => match v.tels n.key n.sn with
    | none => (db.escrow typ n atts cue, .error .outOfOrder)
    | some d => if d ≠ n.d then (db, .error .validation) else (db.update n, .ok ())

/-- eventing.py:1741-1745: the node's state of the registry is ahead. -/
def stale (v : View Att) (n : Notice) : Bool :=
  match v.tev n.key with
  | some t => decide (n.sn < t.sn)
  | none => false

/-- eventing.py:1642-1779 `processReplyRegistryTxnState`: controller and backers are those that the notice names. -/
def Db.registry (v : View Att) (db : Db Att) (n : Notice) (atts : List Att) : Db Att × Except Exn Unit :=
  match v.wits n.pre with
  | none => (db.escrow .rmae n atts (.query n.pre), .error .missingAnchor)
  | some wits =>
    let baks := if n.nb then wits else n.baks
    if v.lax = false ∧ n.aid ≠ n.pre ∧ n.aid ∉ baks ∧ n.aid ∉ v.wats then (db, .error .untrusted)
    else if stale v n then (db, .error .validation)
    else db.finish v .rooo n atts (.telquery n.key none)

/-- eventing.py:1781-1922 `processReplyCredentialTxnState`. The query for the controller asks for the source (1862). -/
def Db.credential (v : View Att) (db : Db Att) (n : Notice) (atts : List Att) : Db Att × Except Exn Unit :=
  match v.tev n.regk with
  | none => (db.escrow .cmre n atts (.telquery n.regk none), .error .missingRegistry)
  | some t =>
    if t.sn < n.regsn then (db.escrow .cmre n atts (.telquery n.regk none), .error .missingRegistry)
    else match v.wits t.pre with
      | none => (db.escrow .cmae n atts (.query n.aid), .error .missingAnchor)
      | some wits =>
        let baks := if t.nb then wits else t.baks
        if v.lax = false ∧ n.aid ≠ t.pre ∧ n.aid ∉ baks ∧ n.aid ∉ v.wats then (db, .error .untrusted)
        else db.finish v .cooo n atts (.telquery n.regk (some n.key))

/-- The handler for a kind. -/
def Db.handle (cred : Bool) (v : View Att) (db : Db Att) (n : Notice) (atts : List Att) : Db Att × Except Exn Unit :=
  if cred then db.credential v n atts else db.registry v n atts

/-- The handler of the route (eventing.py:1637-1638). -/
def Db.process (v : View Att) (db : Db Att) (n : Notice) (atts : List Att) : Db Att × Except Exn Unit := db.handle n.cred v n atts

/-- The kind of notice that an escrow is of (eventing.py:1974-1983). -/
def Typ.cred : Typ → Bool
  | .rmae | .rooo => false
  | .cmre | .cmae | .cooo => true

/-- The exception that leaves an entry where it is (eventing.py:1974-1983). -/
def Typ.exn : Typ → Exn
  | .rmae | .cmae => .missingAnchor
  | .cmre => .missingRegistry
  | .rooo | .cooo => .outOfOrder

/-- `escrowdb.rem`. -/
def Db.rem (db : Db Att) (e : Entry) : Db Att := { db with esc := db.esc.filter fun x => decide (x ≠ e) }

/-- escrowing.py:117-173, the turn of an entry. The date is that of the notice; handlers of registries and credentials go with the type. -/
def Db.turn (v : View Att) (db : Db Att) (e : Entry) : Db Att :=
  match db.dts e.said, db.sns e.said with
  | some dt, some n =>
    if db.atts e.said = [] then db.rem e
    else if 3600 < v.now - dt then db.rem e
    else match db.handle e.typ.cred v n (db.atts e.said) with
      | (db, .ok _) => db.rem e
      | (db, .error x) => if x = e.typ.exn then db else db.rem e
  | _, _ => db.rem e

/-- escrowing.py:101-173 `processEscrowState`. -/
def Db.passOf (v : View Att) (db : Db Att) (typ : Typ) : Db Att := (db.esc.filter fun e => decide (e.typ = typ)).foldl (fun db e => db.turn v e) db

/-- eventing.py:1974-1983. -/
def Db.pass (v : View Att) (db : Db Att) : Db Att := [Typ.cmre, .cmae, .cooo, .rmae, .rooo].foldl (fun db t => db.passOf v t) db

/-- Inputs: a notice with attachments, or a look at the escrows, each with what is known at the time. -/
inductive Inp (Att : Type) where
  | notice (v : View Att) (n : Notice) (atts : List Att)
  | pass (v : View Att)

def Db.step (db : Db Att) : Inp Att → Db Att
  | .notice v n atts => (db.process v n atts).1
  | .pass v => db.pass v

/-- A history run. -/
def Db.run (db : Db Att) (h : List (Inp Att)) : Db Att := h.foldl Db.step db

end Verif.Tsn
