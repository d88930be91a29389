import Verif.Prs.Model

/-!
# Hand-over of parsed messages (`core/parsing.py` 1316-1535 `msgProcess`, `core/eventing.py` 4683-4826 `Kevery.processMsg`)

What the parser does with a message and its attachments once they are extracted: which method of which processor is called, with which
of the attachments.  The processors are a parameter: a state and the effect of each call on it, with the way the call ends.  Messages of
the stream are those of `Verif.Prs`.

Not modelled: log output, the text of exceptions, the flag `local` (handed on as it is), `processive=False`, `AttributeError` becoming
`ValidationError` (either is caught at parsing.py:878 and ends the processing of the message), identifiers in the field `i` of a query that
are not valid prefixes.
-/

namespace Verif.Hand

open Verif.Matter (Mat)
open Verif.Idr (Ixr)
open Verif.Prs

/-- parsing.py:41-69 `asdict(MsgParseDom)`: the attachments by list, in order of arrival in each. -/
inductive Dict (β : Type) where
  | mk (body : β) (lists : Slot → List Elem) (nests : List (Dict β))

def Dict.body {β : Type} : Dict β → β
  | .mk b _ _ => b

/-- `exts['sigers']` and so on. -/
def Dict.get {β : Type} : Dict β → Slot → List Elem
  | .mk _ l _ => l

def Dict.nests {β : Type} : Dict β → List (Dict β)
  | .mk _ _ n => n

mutual
/-- parsing.py:870 `asdict(exts)`, nested messages included. -/
def asdict {β : Type} : Exts β → Dict β
  | .mk b atts ns => .mk b (fun s => (atts.filter (fun p => p.1 = s)).map (·.2)) (asdicts ns)
/-- The same for the nested messages. -/
def asdicts {β : Type} : List (Exts β) → List (Dict β)
  | [] => []
  | e :: es => asdict e :: asdicts es
end

/-- The message types (kering.py `Ilks`) the dispatch knows; `other` is any other. -/
inductive Ilk where
  | icp | rot | ixn | dip | drt | rct | qry | rpy | exn | xip | pro | bar | vcp | vrt | iss | rev | bis | brv | other
  deriving DecidableEq, Repr

/-- Class of the Serder: SerderKERI, SerderACDC or another. -/
inductive Cls where
  | keri | acdc | other
  deriving DecidableEq, Repr

/-- `serder.ked["r"]` of a query; `other` is any other text, or none. -/
inductive Route where
  | logs | ksn | mbx | tels | tsn | other
  deriving DecidableEq, Repr

/-- What the dispatch reads of a body: class, major protocol version, type, route, and field `i` (`serder.pre`). -/
structure Head where
  cls : Cls
  major : Nat
  ilk : Option Ilk
  route : Route
  sender : Option Nat
  deriving DecidableEq, Repr

/-- The requester handed to `processQuery`: that of a signature group, field `i` of the message, or nobody. -/
inductive Source where
  | group (pre : Option Mat)
  | field (pre : Nat)
  | nobody
  deriving DecidableEq, Repr

/-- Calls of the processors; `first` is the last first-seen couple, `anchor` the last seal. -/
inductive Call (β : Type) where
  | event (d : Dict β) (first anchor : Option Elem)
  | couples (d : Dict β) (first : Option Elem)
  | groups (d : Dict β) (first : Option Elem)
  | receipt (d : Dict β)
  | reply (d : Dict β)
  | queryKel (d : Dict β) (source : Source) (sigers : List Elem)
  | queryTel (d : Dict β) (source : Source) (sigers : List Elem)
  | exchange (d : Dict β)
  | tel (d : Dict β) (anchor : Option Elem)
  | acdc (d : Dict β) (anchor : Option Elem)

/-- How a call ends. -/
inductive Res where
  | ok | notFound | raised
  deriving DecidableEq, Repr

/-- The processors given to the parser and those of the Kevery itself, its lists of senders, its replay protection (`kram`: whether the
message passes; constantly true without), what the dispatch reads of a body, and what a call does. -/
structure Procs (σ β : Type) where
  head : β → Head
  kvy : Bool
  tvy : Bool
  exc : Bool
  rvy : Bool
  vry : Bool
  ownTvy : Bool := false
  ownExc : Bool := false
  ownRvy : Bool := false
  deny : List Nat := []
  allow : List Nat := []
  kram : Dict β → σ → σ × Bool
  call : Call β → σ → σ × Res

/-- State, calls made so far, and whether the message is still being processed. -/
structure Run (σ β : Type) where
  st : σ
  calls : List (Call β) := []
  live : Bool := true

/-- A call; an exception ends the processing of the message. -/
def Run.call {σ β : Type} (P : Procs σ β) (c : Call β) (r : Run σ β) : Run σ β :=
  if r.live then
    let x := P.call c r.st
    ⟨x.1, r.calls ++ [c], decide (x.2 = .ok)⟩
  else r

/-- An exception of the dispatch. -/
def Run.raise {σ β : Type} (r : Run σ β) : Run σ β := { r with live := false }

/-- parsing.py:1390 -/
def Ilk.isEvent (i : Ilk) : Bool := decide (i = .icp ∨ i = .rot ∨ i = .ixn ∨ i = .dip ∨ i = .drt)
/-- parsing.py:1498 -/
def Ilk.isTel (i : Ilk) : Bool := decide (i = .vcp ∨ i = .vrt ∨ i = .iss ∨ i = .rev ∨ i = .bis ∨ i = .brv)
/-- parsing.py:1376-1378 -/
def Ilk.isMsg (i : Ilk) : Bool := decide (i = .qry ∨ i = .rpy ∨ i = .exn ∨ i = .xip ∨ i = .pro ∨ i = .bar)

/-- parsing.py:1390-1417, key events. -/
def keyEvent {σ β : Type} (P : Procs σ β) (d : Dict β) (r : Run σ β) : Run σ β :=
  let first := (d.get .frcs).getLast?
  let anchor := (d.get .sscs).getLast?
  if d.get .sigers = [] then r.raise
  else if !P.kvy then r.raise
  else
    let r := r.call P (.event d first anchor)
    let r := if d.get .cigars = [] then r else r.call P (.couples d first)
    if d.get .rsgs = [] then r else r.call P (.groups d first)

/-- parsing.py:1419-1431, receipts. -/
def receipt {σ β : Type} (P : Procs σ β) (d : Dict β) (r : Run σ β) : Run σ β :=
  if d.get .cigars = [] ∧ d.get .wigers = [] ∧ d.get .tsgs = [] ∧ d.get .rsgs = [] then r.raise
  else if !P.kvy then r.raise
  else r.call P (.receipt d)

/-- parsing.py:1434-1444 and eventing.py:4776-4787, replies; `has` tells whether there is a Revery. -/
def reply {σ β : Type} (P : Procs σ β) (has : Bool) (d : Dict β) (r : Run σ β) : Run σ β :=
  if d.get .cigars = [] ∧ d.get .tsgs = [] then r.raise
  else if !has then r.raise
  else r.call P (.reply d)

/-- parsing.py:1486-1496 and eventing.py:4789-4800, exchange messages; `has` tells whether there is an Exchanger. -/
def exchange {σ β : Type} (P : Procs σ β) (has : Bool) (d : Dict β) (r : Run σ β) : Run σ β :=
  if d.get .cigars = [] ∧ d.get .tsgs = [] then r.raise
  else if !has then r.raise
  else r.call P (.exchange d)

/-- parsing.py:1461-1484 and eventing.py:4762-4774: a query with the requester and signatures found.  A QueryNotFoundError (1468) is only
logged, it comes last anyway. -/
def query {σ β : Type} (P : Procs σ β) (hasTvy : Bool) (d : Dict β) (src : Source) (sigers : List Elem) (r : Run σ β) : Run σ β :=
  match (P.head d.body).route with
  | .logs | .ksn | .mbx => if !P.kvy then r.raise else r.call P (.queryKel d src sigers)
  | .tels | .tsn => if !hasTvy then r.raise else r.call P (.queryTel d src sigers)
  | .other => r.raise

/-- The signatures of a group, as a list of attachments. -/
def sigsIn (g : Elem) : List Elem := g.sigs.map (fun s => ⟨[], [s], []⟩)

/-- parsing.py:1446-1459: the requester of a query of version 1.  Without signature group there is no key `source` in `exts`, so that 1456
raises KeyError whether or not there are couples. -/
def query1 {σ β : Type} (P : Procs σ β) (d : Dict β) (r : Run σ β) : Run σ β :=
  match (d.get .lsgs).getLast? with
  | some g => query P P.tvy d (.group g.mats.head?) (sigsIn g) r
  | none => r.raise

/-- eventing.py:4747-4760: the requester of a query of version 2. -/
def query2 {σ β : Type} (P : Procs σ β) (d : Dict β) (r : Run σ β) : Run σ β :=
  match (d.get .lsgs).getLast? with
  | some g => query P (P.tvy || P.ownTvy) d (.group g.mats.head?) (sigsIn g) r
  | none =>
    if d.get .sigers = [] then
      if d.get .cigars = [] then r.raise else query P (P.tvy || P.ownTvy) d .nobody [] r
    else match (P.head d.body).sender with
      | none => r.raise
      | some i => query P (P.tvy || P.ownTvy) d (.field i) (d.get .sigers) r

/-- eventing.py:4723-4736: the sender is refused. -/
def refused {σ β : Type} (P : Procs σ β) (sender : Option Nat) : Bool :=
  match sender with
  | none => false
  | some i => decide (i ∈ P.deny) || (decide (P.allow ≠ []) && decide (i ∉ P.allow))

/-- eventing.py:4683-4826 `Kevery.processMsg`. -/
def processMsg {σ β : Type} (P : Procs σ β) (ilk : Ilk) (d : Dict β) (r : Run σ β) : Run σ β :=
  if refused P (P.head d.body).sender then r.raise
  else
    let x := P.kram d r.st
    let r := { r with st := x.1 }
    if !x.2 then r.raise
    else match ilk with
      | .qry => query2 P d r
      | .rpy => reply P (P.rvy || P.ownRvy) d r
      | .exn => exchange P (P.exc || P.ownExc) d r
      | .xip | .pro | .bar => r
      | _ => r.raise

/-- parsing.py:1373-1511, messages of the protocol KERI. -/
def keri {σ β : Type} (P : Procs σ β) (ilk : Ilk) (d : Dict β) (r : Run σ β) : Run σ β :=
  if P.kvy && decide ((P.head d.body).major ≥ 2) && ilk.isMsg then processMsg P ilk d r
  else if ilk.isEvent then keyEvent P d r
  else if ilk = .rct then receipt P d r
  else if ilk = .rpy then reply P P.rvy d r
  else if ilk = .qry then query1 P d r
  else if ilk = .exn then exchange P P.exc d r
  else if ilk.isTel then if !P.tvy then r.raise else r.call P (.tel d (d.get .sscs).getLast?)
  else r.raise

/-- parsing.py:1316-1535 `msgProcess`. -/
def msgProcess {σ β : Type} (P : Procs σ β) (d : Dict β) (s : σ) : Run σ β :=
  match (P.head d.body).cls, (P.head d.body).ilk with
  | .keri, some ilk => keri P ilk d ⟨s, [], true⟩
  | .keri, none => ⟨s, [], false⟩
  | .acdc, none => if !P.vry then ⟨s, [], false⟩ else Run.call P (.acdc d (d.get .ssts).getLast?) ⟨s, [], true⟩
  | .acdc, some _ => ⟨s, [], false⟩
  | .other, _ => ⟨s, [], false⟩

/-- parsing.py:868-889: one message after the other, whatever becomes of each. -/
def feed {σ β : Type} (P : Procs σ β) (s : σ) (ds : List (Dict β)) : σ := ds.foldl (fun s d => (msgProcess P d s).st) s

/-- All calls made, in order. -/
def calls {σ β : Type} (P : Procs σ β) : σ → List (Dict β) → List (Call β)
  | _, [] => []
  | s, d :: ds => (msgProcess P d s).calls ++ calls P (msgProcess P d s).st ds

end Verif.Hand
