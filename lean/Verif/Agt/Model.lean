import Verif.Base.Err
import Verif.Krm.Tab

/-!
# Talking to witnesses (src/keri/app/agenting.py, src/keri/app/querying.py)

Identifiers of witnesses are an opaque type. A receipt is the indexed signature of a witness as it is stored (`db.wigs`), of which only the index is
looked at. Doers run between the `yield`s of each other: what they do between two of them is one step.
-/

namespace Verif.Agt

open Verif.Krm

/-- The exceptions raised: MissingEntryError, IndexError, KeyError. -/
inductive Fail where
  | missingEntry | indexError | keyError
  deriving DecidableEq

/-- `Siger` of a witness. -/
structure Wig where
  index : Nat
  sig : Nat
  deriving DecidableEq

/-! ## Gathering and sharing receipts -/

inductive Ilk where
  | icp | rot | ixn | dip | drt
  deriving DecidableEq

/-- What is posted to a witness: the event, the whole log, or receipts of others with their locations. -/
inductive Post (Id : Type) where
  | event
  | log
  | share (intro : List Id) (wigs : List Wig)
  deriving DecidableEq

/-- The outside: whether there is an HTTP endpoint, what a witness answers (`none` for another status than 200), what becomes of the database when an
answer is parsed, and the receipts stored for the event. -/
structure Net (Id DB Body : Type) where
  endpoint : Id → Bool
  answer : Id → Option Body
  absorb : DB → Body → DB
  wigs : DB → List Wig

/-- agenting.py:83-86, 192-216 `catchup`: without an endpoint it raises MissingEntryError. -/
def catchups {Id DB Body : Type} (n : Net Id DB Body) : List Id → List (Id × Post Id) × Option Fail
  | [] => ([], none)
  | w :: r => if n.endpoint w then ((w, .log) :: (catchups n r).1, (catchups n r).2) else ([], some .missingEntry)

/-- agenting.py:100-115. -/
def gather {Id DB Body : Type} (n : Net Id DB Body) : DB → List Id → DB × List Id
  | db, [] => (db, [])
  | db, w :: r => match n.answer w with
    | some b => let (db', l) := gather n (n.absorb db b) r; (db', w :: l)
    | none => gather n db r

/-- agenting.py:118: a dict, so the last receipt of a witness; `wits[wiger.index]` can raise. -/
def byWit {Id : Type} [DecidableEq Id] (wits : List Id) : Tab Id Wig → List Wig → Except Fail (Tab Id Wig)
  | t, [] => .ok t
  | t, g :: r => match wits[g.index]? with
    | none => .error .indexError
    | some w => byWit wits (Tab.pin t w g) r

/-- agenting.py:128-132: whether the locations of the others are sent along. -/
def introduced {Id : Type} [DecidableEq Id] (ilk : Ilk) (adds : List Id) (w : Id) : Bool := match ilk with
  | .icp | .dip => true
  | .rot | .drt => decide (w ∈ adds)
  | .ixn => false

/-- agenting.py:121-144. -/
def shares {Id : Type} [DecidableEq Id] (ilk : Ilk) (wits adds : List Id) (t : Tab Id Wig) : List Id → List (Id × Post Id)
  | [] => []
  | w :: r =>
    let ewits := wits.filter fun v => decide (v ≠ w) && (Tab.get t v).isSome
    let wigs := ewits.filterMap (Tab.get t)
    if wigs.isEmpty then shares ilk wits adds t r
    else (w, .share (if introduced ilk adds w then ewits else []) wigs) :: shares ilk wits adds t r

/-- agenting.py:88-150: after the log has been posted to added witnesses. -/
def proceed {Id DB Body : Type} [DecidableEq Id] (n : Net Id DB Body) (db : DB) (ilk : Ilk) (wits adds : List Id) (posts : List (Id × Post Id)) :
    DB × List (Id × Post Id) × Except Fail (Option (List Id)) :=
  let clients := wits.filter n.endpoint
  let g := gather n db clients
  let posts := posts ++ clients.map fun w => (w, .event)
  match byWit wits [] (n.wigs g.1) with
  | .error e => (g.1, posts, .error e)
  | .ok t => (g.1, posts ++ shares ilk wits adds t g.2, .ok (some g.2))

/-- agenting.py:52-150 `Receiptor.receipt` of an own event: `wits` are the witnesses of the event, `adds` those that it adds. What is posted, and
the result, `none` for no witnesses. -/
def receipt {Id DB Body : Type} [DecidableEq Id] (n : Net Id DB Body) (db : DB) (ilk : Ilk) (wits adds : List Id) :
    DB × List (Id × Post Id) × Except Fail (Option (List Id)) :=
  if wits.isEmpty then (db, [], .ok none)
  else match (if ilk = .rot then catchups n adds else ([], none)) with
    | (posts, some e) => (db, posts, .error e)
    | (posts, none) => proceed n db ilk wits adds posts

/-- agenting.py:391-398 of `WitnessReceiptor.receiptDo`: the receipts for one witness, by position in what is stored. -/
def others {Id : Type} [DecidableEq Id] (self : Id) : List Id → List Wig → Except Fail (List Wig)
  | [], _ => .ok []
  | w :: r, aw => if w = self then others self r aw.tail
    else match aw with
      | [] => .error .indexError
      | g :: t => match others self r t with
        | .error e => .error e
        | .ok l => .ok (g :: l)

/-- agenting.py:376-380: when there are as many receipts as witnesses, they are shared. -/
def ready {Id : Type} (wits : List Id) (stored : List Wig) : Bool := decide (stored.length = wits.length)

/-! ## Messengers -/

/-- agenting.py:827-897 `HTTPMessenger`: messages are opaque, each with the number of its requests; `out` is what was posted, `pending` the requests that
are not answered, `sent` the number of answers. -/
structure HttpM where
  msgs : List (Nat × Nat) := []
  posted : Nat := 0
  sent : Nat := 0
  out : List (Nat × Nat) := []
  pending : Nat := 0
  deriving DecidableEq

inductive HttpOp where
  | give (m : Nat × Nat)
  | take
  | answer

/-- agenting.py:861-893: another doer gives a message, `msgDo` posts the next, `responseDo` takes an answer. -/
def httpStep (s : HttpM) : HttpOp → HttpM
  | .give m => { s with msgs := s.msgs ++ [m] }
  | .take => match s.msgs with
    | [] => s
    | m :: r => { s with msgs := r, posted := s.posted + m.2, out := s.out ++ [m], pending := s.pending + m.2 }
  | .answer => match s.pending with
    | 0 => s
    | p + 1 => { s with pending := p, sent := s.sent + 1 }

def httpRun (s : HttpM) (os : List HttpOp) : HttpM := os.foldl httpStep s

/-- agenting.py:895-897. -/
def HttpM.idle (s : HttpM) : Bool := s.msgs.isEmpty && decide (s.posted = s.sent)

/-- agenting.py:683-751 `TCPMessenger`: `tx` is the message that is being sent. -/
structure TcpM where
  msgs : List Nat := []
  posted : Nat := 0
  sent : List Nat := []
  tx : Option Nat := none
  deriving DecidableEq

inductive TcpOp where
  | give (m : Nat)
  | take
  | flush

/-- agenting.py:730-743. -/
def tcpStep (s : TcpM) : TcpOp → TcpM
  | .give m => { s with msgs := s.msgs ++ [m] }
  | .take => match s.tx, s.msgs with
    | none, m :: r => { s with msgs := r, posted := s.posted + 1, tx := some m }
    | _, _ => s
  | .flush => match s.tx with
    | none => s
    | some m => { s with tx := none, sent := s.sent ++ [m] }

def tcpRun (s : TcpM) (os : List TcpOp) : TcpM := os.foldl tcpStep s

/-- agenting.py:749-751. -/
def TcpM.idle (s : TcpM) : Bool := decide (s.sent.length = s.posted)

/-! ## Publishing -/

/-- agenting.py:600-680 `WitnessPublisher`: `now` is the event being sent. Messages are identifiers with a number. -/
structure Pub where
  msgs : List (Nat × Nat) := []
  posted : Nat := 0
  cues : List (Nat × Nat) := []
  now : Option (Nat × Nat) := none
  deriving DecidableEq

inductive PubOp where
  | give (e : Nat × Nat)
  | take
  | finish

/-- agenting.py:629-659; `own` are the identifiers that have a habitat. -/
def pubStep (own : Nat → Bool) (s : Pub) : PubOp → Pub
  | .give e => { s with msgs := s.msgs ++ [e] }
  | .take => match s.now, s.msgs with
    | none, e :: r => { s with msgs := r, posted := s.posted + 1, now := if own e.1 then some e else none }
    | _, _ => s
  | .finish => match s.now with
    | none => s
    | some e => { s with now := none, cues := s.cues ++ [e] }

def pubRun (own : Nat → Bool) (s : Pub) (os : List PubOp) : Pub := os.foldl (pubStep own) s

/-- agenting.py:678-680. -/
def Pub.idle (s : Pub) : Bool := s.msgs.isEmpty && decide (s.posted = s.cues.length)

/-- agenting.py:663-676. -/
def Pub.sent (s : Pub) (said : Nat) : Bool := s.cues.any fun c => c.2 = said

/-! ## Queries -/

/-- What a querier does when it is its turn: end, do nothing at all, or let its inquisitor (which sends the query) run. -/
inductive Turn where
  | done | nothing | run
  deriving DecidableEq

/-- querying.py:91-103 `LogQuerier.recur`: `known` is the sequence number of the local log, `none` when there is none. -/
def logTurn (sn : Nat) (known : Option Nat) : Except Fail Turn := match known with
  | none => .error .keyError
  | some k => .ok (if sn ≤ k then .done else .run)

/-- querying.py:129-144 `SeqNoQuerier.recur`. -/
def seqTurn (sn : Nat) (known : Option Nat) : Turn := match known with
  | none => .nothing
  | some k => if sn ≤ k then .done else .run

/-- querying.py:165-179 `AnchorQuerier.recur`: `anchored` is whether the local log has an event with the seal. -/
def anchorTurn (anchored : Bool) (known : Option Nat) : Turn := match known with
  | none => .nothing
  | some _ => if anchored then .done else .run

/-- A cue: a saved key state (identifier, number), or another. -/
inductive Cue where
  | saved (pre sn : Nat)
  | other (n : Nat)
  deriving DecidableEq

/-- What `KeyStateNoticer.recur` does: end, run its doers, or have the log queried up to a number. -/
inductive Note where
  | done | run | ask (sn : Nat)
  deriving DecidableEq

/-- querying.py:43-71 `KeyStateNoticer.recur`: one cue is taken; one that is not for it goes to the end. -/
def noticer (pre : Nat) (known : Option Nat) (cues : List Cue) : List Cue × Note := match known with
  | none => (cues, .run)
  | some k => match cues with
    | [] => ([], .run)
    | c :: r => match c with
      | .saved p s => if p = pre then (r, if k < s then .ask s else .done) else (r ++ [c], .run)
      | .other _ => (r ++ [c], .run)

/-- Turns of the noticer, until it ends or asks. -/
def noticerRun (pre : Nat) (known : Option Nat) : Nat → List Cue → List Cue × Note
  | 0, cues => (cues, .run)
  | k + 1, cues => match noticer pre known cues with
    | (cues', .run) => noticerRun pre known k cues'
    | x => x

end Verif.Agt
