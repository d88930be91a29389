import Verif.Db.PropsOn
import Verif.Db.PropsMap

/-!
# Mailboxes (src/keri/app/storing.py 18-140, src/keri/app/indirecting.py 731-842 and 971-1035)

A mailbox provider keeps messages for others in a `Mailboxer`; a controller polls it over a long lived HTTP response.  The server
side is modelled on the database operations of `Verif.Db`, the client side by the states of its generator between two yields.
Not modelled: HTTP and the text framing of server sent events (an event is a record with number, topic and data; a line break
within a message would end it early), the clock (retry lines, the end of a stream after `TimeoutMBX`, the thirty seconds after
which a client asks again: when it does so is left open), who may connect (see `streamCue`).
-/

namespace Verif.Mbx
open Verif.Db

/-- What is taken as given: the digest of a message (`Diger(ser=msg).qb64b`), and whether bytes decode as UTF-8. -/
structure Env where
  dig : Bytes → Bytes
  text : Bytes → Bool

/-- storing.py:48-57: `.tpcs` numbered keys `topic.on` with digests, `.msgs` messages by digest. -/
structure Mailbox where
  tpcs : Tbl
  msgs : Tbl
deriving Repr, DecidableEq

def empty : Mailbox := ⟨[], []⟩

/-- subing.py:123 `Sep`: a dot. -/
def dot : Nat := 46

/-- `/`. -/
def slash : Nat := 47

/-- storing.py:116-117: the first of the two writes of `storeMsg`, in a transaction of its own. -/
def indexMsg (env : Env) (m : Mailbox) (topic msg : Bytes) : Mailbox × Except Err Nat :=
  match appendOnVal dot m.tpcs topic (env.dig msg) with
  | (t, .error e) => ({ m with tpcs := t }, .error e)
  | (t, .ok on) => ({ m with tpcs := t }, .ok on)

/-- storing.py:118: the second. -/
def keepMsg (env : Env) (m : Mailbox) (msg : Bytes) : Mailbox × Bool :=
  let (s, b) := setVal m.msgs (env.dig msg) msg
  ({ m with msgs := s }, b)

/-- storing.py:100-118 `storeMsg`. -/
def storeMsg (env : Env) (m : Mailbox) (topic msg : Bytes) : Mailbox × Except Err Bool :=
  match indexMsg env m topic msg with
  | (m, .error e) => (m, .error e)
  | (m, .ok _) => match keepMsg env m msg with
    | (m, b) => (m, .ok b)

/-- storing.py:59-65 `delTopic`. -/
def delTopic (m : Mailbox) (topic : Bytes) (on : Nat) : Mailbox × Bool :=
  let (t, b) := remOn dot m.tpcs topic on
  ({ m with tpcs := t }, b)

/-- storing.py:139-140 with subing.py:212-220 `_des`: the message of a digest.  UnicodeDecodeError is a ValueError. -/
def readMsg (env : Env) (m : Mailbox) (d : Bytes) : Except Err (Option Bytes) :=
  match getVal m.msgs d with
  | none => .ok none
  | some v => if env.text v then .ok (if v = [] then none else some v) else .error .valueError

/-- storing.py:138-140: entries without a message, or with an empty one, are passed over. -/
def collect (env : Env) (m : Mailbox) : List (Bytes × Nat × Bytes) → Except Err (List (Nat × Bytes))
  | [] => .ok []
  | (_, on, d) :: r => match readMsg env m d with
    | .error e => .error e
    | .ok none => collect env m r
    | .ok (some v) => match collect env m r with
      | .error e => .error e
      | .ok l => .ok ((on, v) :: l)

/-- storing.py:121-140 `cloneTopicIter`; the topic itself, which it yields too, is left out. -/
def cloneTopicIter (env : Env) (m : Mailbox) (topic : Bytes) (fn : Nat) : Except Err (List (Nat × Bytes)) :=
  match getOnAllItemIter dot m.tpcs topic fn with
  | .error e => .error e
  | .ok l => collect env m l

/-- storing.py:81-97 `getTopicMsgs`: the same without the numbers. -/
def getTopicMsgs (env : Env) (m : Mailbox) (topic : Bytes) (fn : Nat) : Except Err (List Bytes) :=
  match cloneTopicIter env m topic fn with
  | .error e => .error e
  | .ok l => .ok (l.map (·.2))

/-! ## Serving -/

/-- One server sent event: indirecting.py:1024-1027. -/
structure Event where
  id : Nat
  name : Bytes
  data : Bytes
deriving Repr, DecidableEq

/-- indirecting.py:1021-1031: for each topic of the dictionary, in order; the position moves by one for every event, whatever
its number.  On an exception the positions of earlier topics have moved and nothing is sent. -/
def serveLoop (env : Env) (m : Mailbox) (pre : Bytes) : List (Bytes × Nat) → List (Bytes × Nat) × Except Err (List Event)
  | [] => ([], .ok [])
  | (topic, idx) :: r => match cloneTopicIter env m (pre ++ topic) idx with
    | .error e => ((topic, idx) :: r, .error e)
    | .ok l => match serveLoop env m pre r with
      | (r', .error e) => ((topic, idx + l.length) :: r', .error e)
      | (r', .ok evs) => ((topic, idx + l.length) :: r', .ok (l.map (fun p => ⟨p.1, topic, p.2⟩) ++ evs))

/-- eventing.py:5639-5652: what `processQuery` does with a mailbox query: a cue for the stream, unless the identifier is not
known.  The querier and the signatures are parameters of the method; this branch does not use them. -/
structure Query where
  said : Nat
  pre : Bytes
  topics : List (Bytes × Nat)
deriving Repr, DecidableEq

def streamCue (known : Bytes → Bool) (_source : Option Bytes) (_signed : Bool) (q : Query) : Option Query :=
  if known q.pre then some q else none

/-- indirecting.py:983-998 `QryRpyMailboxIterable.__next__` while it has no stream: takes the oldest cue; keeps it if it answers
the query of this request, else puts it back at the end.  `WitnessStart.cueDo` (indirecting.py:242-271) lets through stream cues only. -/
def takeCue (said : Nat) : List Query → List Query × Option Query
  | [] => ([], none)
  | c :: r => if c.said = said then (r, some c) else (r ++ [c], none)

/-- Requests of a provider that wait for their cue in the deque they share (indirecting.py:926, 983-998), and which got theirs. -/
structure Hub where
  cues : List Query
  got : List (Nat × Query)
deriving Repr, DecidableEq

/-- A cue arrives (indirecting.py:265), or the server asks the request with this number, made by a query of this digest, for the next part. -/
inductive Turn where
  | cue (q : Query)
  | poll (req said : Nat)
deriving Repr, DecidableEq

/-- A request that has its stream does not look at the deque. -/
def turn (h : Hub) : Turn → Hub
  | .cue q => { h with cues := h.cues ++ [q] }
  | .poll r d => if h.got.any (fun p => decide (p.1 = r)) then h
    else match takeCue d h.cues with
      | (cs, none) => { h with cues := cs }
      | (cs, some q) => ⟨cs, h.got ++ [(r, q)]⟩

def turns (h : Hub) (l : List Turn) : Hub := l.foldl turn h

/-- forwarding.py:547: the key under which a forwarded message is stored; also forwarding.py:210, 248, 445 and 470. -/
def boxKey (receiver topic : Bytes) : Bytes := receiver ++ slash :: topic

/-- forwarding.py:533-560 `ForwardHandler.handle`; the embedded messages with their attachments are given as bytes. -/
def forward (env : Env) (m : Mailbox) (receiver topic : Bytes) (parts : List Bytes) : Mailbox × Except Err Unit :=
  if parts.flatten = [] then (m, .ok ())
  else match storeMsg env m (boxKey receiver topic) parts.flatten with
    | (m, .error e) => (m, .error e)
    | (m, .ok _) => (m, .ok ())

/-! ## The two sides together -/

/-- A response being streamed: positions of the server by topic, and events the client has not taken. -/
structure Conn where
  pos : List (Bytes × Nat)
  fly : List Event
deriving Repr, DecidableEq

/-- A provider, one poller of one identifier at it, and what becomes of its messages.
* `tops`: indirecting.py:771-773, 837-839: the last number by topic, kept in the database of the client.
* `queue`: `.msgs` of the poller, in memory.
* `held`: the event between indirecting.py:834 and 837, where the generator yields.
* `done`: what left the queue for the parser.
* `given`: every event ever put into the queue (a record kept for the statements only). -/
structure Sys where
  box : Mailbox
  conn : Option Conn
  tops : List (Bytes × Nat)
  held : Option Event
  queue : List Event
  done : List Event
  given : List Event
deriving Repr, DecidableEq

def init : Sys := ⟨empty, none, [], none, [], [], []⟩

/-- `dict.get`. -/
def look (l : List (Bytes × Nat)) (k : Bytes) : Option Nat := (l.find? (fun p => decide (p.1 = k))).map (·.2)

/-- `d[k] = v`: the position of an old key is kept. -/
def set (k : Bytes) (v : Nat) : List (Bytes × Nat) → List (Bytes × Nat)
  | [] => [(k, v)]
  | p :: r => if p.1 = k then (k, v) :: r else p :: set k v r

/-- indirecting.py:785-791: where a client asks to start. -/
def ask (tops : List (Bytes × Nat)) (topics : List Bytes) : List (Bytes × Nat) :=
  topics.map (fun t => (t, match look tops t with
    | some n => n + 1
    | none => 0))

/-- What can happen.
* `store`: a message arrives for some mailbox key and is stored.
* `cut`: the provider dies between the two writes of `storeMsg`; all connections are gone.
* `connect`: the client asks, possibly again; an older response is dropped.
* `serve`: the provider is asked for the next part of the response.
* `take`: the client takes an event and queues its message (indirecting.py:819-834).
* `note`: it goes on to record the number (indirecting.py:837-839).
* `work`: the oldest queued message goes to the parser (indirecting.py:615-617, 648-662).
* `crash`: the client dies; only what is in its database is left. -/
inductive Step where
  | store (key msg : Bytes)
  | cut (key msg : Bytes)
  | connect
  | serve
  | take
  | note
  | work
  | crash
deriving Repr, DecidableEq

/-- Serving: on an exception the response ends. -/
def serve (env : Env) (pre : Bytes) (s : Sys) (c : Conn) : Sys :=
  match serveLoop env s.box pre c.pos with
  | (_, .error _) => { s with conn := none }
  | (pos, .ok evs) => { s with conn := some ⟨pos, c.fly ++ evs⟩ }

/-- indirecting.py:819-834; an event without data or topic is dropped (823-832). -/
def take (s : Sys) (c : Conn) : Sys :=
  match c.fly with
  | [] => s
  | e :: r =>
    let s := { s with conn := some { c with fly := r } }
    if e.data = [] ∨ e.name = [] then s else { s with held := some e, queue := s.queue ++ [e], given := s.given ++ [e] }

def step (env : Env) (pre : Bytes) (topics : List Bytes) (s : Sys) : Step → Sys
  | .store key msg => { s with box := (storeMsg env s.box key msg).1 }
  | .cut key msg => { s with box := (indexMsg env s.box key msg).1, conn := none }
  | .connect => if s.held = none then { s with conn := some ⟨ask s.tops topics, []⟩ } else s
  | .serve => match s.conn with
    | none => s
    | some c => serve env pre s c
  | .take => match s.conn with
    | none => s
    | some c => if s.held = none then take s c else s
  | .note => match s.held with
    | none => s
    | some e => { s with held := none, tops := set e.name e.id s.tops }
  | .work => match s.queue with
    | [] => s
    | e :: r => { s with queue := r, done := s.done ++ [e] }
  | .crash => { s with conn := none, held := none, queue := [] }

def run (env : Env) (pre : Bytes) (topics : List Bytes) (s : Sys) (h : List Step) : Sys := h.foldl (step env pre topics) s

end Verif.Mbx
