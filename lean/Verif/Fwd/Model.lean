import Verif.Ends.Model

/-!
# Sending messages on (src/keri/app/forwarding.py)

Messages are lists of bytes. Requests over HTTP are answered sooner or later, so that a messenger is done in the end; what becomes of messengers that
wait is the subject of `Verif.Agt`. Random choices are given with each request.
-/

namespace Verif.Fwd

open Verif.Ends

abbrev Bytes := List Nat

variable {Id Url : Type} [DecidableEq Id]

/-- The endpoints of one role. -/
abbrev Locs (Id Url : Type) := List (Id × List (Scheme × Url))

/-- How a messenger sends. -/
inductive Via (Url : Type) where
  | http (url : Url)
  | tcp (url : Url)
  deriving DecidableEq

/-- `urls[scheme]`. -/
def urlOf (urls : List (Scheme × Url)) (s : Scheme) : Option Url := (urls.find? (fun p => p.1 = s)).map (·.2)

/-- agenting.py:990-1010 `messengerFrom`, 1013-1034 `streamMessengerFrom`: `none` is ConfigurationError. -/
def messenger (urls : List (Scheme × Url)) : Option (Via Url) :=
  match urlOf urls .https, urlOf urls .http, urlOf urls .tcp with
  | some u, _, _ => some (.http u)
  | none, some u, _ => some (.http u)
  | none, none, some u => some (.tcp u)
  | none, none, none => none

/-! ## Introductions -/

/-- The habitat that sends: its identifier, its witnesses and the digest of its last event, the receipts stored of non-transferable identifiers, by
prefix and digest of the event, which identifiers are transferable, and which are of this habery. -/
structure Hab (Id : Type) where
  self : Id
  wits : List Id
  said : Nat
  rcts : List (Id × Nat × Id)
  trans : Id → Bool
  own : Id → Bool

/-- forwarding.py:563-625 `introduce`: whether anything is sent; `none` is AttributeError: the database has no `vrc` (603; basing.py:944 has `vrcs`).
`startswith` of 611 is equality. -/
def introduces (h : Hab Id) (other : Id) : Option Bool :=
  if other ∈ h.wits then some false
  else if h.trans other then none
  else some (!(h.rcts.any (fun e => e.1 = other && e.2.1 = h.said && e.2.2 = h.self)))

/-! ## Poster -/

/-- forwarding.py:129-151 `send`: what is queued. `pick` decides the random choice (214, 252). -/
structure Req (Id : Type) where
  dest : Id
  topic : Nat
  said : Nat
  raw : Bytes
  atc : Option Bytes
  pick : Nat

/-- What is done: a message is posted as it is, or wrapped in a forward for the recipient and topic, after an introduction or
without, or stored here. -/
inductive Act (Id Url : Type) where
  | direct (to : Id) (via : Via Url) (msg : Bytes)
  | forward (to : Id) (via : Via Url) (intro : Bool) (recp : Id) (topic : Nat) (evt : Bytes)
  | store (recp : Id) (topic : Nat) (msg : Bytes)
  deriving DecidableEq

/-- How it ends: `config` is ConfigurationError, `attrError` AttributeError, `typeError` TypeError, `noEnds` that there is nobody to send to. -/
inductive Res where
  | ok | config | attrError | typeError | noEnds
  deriving DecidableEq

/-- The message with its attachment, if there is one (191-193, 207-209). -/
def Req.msg (q : Req Id) : Bytes := q.raw ++ q.atc.getD []

/-- forwarding.py:187-201 `sendDirect`. -/
def sendDirect (q : Req Id) : Locs Id Url → List (Act Id Url) × Res
  | [] => ([], .ok)
  | (c, urls) :: r =>
    match messenger urls with
    | none => ([], .config)
    | some v =>
      match sendDirect q r with
      | (as, res) => (.direct c v q.msg :: as, res)

/-- forwarding.py:203-239 `forward` and 241-277 `forwardToWitness`, which are the same. `mbx`: whether there is a mailbox here. -/
def forward (h : Hab Id) (mbx : Bool) (q : Req Id) (ends : Locs Id Url) : List (Act Id Url) × Res :=
  if mbx && ends.any (fun e => h.own e.1) then ([.store q.dest q.topic q.msg], .ok)
  else match ends[q.pick % ends.length]? with
    | none => ([], .config)
    | some (m, urls) =>
      match introduces h m with
      | none => ([], .attrError)
      | some i =>
        match q.atc with
        | none => ([], .typeError)
        | some a =>
          match messenger urls with
          | none => ([], .config)
          | some v => ([.forward m v i q.dest q.topic (q.raw ++ a)], .ok)

/-- One after another, until one fails. -/
def andThen (x : List (Act Id Url) × Res) (y : List (Act Id Url) × Res) : List (Act Id Url) × Res :=
  match x with
  | (as, .ok) => (as ++ y.1, y.2)
  | (as, e) => (as, e)

/-- forwarding.py:91-120: one request, with the endpoints that `endsFor` gives; a role is in the dict if it has endpoints. -/
def deliverOne (h : Hab Id) (mbx : Bool) (ends : Role → Locs Id Url) (q : Req Id) : List (Act Id Url) × Res :=
  if !(ends .controller).isEmpty || !(ends .agent).isEmpty || !(ends .mailbox).isEmpty then
    andThen (sendDirect q (ends .controller))
      (andThen (sendDirect q (ends .agent))
        (if (ends .mailbox).isEmpty then ([], .ok) else forward h mbx q (ends .mailbox)))
  else if !(ends .witness).isEmpty then forward h mbx q (ends .witness)
  else ([], .noEnds)

/-- What was done, the cues (123), and whether the doer is still running. -/
structure Out (Id Url : Type) where
  acts : List (Act Id Url)
  cues : List Nat
  alive : Bool
  deriving DecidableEq

/-- forwarding.py:77-125: one request taken from the queue. -/
def turn (h : Hab Id) (mbx : Bool) (ends : Id → Role → Locs Id Url) (o : Out Id Url) (q : Req Id) : Out Id Url :=
  if o.alive then
    match deliverOne h mbx (ends q.dest) q with
    | (as, .ok) => { o with acts := o.acts ++ as, cues := o.cues ++ [q.said] }
    | (as, .attrError) => { o with acts := o.acts ++ as, alive := false }
    | (as, .typeError) => { o with acts := o.acts ++ as, alive := false }
    | (as, _) => { o with acts := o.acts ++ as }
  else o

/-- forwarding.py:59-127 `deliverDo`, on requests in the order in which they were queued. -/
def deliver (h : Hab Id) (mbx : Bool) (ends : Id → Role → Locs Id Url) (qs : List (Req Id)) : Out Id Url :=
  qs.foldl (turn h mbx ends) ⟨[], [], true⟩

/-- forwarding.py:153-167 `sent`. -/
def sent (o : Out Id Url) (said : Nat) : Bool := o.cues.any (fun c => c = said)

/-- forwarding.py:179-184: one look at the cues; `none` means that the cue was found, with the cues then. -/
def poll (said : Nat) : List Nat → Option (List Nat) × List Nat
  | [] => (some [], [])
  | c :: r => if c = said then (none, r) else (some (r ++ [c]), r ++ [c])

/-- forwarding.py:178-185: so many looks, none coming in between; the first part tells whether the cue was found. -/
def await (said : Nat) : Nat → List Nat → Bool × List Nat
  | 0, l => (false, l)
  | n + 1, l =>
    match poll said l with
    | (none, l') => (true, l')
    | (some l', _) => await said n l'

/-! ## StreamPoster -/

/-- What is queued: the message and its attachment (399-403). -/
structure Evt where
  raw : Bytes
  atc : Option Bytes
  deriving DecidableEq

def Evt.bytes (e : Evt) : Bytes := e.raw ++ e.atc.getD []

/-- What is given: `head`: the bytes that each chunk begins with in ESSR mode (324-328), `wrap`: the forward made of a message (452-459): the forward
without signatures, and what follows it: signatures and the attachments of what it embeds. `sealed`: what is sent of a chunk in ESSR mode to an
endpoint (413-436). `intro`: an introduction (480). -/
structure Cfg (Id Url : Type) where
  essr : Bool
  head : Bytes
  hab : Hab Id
  mbx : Bool
  ends : Role → Locs Id Url
  wrap : Bytes → Bytes × Bytes
  sealed : Id → Bytes → Bytes
  intro : Bytes

/-- 16384 (336). -/
def limit : Nat := 16384

/-- forwarding.py:330-341: events into the message `m`, and those left. -/
def fill (essr : Bool) : Bytes → List Evt → Bytes × List Evt
  | m, [] => (m, [])
  | m, e :: r =>
    if essr && decide (limit < m.length + e.raw.length + (e.atc.getD []).length) then (m, e :: r)
    else fill essr (m ++ e.raw ++ e.atc.getD []) r

/-- forwarding.py:321-341. -/
def cut (c : Cfg Id Url) (evts : List Evt) : Bytes × List Evt := fill c.essr (if c.essr then c.head else []) evts

/-- A stream messenger: to whom, how, and the message; none over TCP, where it is not handed on (agenting.py:1030). -/
structure Mgr (Id Url : Type) where
  to : Id
  via : Via Url
  msg : Option Bytes
  deriving DecidableEq

/-- agenting.py:1013-1034 `streamMessengerFrom`. -/
def streamer (to : Id) (urls : List (Scheme × Url)) (msg : Bytes) : Option (Mgr Id Url) :=
  match messenger urls with
  | none => none
  | some (.http u) => some ⟨to, .http u, some msg⟩
  | some (.tcp u) => some ⟨to, .tcp u, none⟩

/-- The messengers so far (`self.messagers`), and what was stored in the mailbox here. -/
structure SP (Id Url : Type) where
  mgrs : List (Mgr Id Url)
  kept : List Bytes
  deriving DecidableEq

/-- What comes of sending a chunk: the messengers returned, ConfigurationError, or AttributeError. -/
inductive Ret (Id Url : Type) where
  | mgrs (l : List (Mgr Id Url))
  | config
  | attrError

/-- forwarding.py:405-411 `sendDirect`; the messengers made before an exception stay. -/
def direct (c : Cfg Id Url) (msg : Bytes) (s : SP Id Url) : Locs Id Url → SP Id Url × Ret Id Url
  | [] => (s, .mgrs s.mgrs)
  | (e, urls) :: r =>
    match streamer e urls (if c.essr then c.sealed e msg else msg) with
    | none => (s, .config)
    | some m => direct c msg { s with mgrs := s.mgrs ++ [m] } r

/-- forwarding.py:461-484 `forward`; in ESSR mode what each chunk begins with is taken off again (467-469). -/
def relay (c : Cfg Id Url) (pick : Nat) (msg : Bytes) (s : SP Id Url) (ends : Locs Id Url) : SP Id Url × Ret Id Url :=
  if c.mbx && ends.any (fun e => c.hab.own e.1) then
    ({ s with kept := s.kept ++ [if c.essr then msg.drop c.head.length else msg] }, .mgrs [])
  else match ends[pick % ends.length]? with
    | none => (s, .config)
    | some (m, urls) =>
      match introduces c.hab m with
      | none => (s, .attrError)
      | some i =>
        match streamer m urls ((if i then c.intro else []) ++ (if c.essr then c.sealed m msg else msg)) with
        | none => (s, .config)
        | some x => ({ s with mgrs := s.mgrs ++ [x] }, .mgrs (s.mgrs ++ [x]))

/-- forwarding.py:346-362: a chunk is sent. -/
def dispatch (c : Cfg Id Url) (pick : Nat) (msg : Bytes) (s : SP Id Url) : SP Id Url × Ret Id Url :=
  if !(c.ends .controller).isEmpty then direct c msg s (c.ends .controller)
  else if !(c.ends .agent).isEmpty then direct c msg s (c.ends .agent)
  else if !(c.ends .mailbox).isEmpty then relay c pick msg s (c.ends .mailbox)
  else if !(c.ends .witness).isEmpty then relay c pick msg s (c.ends .witness)
  else (s, .mgrs [])

/-- forwarding.py:320-366 `_chunk`; `none` is AttributeError. -/
def chunk (c : Cfg Id Url) (pick : Nat) (s : SP Id Url) (evts : List Evt) : SP Id Url × Option (List (Mgr Id Url)) × List Evt :=
  match cut c evts with
  | (msg, rest) =>
    if msg.isEmpty then (s, some [], rest)
    else match dispatch c pick msg s with
      | (s', .mgrs l) => (s', some l, rest)
      | (s', .config) => (s', some [], rest)
      | (s', .attrError) => (s', none, rest)

/-- What comes of `deliver`: the messengers returned, AttributeError, or that it is running still. -/
inductive Fin (Id Url : Type) where
  | done (s : SP Id Url) (doers : List (Mgr Id Url))
  | raised
  | running
  deriving DecidableEq

/-- forwarding.py:303-318 `deliver`, so many rounds of its loop at most. -/
def deliverAll (c : Cfg Id Url) (pick : Nat) : Nat → SP Id Url → List (Mgr Id Url) → List Evt → Fin Id Url
  | _, s, doers, [] => .done s doers
  | 0, _, _, _ :: _ => .running
  | n + 1, s, doers, e :: r =>
    match chunk c pick s (e :: r) with
    | (_, none, _) => .raised
    | (s', some l, rest) => deliverAll c pick n s' (doers ++ l) rest

/-- What `send` ends with: `noEnds` is ValidationError, `typeError` TypeError. -/
inductive SRes where
  | queued (e : Evt)
  | noEnds
  | typeError
  deriving DecidableEq

/-- forwarding.py:438-459 `createForward`. It is given the roles with their endpoints, not the endpoints (385, 390), so that the names compared to the
identifiers of this habery in 441 are those of roles, and it never stores. What follows the forward has the forward itself in front, with its signatures
(458-459: `endorse` gives the whole message). -/
def createForward (c : Cfg Id Url) (e : Evt) : Option Evt :=
  match e.atc with
  | none => none
  | some a =>
    match c.wrap (e.raw ++ a) with
    | (fwd, sigs) => some ⟨fwd, some (fwd ++ sigs)⟩

/-- forwarding.py:368-403 `send`. -/
def send (c : Cfg Id Url) (e : Evt) : SRes :=
  if !(c.ends .controller).isEmpty || !(c.ends .agent).isEmpty || !(c.ends .mailbox).isEmpty then
    if (c.ends .mailbox).isEmpty then .queued e
    else match createForward c e with
      | some f => .queued f
      | none => .typeError
  else if !(c.ends .witness).isEmpty then
    match createForward c e with
    | some f => .queued f
    | none => .typeError
  else .noEnds

end Verif.Fwd
