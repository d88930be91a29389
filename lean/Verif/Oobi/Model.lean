import Verif.Krm.Tab
import Verif.Base.Err

/-!
# Out-of-band introductions (src/keri/app/oobiing.py `Oobiery`, `Authenticator`)

URLs, identifiers, SAIDs, aliases and bodies of responses are opaque. What the code gets from them by parsing is given by `Env`. The
sub-databases `oobis`, `coobi`, `eoobi`, `roobi` and `moobi` are tables; iterators run over the entries at the time they are started, as LMDB
read transactions do, in the order of the table (that of keys in the code; nothing below depends on it but where it is said). Dates are
microseconds. A pass that raises keeps what it has done.
-/

namespace Verif.Oobi

open Verif.Krm

abbrev Url := Nat
abbrev Id := Nat
abbrev Said := Nat
abbrev Alias := Nat
abbrev Body := Nat

/-- oobiing.py:29-30. -/
inductive Result where
  | resolved | failed
  deriving DecidableEq, Repr

/-- `OobiRecord` (recording.py:213-225). -/
structure Rec where
  alias? : Option Alias := none
  said : Option Said := none
  cid : Option Id := none
  eid : Option Id := none
  role : Option Nat := none
  date : Option Nat := none
  state : Option Result := none
  urls : List Url := []
  deriving DecidableEq

/-- What the path of an URL is (ending.py:55-57, oobiing.py:449-484): `/oobi`, `/oobi/cid/role[/eid]`, `/oobi/said`,
`/.well-known/keri/oobi/cid`, or none of these; `bad`: `urlparse` raises ValueError. -/
inductive Kind where
  | self
  | full (cid : Id) (role : Nat) (eid : Option Id)
  | data (said : Said)
  | known (cid : Id)
  | none
  | bad
  deriving DecidableEq

/-- What a body is as a reply (oobiing.py:564-584): no message of KERI, no reply, a reply about witnesses or controllers with the identifier
and the URLs it gives, another reply. -/
inductive Rep where
  | bad
  | notRpy
  | multi (aid : Id) (urls : List Url)
  | other
  deriving DecidableEq

/-- `splits`: the URL contains `>`, the separator of the sub-databases, so that its key has more than one part. `http`: its scheme is
http or https. `schemer`: SAID of a body that is a JSON schema with the right SAID. -/
structure Env where
  kind : Url → Kind
  name : Url → Option Alias
  splits : Url → Bool
  http : Url → Bool
  schemer : Body → Option Said
  reply : Body → Rep

/-- `Content-Type` as the code tells it apart; `missing`: there is no such header. -/
inductive Ctype where
  | cesr | schema | json | other | missing
  deriving DecidableEq

structure Resp where
  status : Nat
  ctype : Ctype
  /-- Header `KERI-AID`. -/
  aid : Option Id
  body : Body
  deriving DecidableEq

/-- `clients`: responses that have come, of the URLs for which there is a client in memory. `parsed`: streams given to the parser.
`contacts`: what `Organizer.update` was told last. -/
structure World where
  oobis : Tab Url Rec := []
  coobi : Tab Url Rec := []
  eoobi : Tab Url Rec := []
  roobi : Tab Url Rec := []
  moobi : Tab Url Rec := []
  clients : Tab Url (List Resp) := []
  schema : Tab Said Body := []
  contacts : Tab Id (Alias × Url) := []
  parsed : List Body := []
  cues : List (Option Result × Url) := []
  deriving DecidableEq

/-- oobiing.py:621-630 `request`; `conn`: a client can be made for the URL (httping.py:253-262). -/
def request (conn : Url → Bool) (w : World) (url : Url) (r : Rec) : World :=
  if conn url then
    { w with clients := Tab.pin w.clients url [], oobis := Tab.rem w.oobis url, coobi := Tab.pin w.coobi url r }
  else { w with oobis := Tab.rem w.oobis url }

/-- The alias is that of the record, or else the name hinted by the URL. -/
def hint (E : Env) (url : Url) (r : Rec) : Rec := match r.alias? with
  | some _ => r
  | none => { r with alias? := E.name url }

/-- oobiing.py:436-487, one URL of `processOobis`. The URL is unpacked outside of the `try`. -/
def oobiOne (E : Env) (conn : Url → Bool) (w : World) (url : Url) (r : Rec) : Except Err World :=
  if E.splits url then .error .valueError
  else if ((Tab.get w.roobi url).any fun f => decide (f.state = some .resolved)) && (Tab.get w.eoobi url).isSome then
    .ok { w with oobis := Tab.rem w.oobis url }
  else match E.kind url with
    | .bad => .ok w
    | .self => .ok (request conn w url (hint E url r))
    | .full cid role eid => .ok (request conn w url (hint E url { r with cid := some cid, eid := eid, role := some role }))
    | .data said => .ok (request conn w url { r with said := some said })
    | .known cid => .ok (request conn w url (hint E url { r with cid := some cid }))
    | .none => .ok w

/-- A result: `coobi.rem`, `roobi.put`, which does not overwrite. -/
def finish (w : World) (url : Url) (r : Rec) (s : Result) : World :=
  { w with coobi := Tab.rem w.coobi url, roobi := Tab.put w.roobi url { r with state := some s } }

def cue (w : World) (url : Url) (s : Option Result) : World := { w with cues := w.cues ++ [(s, url)] }

/-- A body as the schema asked for: oobiing.py:531-544 and 546-560. -/
def schemaIs (E : Env) (w : World) (url : Url) (r : Rec) (b : Body) (s : Said) : World × Result :=
  if r.said = some s then (finish { w with schema := Tab.pin w.schema s b } url r .resolved, .resolved)
  else (finish w url r .failed, .failed)

/-- oobiing.py:632-649 `processMultiOobiRpy`, the cue after it. Simplified: the reply has `aid` and `urls`. -/
def multi (now : Nat) (w : World) (url : Url) (r : Rec) (aid : Id) (urls : List Url) : World :=
  if r.cid = some aid then
    let w := { w with oobis := urls.foldl (fun t u => Tab.put t u { date := some now, alias? := r.alias?, cid := r.cid }) w.oobis }
    cue { w with coobi := Tab.rem w.coobi url, moobi := Tab.put w.moobi url { r with urls := urls } } url r.state
  else cue w url r.state

/-- oobiing.py:498-591, a response taken from the client. -/
def settle (E : Env) (now : Nat) (w : World) (url : Url) (r : Rec) (x : Resp) : World × Option Err :=
  if x.status = 404 then ({ w with coobi := Tab.rem w.coobi url, eoobi := Tab.pin w.eoobi url r }, none)
  else if x.status ≠ 200 then (cue (finish w url r .failed) url (some .failed), none)
  else match x.ctype with
    | .missing => (w, some .keyError)
    | .cesr =>
      let w := { w with parsed := w.parsed ++ [x.body] }
      let r := match x.aid with
        | some a => { r with cid := some a }
        | none => r
      let w := match r.alias?, r.cid with
        | some a, some i => { w with contacts := Tab.pin w.contacts i (a, url) }
        | _, _ => w
      (cue (finish w url r .resolved) url (some .resolved), none)
    | .schema => match E.schemer x.body with
      | some s => let (w, res) := schemaIs E w url r x.body s; (cue w url (some res), none)
      | none => (cue (finish w url r .failed) url (some .failed), none)
    | .json => match E.schemer x.body with
      | some s => ((schemaIs E w url r x.body s).1, none)
      | none => match E.reply x.body with
        | .bad => (finish w url r .failed, none)
        | .notRpy => (cue (finish w url r .failed) url (some .failed), none)
        | .multi aid urls => (multi now w url r aid urls, none)
        | .other => (cue (finish w url r .failed) url (some .failed), none)
    | .other => (cue (finish w url r .failed) url (some .failed), none)

/-- oobiing.py:489-591, one URL of `processClients`. -/
def clientOne (E : Env) (conn : Url → Bool) (now : Nat) (w : World) (url : Url) (r : Rec) : World × Option Err :=
  if E.splits url then (w, some .valueError)
  else match Tab.get w.clients url with
    | none => (request conn w url r, none)
    | some [] => (w, none)
    | some (x :: xs) => settle E now { w with clients := Tab.pin w.clients url xs } url r x

/-- oobiing.py:611-619, one URL of `processRetries`. -/
def retryOne (E : Env) (now : Nat) (w : World) (url : Url) (r : Rec) : World × Option Err :=
  if E.splits url then (w, some .valueError)
  else match r.date with
    | none => (w, some .typeError)
    | some last =>
      if now > last + 30000000 then
        ({ w with eoobi := Tab.rem w.eoobi url, oobis := Tab.pin w.oobis url { r with date := some now } }, none)
      else (w, none)

/-- oobiing.py:593-609, whether all URLs have a result, and that of all. -/
def together (w : World) : List Url → Option Result
  | [] => some .resolved
  | u :: us => match Tab.get w.roobi u with
    | none => none
    | some r => match together w us with
      | none => none
      | some s => some (if r.state = some .failed then .failed else s)

/-- One URL of `processMOOBIs`. -/
def moobiOne (E : Env) (w : World) (url : Url) (r : Rec) : World × Option Err :=
  if E.splits url then (w, some .valueError)
  else match together w r.urls with
    | none => (w, none)
    | some s => (finish w url r s, none)

/-- A loop over the entries there were when it began. -/
def loop (f : World → Url → Rec → World × Option Err) : List (Url × Rec) → World → World × Option Err
  | [], w => (w, none)
  | (u, r) :: es, w => match f w u r with
    | (w', some e) => (w', some e)
    | (w', none) => loop f es w'

def oobiOne' (E : Env) (conn : Url → Bool) (w : World) (url : Url) (r : Rec) : World × Option Err := match oobiOne E conn w url r with
  | .ok w' => (w', none)
  | .error e => (w, some e)

/-- oobiing.py:428-434 `processFlows`. -/
def flows (E : Env) (conn : Url → Bool) (now : Nat) (w : World) : World × Option Err :=
  match loop (oobiOne' E conn) w.oobis w with
  | (w, some e) => (w, some e)
  | (w, none) => match loop (clientOne E conn now) w.coobi w with
    | (w, some e) => (w, some e)
    | (w, none) => match loop (retryOne E now) w.eoobi w with
      | (w, some e) => (w, some e)
      | (w, none) => loop (moobiOne E) w.moobi w

/-- oobiing.py:339-408 `processReply`, of a reply with the right fields. `accepted`: `acceptReply`, see `Rpy`. -/
def introduce (E : Env) (w : World) (accepted : Bool) (cid : Id) (url : Url) (date : Nat) : World × Option Err :=
  if !E.http url then (w, some .validation)
  else if !accepted then (w, some .validation)
  else ({ w with oobis := Tab.put w.oobis url { cid := some cid, date := some date } }, none)

/-- What happens: the operator, a configuration file or a peer (`pin`: oobiing.py:176-183, 222-227, eventing.py:5523; `put`: habbing.py:852-858,
commands) asks for a URL; an introduction; a response comes; a pass; the program is started anew. -/
inductive Step where
  | ask (url : Url) (r : Rec)
  | pin (url : Url) (r : Rec)
  | introduce (accepted : Bool) (cid : Id) (url : Url) (date : Nat)
  | answer (url : Url) (x : Resp)
  | pass (conn : Url → Bool) (now : Nat)
  | restart

def step (E : Env) (w : World) : Step → World
  | .ask url r => { w with oobis := Tab.put w.oobis url r }
  | .pin url r => { w with oobis := Tab.pin w.oobis url r }
  | .introduce a cid url date => (introduce E w a cid url date).1
  | .answer url x => match Tab.get w.clients url with
    | none => w
    | some xs => { w with clients := Tab.pin w.clients url (xs ++ [x]) }
  | .pass conn now => (flows E conn now w).1
  | .restart => { w with clients := [] }

def run (E : Env) (w : World) (ss : List Step) : World := ss.foldl (step E) w

/-! ## Authentication by well-known URLs -/

/-- oobiing.py:718-739: what becomes of a response of a well-known URL: whether it is added to those of the identifier, and the result. The test is
`200 >= status <= 399`. -/
def mfa (status : Nat) : Bool × Result :=
  if 200 ≥ status ∧ status ≤ 399 then (true, .resolved) else (false, .failed)

end Verif.Oobi
