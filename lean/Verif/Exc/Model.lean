import Verif.Kel.Model
import Verif.Krm.Tab

/-!
# Peer to peer messages: `Exchanger` (src/keri/peer/exchanging.py) and the handlers of the IPEX protocol

Identifiers and digests are numbers, in the order of their texts.  Times are microseconds.  Paths of pathed attachments are not parsed
(exchanging.py:145-156, 624-631); nested messages are given by their SAIDs, which the parser has compared with their contents, and are stored
and read again without loss (exchanging.py:777-849).  Other handlers are parameters.
-/

namespace Verif.Exc

open Verif.Thold (Thold)
open Verif.Kel (Id Dig Sig)
open Verif.Krm (Tab)

/-- What the code reads of a message (`serder.ked`): `said`, "i", "r", "p" (empty is none), "a" if it is a text (the digest of an ESSR
attachment), the labels "acdc", "iss" and "anc" of "a"; `body` is all the rest. -/
structure Msg where
  said : Dig
  sender : Id
  route : List Char
  prior : Option Dig
  essr : Option Dig
  acdc : Option Dig
  iss : Option Dig
  anc : Option Dig
  body : Nat
  deriving DecidableEq

/-- Identifier, number and digest of an establishment event. -/
abbrev Quad := Id × Nat × Dig
abbrev Tsg := Quad × List Sig

/-- Attachments. -/
structure Att where
  tsgs : List Tsg := []
  cigars : List (Id × Nat) := []
  ptds : List Nat := []
  essrs : List Nat := []
  nests : List Dig := []
  deriving DecidableEq

inductive Err where
  | missing | validation | attribute | other
  deriving DecidableEq, Repr

/-- What is known of key events at some time, and cryptography: number of the current key state (`kevers`), last event at a number with its keys
and threshold if it has any, digest of ESSR attachments. -/
structure Env where
  verify : Id → Nat → Msg → Bool
  transferable : Id → Bool
  sn : Id → Option Nat
  evt : Id → Nat → Option (Dig × Option (List Id × Thold))
  essrOk : Dig → List Nat → Bool

/-- What is done besides storing: cues and calls of handlers. -/
inductive Act where
  | query (pre : Id) (sn : Nat)
  | saved (said : Dig)
  | handled (m : Msg)
  deriving DecidableEq

/-- Sub-databases (db/basing.py:1071-1101): messages, replies, signatures by message and establishment event in order of keys, other attachments,
messages that wait with the time they began to. -/
structure Exc where
  exns : Tab Dig Msg := []
  erpy : Tab Dig Dig := []
  esigs : Tab Dig (List Tsg) := []
  ecigs : Tab Dig (List (Id × Nat)) := []
  epath : Tab Dig (List Nat) := []
  enst : Tab Dig (List Dig) := []
  essrs : Tab Dig (List Nat) := []
  epse : Tab Dig Msg := []
  epsd : Tab Dig Int := []
  acts : List Act := []

/-! ## Stores -/

/-- Order of keys: identifier, number (32 hexadecimal digits), digest. -/
def quadLt (a b : Quad) : Bool :=
  decide (a.1 < b.1) || (decide (a.1 = b.1) && (decide (a.2.1 < b.2.1) || (decide (a.2.1 = b.2.1) && decide (a.2.2 < b.2.2))))

/-- `esigs.add(keys=quadkeys, val=siger)` among the entries of one message. -/
def addSig (q : Quad) (s : Sig) : List Tsg → List Tsg
  | [] => [(q, [s])]
  | t :: l => if t.1 = q then (t.1, if s ∈ t.2 then t.2 else t.2 ++ [s]) :: l
    else if quadLt q t.1 then (q, [s]) :: t :: l
    else t :: addSig q s l

/-- exchanging.py:209-212, 301-304: all signatures of all groups. -/
def addTsgs (l : List Tsg) (ts : List Tsg) : List Tsg := ts.foldl (fun l t => t.2.foldl (fun l s => addSig t.1 s l) l) l

/-- db/dbing.py:1144-1172 `pinIoSetVals`: nothing is not written. -/
def pinSet {α : Type} [DecidableEq α] (t : Tab Dig (List α)) (d : Dig) (vs : List α) : Tab Dig (List α) :=
  if vs = [] then t else t.pin d (Verif.Kel.oset vs)

/-- `add` of all of a list. -/
def addSet {α : Type} [DecidableEq α] (t : Tab Dig (List α)) (d : Dig) (vs : List α) : Tab Dig (List α) :=
  vs.foldl (fun t v => if v ∈ t.items d then t else t.pin d (t.items d ++ [v])) t

/-- exchanging.py:198-219 `escrowPSEvent`: also whether it did not wait before. -/
def escrow (now : Int) (e : Exc) (m : Msg) (tsgs : List Tsg) (a : Att) : Exc × Bool :=
  let fresh := (e.epse.get m.said).isNone
  ({ e with
    esigs := e.esigs.pin m.said (addTsgs (e.esigs.items m.said) tsgs)
    epsd := e.epsd.put m.said now
    epath := pinSet e.epath m.said a.ptds
    enst := pinSet e.enst m.said a.nests
    epse := e.epse.put m.said m }, fresh)

/-- exchanging.py:293-318 `logEvent`.  Cigars are stored even if only the other signatures have been checked. -/
def log (e : Exc) (m : Msg) (a : Att) : Exc :=
  { e with
    esigs := e.esigs.pin m.said (addTsgs (e.esigs.items m.said) a.tsgs)
    ecigs := addSet e.ecigs m.said a.cigars
    epath := pinSet e.epath m.said a.ptds
    enst := pinSet e.enst m.said a.nests
    essrs := addSet e.essrs m.said a.essrs
    erpy := match m.prior with | some p => e.erpy.pin p m.said | none => e.erpy
    exns := e.exns.put m.said m }

/-! ## Signatures -/

/-- db/basing.py:2085-2123 `resolveVerifiers`; an event without keys makes the code that uses them fail. -/
def resolve (env : Env) (q : Quad) : Except Err (Thold × List Id) :=
  if env.transferable q.1 then
    match env.evt q.1 q.2.1 with
    | none => .error .validation
    | some (d, keys) => if d ≠ q.2.2 then .error .validation else match keys with
      | none => .error .other
      | some (ks, kt) => .ok (kt, ks)
  else .ok (.num 1, [q.1])

/-- core/eventing.py:316-359 `verifySigs`. -/
def verifySigs (env : Env) (m : Msg) (ss : List Sig) (keys : List Id) : List Sig :=
  (Verif.Kel.oset ss).filter fun s => match keys[s.index]? with
    | none => false
    | some k => env.verify k s.raw m

/-- Result for one group: good, enough reason to wait, or an exception. -/
inductive Check where
  | good | wait | fail (e : Err)
  deriving DecidableEq

/-- exchanging.py:97-118 and 742-757: one group of signatures, whoever it is of. -/
def checkSigs (env : Env) (m : Msg) (t : Tsg) : Check :=
  match env.sn t.1.1 with
  | none => .wait
  | some n => if n < t.1.2.1 then .wait else match resolve env t.1 with
    | .error e => .fail e
    | .ok (kt, keys) => if Verif.Thold.satisfy kt ((verifySigs env m t.2 keys).map Sig.index) then .good else .wait

/-- exchanging.py:90-118: one group of signatures of a delivery; one of someone else is an error. -/
def checkTsg (env : Env) (m : Msg) (t : Tsg) : Check := if m.sender ≠ t.1.1 then .fail .missing else checkSigs env m t

/-- exchanging.py:88-118: all groups; the first that is not good decides. -/
def checkTsgs (env : Env) (m : Msg) : List Tsg → Check × Option Tsg
  | [] => (.good, none)
  | t :: l => match checkTsg env m t with
    | .good => checkTsgs env m l
    | c => (c, some t)

/-- exchanging.py:120-134. -/
def checkCigars (env : Env) (m : Msg) (l : List (Id × Nat)) : Bool := l.all (fun c => decide (m.sender = c.1) && env.verify c.1 c.2 m)

/-! ## Handlers -/

/-- A handler: its methods `verify` (state of the database, message, nested messages) and `handle`, if it has them. -/
structure Handler where
  verify : Option (Env → Exc → Msg → List Dig → Except Err Bool)
  handle : Option (Msg → Except Err Unit)

/-- The beginning of a text. -/
def startsWith (r p : List Char) : Bool := p.isPrefixOf r

/-- exchanging.py:157-158: only some handlers are given nested messages. -/
def given (m : Msg) (nests : List Dig) : List Dig :=
  if startsWith m.route "/multisig".toList || startsWith m.route "/ipex".toList then nests else []

/-- exchanging.py:162-170: the text in place of attributes is the digest of the ESSR attachments. -/
def essrCheck (env : Env) (m : Msg) (a : Att) : Bool :=
  match m.essr with
  | none => true
  | some d => decide (a.essrs ≠ []) && env.essrOk d a.essrs

/-- exchanging.py:173-181: does the handler let it pass?  Attribute errors are taken for a missing method. -/
def vet (h : Option Handler) (env : Env) (e : Exc) (m : Msg) (nests : List Dig) : Except Err Bool :=
  match h with
  | none => .ok true
  | some h => match h.verify with
    | none => .ok true
    | some f => match f env e m nests with
      | .error .attribute => .ok true
      | r => r

/-- exchanging.py:188-192. -/
def callHandler (h : Option Handler) (e : Exc) (m : Msg) : Exc × Except Err Unit :=
  match h with
  | none => (e, .ok ())
  | some h => match h.handle with
    | none => (e, .ok ())
    | some f => ({ e with acts := e.acts ++ [.handled m] }, match f m with | .error .attribute => .ok () | r => r)

abbrev Routes := List Char → Option Handler

/-- exchanging.py:145-192: an authentic message. -/
def accept (routes : Routes) (env : Env) (e : Exc) (m : Msg) (a : Att) : Exc × Except Err Unit :=
  if !essrCheck env m a then (e, .error .validation)
  else match vet (routes m.route) env e m (given m a.nests) with
    | .error x => (e, .error x)
    | .ok false => (e, .ok ())
    | .ok true => callHandler (routes m.route) { log e m a with acts := e.acts ++ [.saved m.said] } m

/-- exchanging.py:63-192 `processEvent`. -/
def process (routes : Routes) (env : Env) (now : Int) (e : Exc) (m : Msg) (a : Att) : Exc × Except Err Unit :=
  if a.tsgs ≠ [] then
    match checkTsgs env m a.tsgs with
    | (.good, _) => accept routes env e m a
    | (.fail x, _) => (e, .error x)
    | (.wait, t) =>
      let (e, fresh) := escrow now e m a.tsgs a
      (if fresh then { e with acts := e.acts ++ (t.map (fun t => Act.query t.1.1 t.1.2.1)).toList } else e, .error .missing)
  else if a.cigars ≠ [] then
    if checkCigars env m a.cigars then accept routes env e m a else (e, .error .missing)
  else ((escrow now e m [] a).1, .error .missing)

/-- exchanging.py:268-287: it no longer waits.  `esigs.rem(dig)` removes nothing: there are no signatures at the digest alone. -/
def unescrow (e : Exc) (d : Dig) : Exc :=
  let e := { e with epse := e.epse.rem d, epsd := e.epsd.rem d }
  if (e.exns.get d).isSome then e else { e with epath := e.epath.rem d, enst := e.enst.rem d }

/-- exchanging.py:242-259: what is stored with a message that waits. -/
def stored (e : Exc) (d : Dig) : Att := { tsgs := e.esigs.items d, ptds := e.epath.items d, essrs := e.essrs.items d, nests := e.enst.items d }

/-- exchanging.py:221-291 `processEscrowPartialSigned`: one message that waits. -/
def processWaiting (routes : Routes) (env : Env) (now : Int) (e : Exc) (d : Dig) (m : Msg) : Exc :=
  match e.epsd.get d with
  | none => unescrow e d
  | some t =>
    if 10000000 < now - t then unescrow e d
    else match process routes env now e m (stored e d) with
      | (e, .error .missing) => e
      | (e, _) => unescrow e d

/-- exchanging.py:221-291: all that wait when it begins (in the order they began to; the code has the order of keys). -/
def processEscrow (routes : Routes) (env : Env) (now : Int) (e : Exc) : Exc :=
  e.epse.foldl (fun e x => processWaiting routes env now e x.1 x.2) e

/-- exchanging.py:347-362 `complete`. -/
def complete (e : Exc) (d : Dig) : Bool := (e.exns.get d).isSome

/-! ## Reading messages again -/

/-- exchanging.py:712-774 `verify`: the stored signatures. -/
def checkStored (env : Env) (e : Exc) (m : Msg) : Except Err Unit :=
  let rec go : List Tsg → Except Err Unit
    | [] => .ok ()
    | t :: l => match checkSigs env m t with
      | .good => go l
      | .wait => .error .missing
      | .fail x => .error x
  match go (e.esigs.items m.said) with
  | .error x => .error x
  | .ok () =>
    if (e.ecigs.items m.said).all (fun c => env.verify c.1 c.2 m) then
      if e.esigs.items m.said = [] ∧ e.ecigs.items m.said = [] then .error .missing else .ok ()
    else .error .missing

/-- exchanging.py:609-633 `cloneMessage`, without attachments. -/
def clone (env : Env) (e : Exc) (d : Dig) : Except Err (Option Msg) :=
  match e.exns.get d with
  | none => .ok none
  | some m => match checkStored env e m with
    | .error x => .error x
    | .ok () => .ok (some m)

/-! ## IPEX -/

/-- `str.split("/")`. -/
def splitSlash : List Char → List (List Char)
  | [] => [[]]
  | c :: l => if c = '/' then [] :: splitSlash l else match splitSlash l with
    | [] => [[c]]
    | w :: ws => (c :: w) :: ws

inductive Verb where
  | apply | offer | agree | grant | admit | spurn
  deriving DecidableEq, Repr

/-- vc/protocoling.py:14-15, acdc/ipexing.py:21-23. -/
def verbOf (w : List Char) : Option Verb :=
  if w = "apply".toList then some .apply
  else if w = "offer".toList then some .offer
  else if w = "agree".toList then some .agree
  else if w = "grant".toList then some .grant
  else if w = "admit".toList then some .admit
  else if w = "spurn".toList then some .spurn
  else none

/-- The verb of a route `/ipex/<verb>`. -/
def ipexVerb (r : List Char) : Option Verb :=
  match splitSlash r with
  | [a, b, w] => if a = [] ∧ b = "ipex".toList then verbOf w else none
  | _ => none

/-- vc/protocoling.py:16-22 `PreviousRoutes`. -/
def previous1 : Verb → List Verb
  | .apply => []
  | .offer => [.apply]
  | .agree => [.offer]
  | .grant => [.agree]
  | .admit => [.grant]
  | .spurn => [.apply, .offer, .agree, .grant]

/-- acdc/ipexing.py:25-31 `PreviousRoutes`. -/
def previous2 : Verb → List Verb
  | .apply => []
  | .offer => [.apply]
  | .agree => [.offer]
  | .grant => [.agree]
  | .admit => [.grant]
  | .spurn => [.apply, .offer, .agree]

/-- Components of a normalised path (`os.path.normpath`). -/
def normParts (abs : Bool) : List (List Char) → List (List Char) → List (List Char)
  | acc, [] => acc
  | acc, c :: l =>
    if c = [] ∨ c = ['.'] then normParts abs acc l
    else if c ≠ ['.', '.'] ∨ (abs = false ∧ acc = []) ∨ acc.getLast? = some ['.', '.'] then normParts abs (acc ++ [c]) l
    else normParts abs acc.dropLast l

/-- `os.path.basename(os.path.normpath(route))`. -/
def basename (r : List Char) : List Char :=
  let abs := startsWith r ['/']
  match (normParts abs [] (splitSlash r)).getLast? with
  | some c => c
  | none => if abs then [] else ['.']

/-- vc/protocoling.py:108-121, acdc/ipexing.py:307-322 `response`. -/
def response (env : Env) (e : Exc) (d : Dig) : Except Err (Option Msg) :=
  match e.erpy.get d with
  | none => .ok none
  | some r => clone env e r

/-- vc/protocoling.py:76-87, 93-104, acdc/ipexing.py:292-305: the message answered is there, of the right kind and has no answer. -/
def answers (env : Env) (e : Exc) (d : Dig) (right : List Char → Bool) : Except Err Bool :=
  match clone env e d with
  | .error x => .error x
  | .ok none => .ok false
  | .ok (some p) => if !right p.route then .ok false
    else match response env e p.said with
      | .error x => .error x
      | .ok r => .ok r.isNone

/-- vc/protocoling.py:55-106: `verify` of the first IPEX handler, which has no parameter for nested messages.  (Neither handler has one for ESSR
attachments, with which messages would fail; that is not modelled, nor is a text in place of attributes.) -/
def verify1 (env : Env) (e : Exc) (m : Msg) (nests : List Dig) : Except Err Bool :=
  if nests ≠ [] then .error .other
  else match ipexVerb m.route, m.prior with
    | none, _ => .ok false
    | some v, none => .ok (decide (v = .apply ∨ v = .offer ∨ v = .grant))
    | some .apply, some _ => .ok false
    | some v, some d => answers env e d (fun r => match verbOf (basename r) with | some p => decide (p ∈ previous1 v) | none => false)

/-- acdc/ipexing.py:242-273: the nested messages are those the attributes name. -/
def artifacts (m : Msg) (nests : List Dig) : Verb → Bool
  | .offer => match m.acdc, nests with
    | some d, [n] => decide (n = d)
    | _, _ => false
  | .grant => decide (nests.map some = m.acdc :: ((if m.iss.isSome then [m.iss] else []) ++ if m.anc.isSome then [m.anc] else []))
  | _ => decide (nests = [])

/-- acdc/ipexing.py:214-305: `verify` of the second IPEX handler.  A grant without "acdc" is a KeyError if as many are nested as named. -/
def verify2 (env : Env) (e : Exc) (m : Msg) (nests : List Dig) : Except Err Bool :=
  match ipexVerb m.route with
  | none => .ok false
  | some v =>
    if v = .grant ∧ m.acdc = none ∧ nests.length = 1 + m.iss.toList.length + m.anc.toList.length then .error .other
    else if !artifacts m nests v then .ok false
    else match v, m.prior with
      | .apply, p => .ok p.isNone
      | v, none => .ok (decide (v = .offer ∨ v = .grant))
      | v, some d => answers env e d (fun r => match ipexVerb r with | some p => decide (p ∈ previous2 v) | none => false)

/-- The handlers; `handle` makes a notice (vc/protocoling.py:123-137, acdc/ipexing.py:324-343) and does not fail. -/
def ipex1 : Handler := { verify := some verify1, handle := some (fun _ => .ok ()) }
def ipex2 : Handler := { verify := some verify2, handle := some (fun _ => .ok ()) }

end Verif.Exc
