import Verif.Base.Err
import Verif.Krm.Tab

/-!
# Signed HTTP requests (src/keri/end/ending.py, src/keri/app/httping.py)

Texts are lists of characters. Signatures are read by the constructors of `Siger` and `Cigar`, here two functions from a text to a signature or an
exception; a signature to be written is known by its Base64 text, its index if it has one, and its public key otherwise.
-/

namespace Verif.Http

open Verif.Krm

abbrev Str := List Char

/-! ## Text -/

/-- `text.split(c)`. -/
def split (c : Char) : Str → List Str
  | [] => [[]]
  | x :: r => if x = c then [] :: split c r else match split c r with
    | [] => [[x]]
    | h :: t => (x :: h) :: t

/-- `c.join(parts)`. -/
def join (c : Char) : List Str → Str
  | [] => []
  | [a] => a
  | a :: b :: r => a ++ c :: join c (b :: r)

/-- `text.split("=", maxsplit=1)`, unpacked into two. -/
def cut : Str → Option (Str × Str)
  | [] => none
  | x :: r => if x = '=' then some ([], r) else (cut r).map fun p => (x :: p.1, p.2)

/-- `text.strip('"')`. -/
def unquote (t : Str) : Str := ((t.dropWhile (· = '"')).reverse.dropWhile (· = '"')).reverse

/-- `str(i)`. -/
def str (i : Nat) : Str := (toString i).toList

/-! ## The Signature header -/

/-- A signature to be written: `Siger` with index, `Cigar` with the public key of its `verfer`, each with its Base64 text. -/
inductive Marker where
  | siger (index : Nat) (qb64 : Str)
  | cigar (verfer : Str) (qb64 : Str)
  deriving DecidableEq

def Marker.qb64 : Marker → Str
  | .siger _ t => t
  | .cigar _ t => t

/-- `hasattr(marker, "index")`. -/
def Marker.indexed : Marker → Bool
  | .siger _ _ => true
  | .cigar _ _ => false

/-- ending.py:153, 158. -/
def Marker.tag : Marker → Str
  | .siger i _ => str i
  | .cigar v _ => v

/-- ending.py:47 `Signage`, as given to `signature`: markers with tags (a dict) or without (a list). -/
structure Signage where
  markers : List Marker
  tags : Option (List Str) := none
  indexed : Option Bool := none
  signer : Option Str := none
  ordinal : Option Str := none
  digest : Option Str := none
  kind : Option Str := none
  deriving DecidableEq

/-- `f'{tag}="{val}"'`. -/
def item (tag val : Str) : Str := tag ++ '=' :: '"' :: val ++ ['"']

/-- ending.py:128-143: present and not empty. -/
def given (tag : Str) : Option Str → List (Str × Str)
  | none => []
  | some [] => []
  | some (x :: r) => [(tag, x :: r)]

def tIndexed : Str := "indexed".toList
def tSigner : Str := "signer".toList
def tOrdinal : Str := "ordinal".toList
def tDigest : Str := "digest".toList
def tKind : Str := "kind".toList
def tCesr : Str := "CESR".toList

/-- ending.py:145-164: tags of markers; those of a list are checked against `indexed`. -/
def marks (indexed : Bool) : List Marker → Option (List Str) → Except Err (List (Str × Str))
  | ms, some (t :: ts) => .ok ((t :: ts).zip (ms.map Marker.qb64))
  | ms, _ => if ms.all (fun m => m.indexed = indexed) then .ok (ms.map fun m => (m.tag, m.qb64)) else .error .valueError

/-- ending.py:121-122: `markers[0]` when `indexed` is to be found out. -/
def indexedOf (s : Signage) : Except Err Bool := match s.indexed with
  | some b => .ok b
  | none => match s.markers with
    | [] => .error .indexError
    | m :: _ => .ok m.indexed

/-- ending.py:107-164: the items of one signage. -/
def itemsOf (s : Signage) : Except Err (List (Str × Str)) := match indexedOf s with
  | .error e => .error e
  | .ok b => match marks b s.markers s.tags with
    | .error e => .error e
    | .ok ms => .ok ((tIndexed, if b then "?1".toList else "?0".toList) ::
        (given tSigner s.signer ++ given tOrdinal s.ordinal ++ given tDigest s.digest ++ given tKind s.kind ++ ms))

def valueOf (its : List (Str × Str)) : Str := join ';' (its.map fun i => item i.1 i.2)

def valuesOf : List Signage → Except Err (List Str)
  | [] => .ok []
  | s :: r => match itemsOf s with
    | .error e => .error e
    | .ok its => match valuesOf r with
      | .error e => .error e
      | .ok vs => .ok (valueOf its :: vs)

/-- ending.py:62-168 `signature`: the value of the header. -/
def signature (ss : List Signage) : Except Err Str := match valuesOf ss with
  | .error e => .error e
  | .ok vs => .ok (join ',' vs)

/-- The constructors `Siger(qb64=…)` and `Cigar(qb64=…)`. -/
structure Reader (S : Type) where
  siger : Str → Except Err S
  cigar : Str → Except Err S

/-- A value among the markers read: a signature, or text when the kind is not CESR. -/
inductive Mark (S : Type) where
  | sig (s : S)
  | text (t : Str)
  deriving DecidableEq

/-- What `designature` gives. -/
structure Read (S : Type) where
  markers : List (Str × Mark S)
  indexed : Bool
  signer : Option Str
  ordinal : Option Str
  digest : Option Str
  kind : Str
  deriving DecidableEq

/-- helping.py:20 `FALSEY`, the texts of it. -/
def falsey : List Str := ["?0".toList, "no".toList, "false".toList, "False".toList, "off".toList]

/-- ending.py:217-220. -/
def parseItems (t : Tab Str Str) : List Str → Except Err (Tab Str Str)
  | [] => .ok t
  | i :: r => match cut i with
    | none => .error .valueError
    | some (k, v) => parseItems (Tab.pin t k (unquote v)) r

/-- ending.py:251-256. -/
def readMarks {S : Type} (R : Reader S) (indexed : Bool) : List (Str × Str) → Except Err (List (Str × Mark S))
  | [] => .ok []
  | (k, v) :: r => match (if indexed then R.siger v else R.cigar v) with
    | .error e => .error e
    | .ok s => match readMarks R indexed r with
      | .error e => .error e
      | .ok l => .ok ((k, .sig s) :: l)

/-- ending.py:222-259: one value, from its items. -/
def readItems {S : Type} (R : Reader S) (t : Tab Str Str) : Except Err (Read S) := match Tab.get t tIndexed with
  | none => .error .valueError
  | some iv =>
    let indexed := decide (iv ∉ falsey)
    let t := Tab.rem t tIndexed
    let signer := Tab.get t tSigner
    let t := Tab.rem t tSigner
    let ordinal := Tab.get t tOrdinal
    let t := Tab.rem t tOrdinal
    let digest := Tab.get t tDigest
    let t := Tab.rem t tDigest
    let kind := (Tab.get t tKind).getD tCesr
    let t := Tab.rem t tKind
    if kind = tCesr then
      match readMarks R indexed t with
      | .error e => .error e
      | .ok ms => .ok ⟨ms, indexed, signer, ordinal, digest, kind⟩
    else .ok ⟨t.map fun i => (i.1, .text i.2), indexed, signer, ordinal, digest, kind⟩

def readValue {S : Type} (R : Reader S) (v : Str) : Except Err (Read S) := match parseItems [] (split ';' v) with
  | .error e => .error e
  | .ok t => readItems R t

def readValues {S : Type} (R : Reader S) : List Str → Except Err (List (Read S))
  | [] => .ok []
  | v :: r => match readValue R v with
    | .error e => .error e
    | .ok x => match readValues R r with
      | .error e => .error e
      | .ok l => .ok (x :: l)

/-- `value.replace(" ", "")`. -/
def noSpaces (v : Str) : Str := v.filter (· ≠ ' ')

/-- ending.py:171-261 `designature`. -/
def designature {S : Type} (R : Reader S) (v : Str) : Except Err (List (Read S)) := readValues R (split ',' (noSpaces v))

/-! ## Validation of requests -/

/-- httping.py:61-69: keys by position. A marker of another kind than CESR is text, which takes no `verfer`. -/
def checkKeys {S K B : Type} (verify : K → S → B → Bool) (ms : List (Str × Mark S)) (ser : B) (i : Nat) : List K → Except Err Bool
  | [] => .ok true
  | k :: r => match Tab.get ms (str i) with
    | none => .ok false
    | some (.text _) => .error .attributeError
    | some (.sig s) => if verify k s ser then checkKeys verify ms ser (i + 1) r else .ok false

/-- httping.py:53-71 `validate`: `keys` are the current keys of the controller, `none` when it is not known. The header is `none` when the request has
none (45): `None` has no `replace`. -/
def validate {S K B : Type} (R : Reader S) (verify : K → S → B → Bool) (keys : Option (List K)) (sig : Option Str) (ser : B) : Except Err Bool :=
  match sig with
  | none => .error .attributeError
  | some t => match designature R t with
    | .error e => .error e
    | .ok [] => .error .indexError
    | .ok (x :: _) => match keys with
      | none => .ok false
      | some ks => checkKeys verify x.markers ser 0 ks

/-! ## Streams as requests -/

abbrev Bytes := List Nat

/-- httping.py:187-190: bytes up to the next `{`. -/
def attachment (ims : Bytes) : Bytes := ims.takeWhile (· ≠ 123)

inductive Fail where
  | coldStart
  | extraction
  | other (e : Err)
  deriving DecidableEq

/-- httping.py:179-209, the loop: the requests posted, as body and attachment, and how it ends. `size` is the size of the message at the front
(`SerderKERI(raw=ims)`), or its exception. -/
def requests (size : Bytes → Except Err Nat) : Nat → Bytes → List (Bytes × Bytes) × Option Fail
  | 0, _ => ([], none)
  | fuel + 1, ims => match ims with
    | [] => ([], none)
    | _ :: _ => match size ims with
      | .error .shortage => ([], some .extraction)
      | .error e => ([], some (.other e))
      | .ok n =>
        let rest := ims.drop n
        let att := attachment rest
        let (l, f) := requests size fuel (rest.drop att.length)
        ((ims.take n, att) :: l, f)

/-- httping.py:154-211 `streamCESRRequests`; tritets as in `sniff` (kering.py:287-328): text 1 and 2, binary 7. The tritet 0 is annotated text, it
goes on. -/
def stream (size : Bytes → Except Err Nat) (ims : Bytes) : List (Bytes × Bytes) × Option Fail := match ims with
  | [] => ([], some (.other .shortage))
  | b :: _ => if b / 32 = 1 ∨ b / 32 = 2 ∨ b / 32 = 7 then ([], some .coldStart) else requests size ims.length ims

/-! ## The text that is signed -/

/-- ending.py:294-310, one field: the name and value covered, if any. `lower` is `str.lower`, `strip` is `normalize`, `headers` is the lookup. -/
def covered (lower strip : Str → Str) (method path : Str) (headers : Str → Option Str) (f : Str) : Option (Str × Str) :=
  if f.head? = some '@' then
    if f = "@method".toList then some (f, method)
    else if f = "@path".toList then some (f, path)
    else none
  else (headers (lower f)).map fun v => (lower f, strip v)

/-- `f'"{field}": {value}'`. -/
def line (x : Str × Str) : Str := '"' :: x.1 ++ '"' :: ':' :: ' ' :: x.2

/-- ending.py:317-334: the parameters (`created` and those given, in order), behind the names of fields. -/
def params (fs : List Str) (ps : List (Str × Str)) : Str :=
  join ';' (('(' :: join ' ' fs ++ [')']) :: ps.map fun p => p.1 ++ '=' :: p.2)

/-- ending.py:336. -/
def paramLine (p : Str) : Str := '"' :: "@signature-params: ".toList ++ p ++ ['"']

/-- ending.py:290-337 of `siginput`: the text that is signed. -/
def base (lower strip : Str → Str) (method path : Str) (headers : Str → Option Str) (fields : List Str) (ps : List (Str × Str)) : Str :=
  let cs := fields.filterMap (covered lower strip method path headers)
  join '\n' (cs.map line ++ [paramLine (params (cs.map (·.1)) ps)])

/-! ## Serving introductions -/

inductive Status where
  | ok | notFound | notAcceptable
  deriving DecidableEq

/-- What the node knows of an identifier (its key state). -/
structure State (Id : Type) where
  witnessed : Bool
  delegator : Option Id
  wits : List Id

/-- ending.py:561 -/
def delegatorMissing {Id : Type} (kevers : Id → Option (State Id)) (k : State Id) : Bool := match k.delegator with
  | none => false
  | some d => (kevers d).isNone

/-- ending.py:535-595 `OOBIEnd.on_get`. `reply h a r e` is what habitat `h` replies (`replyToOobi`), `replay` the log; roles and endpoints are
optional. Which of several own witnesses answers is the choice `pick` of a set's `pop`. -/
def onGet {Id Role M : Type} [DecidableEq Id] (default : Option Id) (kevers : Id → Option (State Id)) (prefixes : List Id) (witness : Role)
    (pick : List Id → Option Id) (reply : Id → Id → Option Role → List Id → List M) (replay : Id → List M)
    (aid : Option Id) (role : Option Role) (eid : Option Id) : Status × Option Id × List M :=
  match aid.or default with
  | none => (.notFound, none, [])
  | some a => match kevers a with
    | none => (.notFound, none, [])
    | some k =>
      if k.witnessed = false then (.notFound, none, [])
      else if delegatorMissing kevers k then (.notFound, none, [])
      else
        match (if a ∈ prefixes then some a else pick (k.wits.filter (· ∈ prefixes))) with
        | none => (.notAcceptable, none, [])
        | some h =>
          let eids := eid.toList
          let msgs := reply h a role eids
          let msgs := if msgs.isEmpty ∧ role.isNone then reply h a (some witness) eids ++ replay a else msgs
          if msgs.isEmpty then (.notFound, none, []) else (.ok, some a, msgs)

end Verif.Http
