import Verif.Ser.Json
import Verif.Mad.Said
import Verif.Prs.Stream

/-!
# Model of messages (src/keri/core/serdering.py 41-1132, 1135-1240, 1584-1656, 2128-2293)

The kind JSON is that of `Ser/Json.lean`; MessagePack, CBOR and native CESR are parameters, so are the functions that read, the digest functions, and
whether a threshold is one.  Texts are lists of characters that stand for the bytes of UTF-8, so `len(sad[label])` (828) counts bytes; the only genus is
that of KERI (kering.py `ProGen` maps both protocols to it), and `compactify` has no effect in the classes modelled.
-/

namespace Verif.Ser

open Verif.B64 Verif.Matter
open Verif.Mad hiding Kind verify makify
open Verif.Prs (Proto Kind Smellage asc chars versify deversify smell sniff)

/-- What is taken as given: digest functions by code (coring.py:3520-3530); `msgpack.dumps`, `cbor.dumps` and native serialization
(serdering.py:1644-1651, 1659-1927); `loads` (serdering.py:1244-1297), with an exception where it gives something that is not a dict;
whether `Tholder(sith=kt).sith == '1'` (coring.py:4379-4406). -/
structure Lib where
  hash : List Char → List Char → List Nat
  mgpk : Flds → Except Err (List Char)
  cbor : Flds → Except Err (List Char)
  cesr : Proto → Nat × Nat → Option (Nat × Nat) → Flds → Except Err (List Char)
  loads : Smellage → List Char → Except Err Flds
  sithOne : Val → Bool

/-- The digests, for the functions of field maps. -/
def Lib.world (lib : Lib) : World := ⟨lib.hash, fun _ => .error .typeError⟩

/-- serdering.py:41-177 `FieldDom`: all fields with their defaults, optional ones, alternates, said fields with the default code, whether no others are
allowed. -/
structure FieldDom where
  alls : Flds
  opts : List (List Char)
  alts : List (List Char × List Char)
  saids : Saids
  strict : Bool

/-- A field with the default `''`, `'0'`, `[]` or `{}`. -/
def tx (l : List Char) : List Char × Val := (l, .text [])
def tz (l : List Char) : List Char × Val := (l, .text ['0'])
def li (l : List Char) : List Char × Val := (l, .list [])
def mp (l : List Char) : List Char × Val := (l, .map [])

/-- serdering.py:369-429, KERI 1.0. -/
def keri1 : List (Option (List Char) × FieldDom) := [
  (some ['i', 'c', 'p'],
    ⟨[tx ['v'], tx ['t'], tx ['d'], tx ['i'], tz ['s'], tz ['k', 't'], li ['k'], tz ['n', 't'], li ['n'], tz ['b', 't'], li ['b'], li ['c'], li ['a']],
     [], [], [(['d'], ['E']), (['i'], ['E'])], true⟩),
  (some ['r', 'o', 't'],
    ⟨[tx ['v'], tx ['t'], tx ['d'], tx ['i'], tz ['s'], tx ['p'], tz ['k', 't'], li ['k'], tz ['n', 't'], li ['n'], tz ['b', 't'], li ['b', 'r'], li ['b', 'a'], li ['a']],
     [], [], [(['d'], ['E'])], true⟩),
  (some ['i', 'x', 'n'],
    ⟨[tx ['v'], tx ['t'], tx ['d'], tx ['i'], tz ['s'], tx ['p'], li ['a']],
     [], [], [(['d'], ['E'])], true⟩),
  (some ['d', 'i', 'p'],
    ⟨[tx ['v'], tx ['t'], tx ['d'], tx ['i'], tz ['s'], tz ['k', 't'], li ['k'], tz ['n', 't'], li ['n'], tz ['b', 't'], li ['b'], li ['c'], li ['a'], tx ['d', 'i']],
     [], [], [(['d'], ['E']), (['i'], ['E'])], true⟩),
  (some ['d', 'r', 't'],
    ⟨[tx ['v'], tx ['t'], tx ['d'], tx ['i'], tz ['s'], tx ['p'], tz ['k', 't'], li ['k'], tz ['n', 't'], li ['n'], tz ['b', 't'], li ['b', 'r'], li ['b', 'a'], li ['a']],
     [], [], [(['d'], ['E'])], true⟩),
  (some ['r', 'c', 't'],
    ⟨[tx ['v'], tx ['t'], tx ['d'], tx ['i'], tz ['s']],
     [], [], [], true⟩),
  (some ['q', 'r', 'y'],
    ⟨[tx ['v'], tx ['t'], tx ['d'], tx ['d', 't'], tx ['r'], tx ['r', 'r'], mp ['q']],
     [], [], [(['d'], ['E'])], true⟩),
  (some ['r', 'p', 'y'],
    ⟨[tx ['v'], tx ['t'], tx ['d'], tx ['d', 't'], tx ['r'], li ['a']],
     [], [], [(['d'], ['E'])], true⟩),
  (some ['p', 'r', 'o'],
    ⟨[tx ['v'], tx ['t'], tx ['d'], tx ['d', 't'], tx ['r'], tx ['r', 'r'], mp ['q']],
     [], [], [(['d'], ['E'])], true⟩),
  (some ['b', 'a', 'r'],
    ⟨[tx ['v'], tx ['t'], tx ['d'], tx ['d', 't'], tx ['r'], li ['a']],
     [], [], [(['d'], ['E'])], true⟩),
  (some ['e', 'x', 'n'],
    ⟨[tx ['v'], tx ['t'], tx ['d'], tx ['i'], tx ['r', 'p'], tx ['p'], tx ['d', 't'], tx ['r'], mp ['q'], li ['a'], mp ['e']],
     [], [], [(['d'], ['E'])], true⟩),
  (some ['v', 'c', 'p'],
    ⟨[tx ['v'], tx ['t'], tx ['d'], tx ['i'], tx ['i', 'i'], tz ['s'], li ['c'], tz ['b', 't'], li ['b'], tx ['n']],
     [], [], [(['d'], ['E']), (['i'], ['E'])], true⟩),
  (some ['v', 'r', 't'],
    ⟨[tx ['v'], tx ['t'], tx ['d'], tx ['i'], tx ['p'], tz ['s'], tz ['b', 't'], li ['b', 'r'], li ['b', 'a']],
     [], [], [(['d'], ['E'])], true⟩),
  (some ['i', 's', 's'],
    ⟨[tx ['v'], tx ['t'], tx ['d'], tx ['i'], tz ['s'], tx ['r', 'i'], tx ['d', 't']],
     [], [], [(['d'], ['E'])], true⟩),
  (some ['r', 'e', 'v'],
    ⟨[tx ['v'], tx ['t'], tx ['d'], tx ['i'], tz ['s'], tx ['r', 'i'], tx ['p'], tx ['d', 't']],
     [], [], [(['d'], ['E'])], true⟩),
  (some ['b', 'i', 's'],
    ⟨[tx ['v'], tx ['t'], tx ['d'], tx ['i'], tx ['i', 'i'], tz ['s'], mp ['r', 'a'], tx ['d', 't']],
     [], [], [(['d'], ['E'])], true⟩),
  (some ['b', 'r', 'v'],
    ⟨[tx ['v'], tx ['t'], tx ['d'], tx ['i'], tz ['s'], tx ['p'], mp ['r', 'a'], tx ['d', 't']],
     [], [], [(['d'], ['E'])], true⟩)]

/-- serdering.py:430-472, KERI 2.0. -/
def keri2 : List (Option (List Char) × FieldDom) := [
  (some ['i', 'c', 'p'],
    ⟨[tx ['v'], tx ['t'], tx ['d'], tx ['i'], tz ['s'], tz ['k', 't'], li ['k'], tz ['n', 't'], li ['n'], tz ['b', 't'], li ['b'], li ['c'], li ['a']],
     [], [], [(['d'], ['E']), (['i'], ['E'])], true⟩),
  (some ['r', 'o', 't'],
    ⟨[tx ['v'], tx ['t'], tx ['d'], tx ['i'], tz ['s'], tx ['p'], tz ['k', 't'], li ['k'], tz ['n', 't'], li ['n'], tz ['b', 't'], li ['b', 'r'], li ['b', 'a'], li ['c'], li ['a']],
     [], [], [(['d'], ['E'])], true⟩),
  (some ['i', 'x', 'n'],
    ⟨[tx ['v'], tx ['t'], tx ['d'], tx ['i'], tz ['s'], tx ['p'], li ['a']],
     [], [], [(['d'], ['E'])], true⟩),
  (some ['d', 'i', 'p'],
    ⟨[tx ['v'], tx ['t'], tx ['d'], tx ['i'], tz ['s'], tz ['k', 't'], li ['k'], tz ['n', 't'], li ['n'], tz ['b', 't'], li ['b'], li ['c'], li ['a'], tx ['d', 'i']],
     [], [], [(['d'], ['E']), (['i'], ['E'])], true⟩),
  (some ['d', 'r', 't'],
    ⟨[tx ['v'], tx ['t'], tx ['d'], tx ['i'], tz ['s'], tx ['p'], tz ['k', 't'], li ['k'], tz ['n', 't'], li ['n'], tz ['b', 't'], li ['b', 'r'], li ['b', 'a'], li ['c'], li ['a']],
     [], [], [(['d'], ['E'])], true⟩),
  (some ['r', 'c', 't'],
    ⟨[tx ['v'], tx ['t'], tx ['d'], tx ['i'], tz ['s']],
     [], [], [], true⟩),
  (some ['q', 'r', 'y'],
    ⟨[tx ['v'], tx ['t'], tx ['d'], tx ['i'], tx ['d', 't'], tx ['r'], tx ['r', 'r'], mp ['q']],
     [], [], [(['d'], ['E'])], true⟩),
  (some ['r', 'p', 'y'],
    ⟨[tx ['v'], tx ['t'], tx ['d'], tx ['i'], tx ['d', 't'], tx ['r'], mp ['a']],
     [], [], [(['d'], ['E'])], true⟩),
  (some ['p', 'r', 'o'],
    ⟨[tx ['v'], tx ['t'], tx ['d'], tx ['i'], tx ['d', 't'], tx ['r'], tx ['r', 'r'], mp ['q']],
     [], [], [(['d'], ['E'])], true⟩),
  (some ['b', 'a', 'r'],
    ⟨[tx ['v'], tx ['t'], tx ['d'], tx ['i'], tx ['d', 't'], tx ['r'], mp ['a']],
     [], [], [(['d'], ['E'])], true⟩),
  (some ['x', 'i', 'p'],
    ⟨[tx ['v'], tx ['t'], tx ['d'], tx ['u'], tx ['i'], tx ['r', 'i'], tx ['d', 't'], tx ['r'], mp ['q'], mp ['a']],
     [], [], [(['d'], ['E'])], true⟩),
  (some ['e', 'x', 'n'],
    ⟨[tx ['v'], tx ['t'], tx ['d'], tx ['i'], tx ['r', 'i'], tx ['x'], tx ['p'], tx ['d', 't'], tx ['r'], mp ['q'], mp ['a']],
     [], [], [(['d'], ['E'])], true⟩)]

/-- serdering.py:476-490, ACDC 1.0. -/
def acdc1 : List (Option (List Char) × FieldDom) := [
  (none,
    ⟨[tx ['v'], tx ['d'], tx ['u'], tx ['i'], tx ['r', 'i'], tx ['s'], tx ['a'], tx ['A'], tx ['e'], tx ['r']],
     [['u'], ['r', 'i'], ['a'], ['A'], ['e'], ['r']], [(['a'], ['A']), (['A'], ['a'])], [(['d'], ['E'])], true⟩),
  (some ['a', 'c', 'e'],
    ⟨[tx ['v'], tx ['t'], tx ['d'], tx ['u'], tx ['i'], tx ['r', 'i'], tx ['s'], tx ['a'], tx ['A'], tx ['e'], tx ['r']],
     [['u'], ['r', 'i'], ['a'], ['A'], ['e'], ['r']], [(['a'], ['A']), (['A'], ['a'])], [(['d'], ['E'])], false⟩)]

/-- serdering.py:491-534, ACDC 2.0. -/
def acdc2 : List (Option (List Char) × FieldDom) := [
  (none,
    ⟨[tx ['v'], tx ['d'], tx ['u'], tx ['i'], tx ['r', 'd'], tx ['s'], tx ['a'], tx ['A'], tx ['e'], tx ['r']],
     [['u'], ['r', 'd'], ['a'], ['A'], ['e'], ['r']], [(['a'], ['A']), (['A'], ['a'])], [(['d'], ['E'])], true⟩),
  (some ['a', 'c', 'm'],
    ⟨[tx ['v'], tx ['t'], tx ['d'], tx ['u'], tx ['i'], tx ['r', 'd'], tx ['s'], tx ['a'], tx ['A'], tx ['e'], tx ['r']],
     [['t'], ['u'], ['r', 'd'], ['a'], ['A'], ['e'], ['r']], [(['a'], ['A']), (['A'], ['a'])], [(['d'], ['E'])], true⟩),
  (some ['a', 'c', 'e'],
    ⟨[tx ['v'], tx ['t'], tx ['d'], tx ['u'], tx ['i'], tx ['r', 'i'], tx ['s'], tx ['a'], tx ['A'], tx ['e'], tx ['r']],
     [['u'], ['r', 'i'], ['a'], ['A'], ['e'], ['r']], [(['a'], ['A']), (['A'], ['a'])], [(['d'], ['E'])], false⟩),
  (some ['a', 'c', 't'],
    ⟨[tx ['v'], tx ['t'], tx ['d'], tx ['u'], tx ['i'], tx ['r', 'd'], tx ['s'], tx ['a'], tx ['e'], tx ['r']],
     [], [], [(['d'], ['E'])], true⟩),
  (some ['a', 'c', 'g'],
    ⟨[tx ['v'], tx ['t'], tx ['d'], tx ['u'], tx ['i'], tx ['r', 'd'], tx ['s'], tx ['A'], tx ['e'], tx ['r']],
     [], [], [(['d'], ['E'])], true⟩),
  (some ['s', 'c', 'h'],
    ⟨[tx ['v'], tx ['t'], tx ['d'], tx ['s']],
     [], [], [(['d'], ['E'])], true⟩),
  (some ['a', 't', 't'],
    ⟨[tx ['v'], tx ['t'], tx ['d'], tx ['a']],
     [], [], [(['d'], ['E'])], true⟩),
  (some ['a', 'g', 'g'],
    ⟨[tx ['v'], tx ['t'], tx ['d'], tx ['A']],
     [], [], [(['d'], ['E'])], true⟩),
  (some ['e', 'd', 'g'],
    ⟨[tx ['v'], tx ['t'], tx ['d'], tx ['e']],
     [], [], [(['d'], ['E'])], true⟩),
  (some ['r', 'u', 'l'],
    ⟨[tx ['v'], tx ['t'], tx ['d'], tx ['r']],
     [], [], [(['d'], ['E'])], true⟩),
  (some ['r', 'i', 'p'],
    ⟨[tx ['v'], tx ['t'], tx ['d'], tx ['u'], tx ['i'], tx ['n'], tx ['d', 't']],
     [], [], [(['d'], ['E'])], true⟩),
  (some ['b', 'u', 'p'],
    ⟨[tx ['v'], tx ['t'], tx ['d'], tx ['r', 'd'], tx ['n'], tx ['p'], tx ['d', 't'], tx ['b']],
     [], [], [(['d'], ['E'])], true⟩),
  (some ['u', 'p', 'd'],
    ⟨[tx ['v'], tx ['t'], tx ['d'], tx ['r', 'd'], tx ['n'], tx ['p'], tx ['d', 't'], tx ['t', 'd'], tx ['t', 's']],
     [], [], [(['d'], ['E'])], true⟩)]

/-- serdering.py:367-536 `Fields[proto][pvrsn]`. -/
def domains : Proto → Nat × Nat → Option (List (Option (List Char) × FieldDom))
  | .keri, (1, 0) => some keri1
  | .keri, (2, 0) => some keri2
  | .acdc, (1, 0) => some acdc1
  | .acdc, (2, 0) => some acdc2
  | _, _ => none

/-- `d.get(ilk)` -/
def domOf : List (Option (List Char) × FieldDom) → Option (List Char) → Option FieldDom
  | [], _ => none
  | (k, fd) :: r, ilk => if k = ilk then some fd else domOf r ilk

/-- `sad.get('t')` as a key of a dict with keys that are texts or None; a value of another kind is not in it or not hashable. -/
def ilkOf (sad : Flds) : Except Err (Option (List Char)) :=
  match getKey sad ['t'] with
  | none => .ok none
  | some .null => .ok none
  | some (.text t) => .ok (some t)
  | some _ => .error .typeError

/-- The attributes `._proto`, `._pvrsn`, `._gvrsn` and `._kind`. -/
structure Attrs where
  proto : Proto
  pvrsn : Nat × Nat
  gvrsn : Option (Nat × Nat)
  kind : Kind
  deriving DecidableEq

/-- A message: the attributes, `.raw`, `.sad` and `.size`. -/
structure Serder where
  attrs : Attrs
  raw : List Char
  sad : Flds
  size : Nat

/-- serdering.py:1618-1656 `dumps`. -/
def dumps (lib : Lib) (a : Attrs) (sad : Flds) : Except Err (List Char) :=
  match a.kind with
  | .json => .ok (json sad)
  | .mgpk => lib.mgpk sad
  | .cbor => lib.cbor sad
  | .cesr => lib.cesr a.proto a.pvrsn a.gvrsn sad

/-- `deversify(sad["v"])`; the match against something that is not a text raises TypeError. -/
def deversifyVal (v : Val) : Except Err Smellage :=
  match v with
  | .text t => deversify (asc t)
  | _ => .error .typeError

/-- `versify(…)` as a text. -/
def versifyText (a : Attrs) (size : Nat) : Except Err Val :=
  match versify a.proto a.pvrsn a.kind size a.gvrsn with
  | .error e => .error e
  | .ok b => .ok (.text (chars b))

/-- serdering.py:801-804 and 1036-1039: the labels are the first ones, in order. -/
def inOrder : List (List Char) → List (List Char) → Bool
  | [], _ => true
  | _ :: _, [] => false
  | l :: ls, k :: ks => k == l && inOrder ls ks

/-- serdering.py:781-804 and 994, 1018-1039: extras, alternates, missing or out of order fields. -/
def fieldsOk (fd : FieldDom) (keys : List (List Char)) : Bool :=
  let alls := fd.alls.map (·.1)
  let reqs := alls.filter (· ∉ fd.opts)
  let exts := keys.filter (· ∉ alls)
  let sopts := keys.filter fun l => l ∉ reqs ∧ l ∉ exts
  let salls := alls.filter fun l => ¬ (l ∈ fd.opts ∧ l ∉ sopts)
  !(!exts.isEmpty && fd.strict) && fd.alts.all (fun (p : List Char × List Char) => !(decide (p.1 ∈ sopts) && decide (p.2 ∈ sopts))) && inOrder salls keys

/-- `Matter(qb64=value).code`, none if that raises. -/
def codeAt (v : Option Val) : Option (List Char × List Char) :=
  match v with
  | some (.text t) => match exfil t with
    | .ok m => some (m.code, t)
    | .error _ => none
  | _ => none

/-- serdering.py:819-828: the codes and the dummies. -/
def readSaids : Saids → Flds → Except Err (Flds × Saids)
  | [], sad => .ok (sad, [])
  | (l, d) :: r, sad => match codeAt (getKey sad l) with
    | none =>
      if d ∈ digDex then .error .validation
      else match readSaids r sad with
        | .error e => .error e
        | .ok (sad', s) => .ok (sad', (l, d) :: s)
    | some (c, t) =>
      match readSaids r (if c ∈ digDex then setField sad l (.text (List.replicate t.length '#')) else sad) with
      | .error e => .error e
      | .ok (sad', s) => .ok (sad', (l, c) :: s)

/-- serdering.py:758-760 and 971-973, a genus version before version 2. -/
def oldGenus : Option (Nat × Nat) → Bool
  | some g => decide (g.1 < 2)
  | none => false

/-- serdering.py:734-830 `_validate`; `cls` is the protocol the class requires, if any. -/
def validate (cls : Option Proto) (a : Attrs) (sad : Flds) : Except Err (Flds × Saids) :=
  if cls ≠ none ∧ cls ≠ some a.proto then .error .validation
  else if oldGenus a.gvrsn then .error .validation
  else if a.kind = .cesr ∧ a.pvrsn.1 < 2 then .error .validation
  else match domains a.proto a.pvrsn with
    | none => .error .validation
    | some doms => match ilkOf sad with
      | .error e => .error e
      | .ok ilk => match domOf doms ilk with
        | none => .error .validation
        | some fd =>
          if fieldsOk fd (sad.map (·.1)) = false then .error .validation
          else if fd.saids.all (fun (p : List Char × List Char) => decide (p.1 ∈ fd.alls.map (·.1))) = false then .error .validation
          else if ['v'] ∉ sad.map (·.1) then .error .validation
          else readSaids fd.saids sad

/-- serdering.py:1120-1122. -/
def putDigests (lib : Lib) (ser : List Char) : Saids → Flds → Except Err Flds
  | [], sad => .ok sad
  | (l, c) :: r, sad =>
    if c ∈ digDex then match digestOf lib.world c ser with
      | .error e => .error e
      | .ok said => putDigests lib ser r (setField sad l (.text said))
    else putDigests lib ser r sad

/-- serdering.py:1107-1113: for the kinds with a size in the version string. -/
def sizify (lib : Lib) (a : Attrs) (sad : Flds) : Except Err (Flds × Nat) :=
  if a.kind = .cesr then .ok (sad, 0)
  else match dumps lib a sad with
    | .error e => .error e
    | .ok raw => match versifyText a raw.length with
      | .error e => .error e
      | .ok vs => .ok (setField sad ['v'] vs, raw.length)

/-- serdering.py:1084-1132 `_compute`: the map, its serialization and the size. -/
def compute (lib : Lib) (a : Attrs) (sad : Flds) (saids : Saids) : Except Err (Flds × List Char × Nat) :=
  match sizify lib a sad with
  | .error e => .error e
  | .ok (sad, size) => match dumps lib a sad with
    | .error e => .error e
    | .ok ser => match putDigests lib ser saids sad with
      | .error e => .error e
      | .ok sad => match dumps lib a sad with
        | .error e => .error e
        | .ok raw =>
          if a.kind = .cesr then match versifyText a raw.length with
            | .error e => .error e
            | .ok vs => .ok (setField sad ['v'] vs, raw, raw.length)
          else .ok (sad, raw, size)

/-- serdering.py:705-730: the version string against the attributes; 719-721 is `size != self.size != len(raw)`. -/
def consistent (s : Serder) (raw : List Char) (sm : Smellage) : Bool :=
  decide (s.attrs.proto = sm.proto) && decide (s.attrs.pvrsn = sm.pvrsn) && decide (s.attrs.kind = sm.kind) &&
  (if s.attrs.kind = .cesr then decide (s.size = raw.length) else !(decide (sm.size ≠ s.size) && decide (s.size ≠ raw.length))) &&
  decide (s.attrs.gvrsn = sm.gvrsn)

/-- serdering.py:688-731 `_verify`. -/
def verify (lib : Lib) (cls : Option Proto) (s : Serder) : Except Err Unit :=
  match validate cls s.attrs s.sad with
  | .error e => .error e
  | .ok (sad, saids) => match compute lib s.attrs sad saids with
    | .error e => .error e
    | .ok (sad, raw, _) =>
      if raw ≠ s.raw then .error .validation
      else match getKey sad ['v'] with
        | none => .error .keyError
        | some v => match deversifyVal v with
          | .error e => .error e
          | .ok sm => if consistent s raw sm then .ok () else .error .validation

/-- coring.py:585-613 `PreDex`, 619-631 `NonTransDex`, 635-652 `PreNonDigDex`. -/
def preDex : List (List Char) :=
  [['B'], ['D'], ['E'], ['F'], ['G'], ['H'], ['I'], ['0', 'D'], ['0', 'E'], ['0', 'F'], ['0', 'G'], ['1', 'A', 'A', 'A'], ['1', 'A', 'A', 'B'],
   ['1', 'A', 'A', 'C'], ['1', 'A', 'A', 'D'], ['1', 'A', 'A', 'E'], ['1', 'A', 'A', 'I'], ['1', 'A', 'A', 'J']]

def nonTransDex : List (List Char) := [['B'], ['1', 'A', 'A', 'A'], ['1', 'A', 'A', 'C'], ['1', 'A', 'A', 'I']]

def preNonDigDex : List (List Char) :=
  [['B'], ['D'], ['1', 'A', 'A', 'A'], ['1', 'A', 'A', 'B'], ['1', 'A', 'A', 'C'], ['1', 'A', 'A', 'D'], ['1', 'A', 'A', 'I'], ['1', 'A', 'A', 'J']]

def icp : List Char := ['i', 'c', 'p']
def dip : List Char := ['d', 'i', 'p']
def rot : List Char := ['r', 'o', 't']
def drt : List Char := ['d', 'r', 't']

/-- Python's truth of a value. -/
def truthy : Val → Bool
  | .null => false
  | .bool b => b
  | .num dns => dns.any fun c => decide (c ∈ ['1', '2', '3', '4', '5', '6', '7', '8', '9'])
  | .text t => !t.isEmpty
  | .list vs => !vs.isEmpty
  | .map fs => !fs.isEmpty

def truthyOpt : Option Val → Bool
  | none => false
  | some v => truthy v

/-- serdering.py:2255-2269: the single key of a basic prefix.  `len(self.keys)` and `self.keys[0]` of something that is not a list raise or give
something that is not the prefix. -/
def basicOk (lib : Lib) (sad : Flds) (pre : List Char) : Bool :=
  match getKey sad ['k'], getKey sad ['k', 't'] with
  | some (.list [.text k]), some kt => lib.sithOne kt && decide (k = pre)
  | _, _ => false

/-- serdering.py:2237-2283: the checks of the prefix.  What is raised is a ValidationError. -/
def prefixOk (lib : Lib) (sad : Flds) (ilk : Option (List Char)) : Bool :=
  match codeAt (getKey sad ['i']) with
  | none => false
  | some (code, pre) =>
    decide (code ∈ (if ilk = some dip ∨ ilk = some drt then digDex else preDex)) &&
    (!(decide (ilk = some icp ∨ ilk = some dip) && decide (code ∈ preNonDigDex)) || basicOk lib sad pre) &&
    (!(decide (ilk = some icp ∨ ilk = some dip ∨ ilk = some rot ∨ ilk = some drt) && decide (code ∈ nonTransDex)) ||
      (!truthyOpt (getKey sad ['n']) && !truthyOpt (getKey sad ['b']) && !truthyOpt (getKey sad ['a'])))

/-- serdering.py:2234-2236: the message types that have no prefix to check in version 1.0. -/
def unprefixed (pvrsn : Nat × Nat) (ilk : Option (List Char)) : Bool :=
  decide (pvrsn.1 < 2 ∧ pvrsn.2 < 1) &&
  decide (ilk ∈ [some ['q', 'r', 'y'], some ['r', 'p', 'y'], some ['p', 'r', 'o'], some ['b', 'a', 'r'], some ['e', 'x', 'n']])

/-- serdering.py:2285-2293: the delegator. -/
def delegatorOk (sad : Flds) (ilk : Option (List Char)) : Bool :=
  ilk ≠ some dip || (match codeAt (getKey sad ['d', 'i']) with
    | some (c, _) => decide (c ∈ preDex)
    | none => false)

/-- serdering.py:2217-2293 `SerderKERI._verify`. -/
def verifyKeri (lib : Lib) (s : Serder) : Except Err Unit :=
  match verify lib (some .keri) s with
  | .error e => .error e
  | .ok () => match domains s.attrs.proto s.attrs.pvrsn, ilkOf s.sad with
    | some doms, .ok ilk => match domOf doms ilk with
      | none => .error .keyError
      | some fd =>
        if fd.alls.map (·.1) ≠ s.sad.map (·.1) then .error .validation
        else if !(unprefixed s.attrs.pvrsn ilk) && !prefixOk lib s.sad ilk then .error .validation
        else if delegatorOk s.sad ilk = false then .error .validation
        else .ok ()
    | _, _ => .error .keyError

/-- The class of a message. -/
inductive Cls where
  | base | keri
  deriving DecidableEq

/-- The `_verify` of a class, and the ValidationError that the constructor raises for any exception (622-628, 654-660). -/
def check (lib : Lib) (cls : Cls) (s : Serder) : Except Err Unit :=
  match (match cls with | .base => verify lib none s | .keri => verifyKeri lib s) with
  | .ok () => .ok ()
  | .error _ => .error .validation

/-- serdering.py:1584-1614 `_exhale`. -/
def exhaleSad (lib : Lib) (sad : Flds) : Except Err Serder :=
  match getKey sad ['v'] with
  | none => .error .serialize
  | some v => match deversifyVal v with
    | .error e => .error e
    | .ok sm =>
      let a : Attrs := ⟨sm.proto, sm.pvrsn, sm.gvrsn, sm.kind⟩
      match dumps lib a sad with
      | .error e => .error e
      | .ok raw =>
        if a.kind = .cesr then match versifyText a raw.length with
          | .error e => .error e
          | .ok vs => .ok ⟨a, raw, setField sad ['v'] vs, raw.length⟩
        else .ok ⟨a, raw, sad, sm.size⟩

/-- serdering.py:639-660 `Serder(sad=sad)`, verifying. -/
def fromSad (lib : Lib) (cls : Cls) (sad : Flds) : Except Err Serder :=
  match exhaleSad lib sad with
  | .error e => .error e
  | .ok s => match check lib cls s with
    | .error e => .error e
    | .ok () => .ok s

/-- serdering.py:1135-1240 `_inhale`, from 1164-1172 (with `smellage`) and 1233-1240: the message and the rest of the stream. -/
def inhaleAs (lib : Lib) (sm : Smellage) (raw : List Char) : Except Err (Serder × List Char) :=
  if raw.length < sm.size then .error .shortage
  else match lib.loads sm (raw.take sm.size) with
    | .error e => .error e
    | .ok sad =>
      if ['v'] ∉ sad.map (·.1) then .error .deserialize
      else .ok (⟨⟨sm.proto, sm.pvrsn, sm.gvrsn, sm.kind⟩, raw.take sm.size, sad, sm.size⟩, raw.drop sm.size)

/-- serdering.py:1174-1183, a message of a kind other than native CESR, without `smellage`; what is done for native CESR (1185-1225) is not modelled. -/
def inhale (lib : Lib) (raw : List Char) : Except Err (Serder × List Char) :=
  match sniff (asc raw) with
  | .error e => .error e
  | .ok .msg => match smell (asc raw) with
    | .error e => .error e
    | .ok sm => inhaleAs lib sm raw
  | .ok _ => .error .valueError

/-- serdering.py:1164: with or without `smellage`. -/
def inhaleWith (lib : Lib) (sm : Option Smellage) (raw : List Char) : Except Err (Serder × List Char) :=
  match sm with
  | some sm => inhaleAs lib sm raw
  | none => inhale lib raw

/-- serdering.py:608-628 `Serder(raw=raw, strip=True)` with or without `smellage`, verifying: the message and the rest of the stream. -/
def fromRaw (lib : Lib) (cls : Cls) (sm : Option Smellage) (raw : List Char) : Except Err (Serder × List Char) :=
  match inhaleWith lib sm raw with
  | .error e => .error e
  | .ok (s, rest) => match check lib cls s with
    | .error e => .error e
    | .ok () => .ok (s, rest)

/-- The parameters of `makify`. -/
structure Opts where
  proto : Option Proto := none
  pvrsn : Option (Nat × Nat) := none
  gvrsn : Option (Nat × Nat) := none
  kind : Option Kind := none
  ilk : Option (List Char) := none
  saids : Saids := []

/-- serdering.py:927-935: what the version string of the given map says, and its message type. -/
def hints (sad : Flds) : Except Err (Option Smellage × Option Val) :=
  match getKey sad ['v'] with
  | none => .ok (none, none)
  | some v => match deversifyVal v with
    | .error .versionError => .ok (none, none)
    | .error e => .error e
    | .ok sm => .ok (some sm, getKey sad ['t'])

/-- serdering.py:967-968: the genus version. -/
def pickGenus (o : Opts) (sm : Option Smellage) (pvrsn : Nat × Nat) : Option (Nat × Nat) :=
  match o.gvrsn with
  | some g => some g
  | none => match sm.bind (·.gvrsn) with
    | some g => some g
    | none => if 2 ≤ pvrsn.1 then some (2, 0) else none

/-- serdering.py:978-980: the message type. -/
def pickIlk (o : Opts) (silk : Option Val) (doms : List (Option (List Char) × FieldDom)) : Except Err (Option (List Char)) :=
  match o.ilk with
  | some i => .ok (some i)
  | none => match silk with
    | some (.text t) => .ok (some t)
    | none | some .null => match doms with
      | [] => .error .indexError
      | (k, _) :: _ => .ok k
    | some _ => .error .serialize

/-- serdering.py:997-1002: defaults for the required fields that are missing. -/
def addMissing (fd : FieldDom) : Flds → Flds → Flds
  | [], sad => sad
  | (l, v) :: r, sad =>
    if l ∈ fd.opts then addMissing fd r sad
    else if l ∈ sad.map (·.1) then addMissing fd r sad
    else addMissing fd r (setField sad l v)

/-- serdering.py:1004-1012: the fields in order, then the extras. -/
def reorder (alls : Flds) (sad : Flds) : Flds :=
  (alls.filterMap fun (p : List Char × Val) => (getKey sad p.1).map fun v => (p.1, v)) ++
    sad.filter fun (p : List Char × Val) => p.1 ∉ alls.map (·.1)

/-- serdering.py:1014-1015. -/
def forceIlk (ilk : Option (List Char)) (sad : Flds) : Flds :=
  if ['t'] ∈ sad.map (·.1) then setField sad ['t'] (match ilk with | some t => .text t | none => .null) else sad

/-- serdering.py:1053-1064: the codes and the dummies. -/
def pickSaids (saids : Saids) : Saids → Flds → Flds × Saids
  | [], sad => (sad, [])
  | (l, d) :: r, sad =>
    let c := match getKey saids l with
      | some c => c
      | none => match codeAt (getKey sad l) with
        | some (c, _) => c
        | none => d
    let (sad', s) := pickSaids saids r (if c ∈ digDex then setField sad l (.text (dummyOf c)) else sad)
    (sad', (l, c) :: s)

/-- serdering.py:337 `Spans`. -/
def span (pvrsn : Nat × Nat) : Nat := if pvrsn = (1, 0) then 17 else 19

/-- serdering.py:989-1071, once the attributes and the message type are known. -/
def arrange (o : Opts) (a : Attrs) (ilk : Option (List Char)) (fd : FieldDom) (sad : Flds) : Except Err (Flds × Saids) :=
  let sad := forceIlk ilk (reorder fd.alls (addMissing fd fd.alls sad))
  if fieldsOk fd (sad.map (·.1)) = false then .error .serialize
  else if ['v'] ∉ sad.map (·.1) then .error .serialize
  else if fd.saids.all (fun (p : List Char × List Char) => decide (p.1 ∈ fd.alls.map (·.1))) = false then .error .serialize
  else
    let (sad, saids) := pickSaids o.saids fd.saids sad
    .ok (if a.kind = .cesr then sad else setField sad ['v'] (.text (List.replicate (span a.pvrsn) '#')), saids)

/-- serdering.py:883-1081 `_makify`; the defaults are those of the class: protocol KERI, versions 2.0, kind CESR. -/
def makifySad (cls : Cls) (o : Opts) (sad : Flds) : Except Err (Attrs × Flds × Saids) :=
  match hints sad with
  | .error e => .error e
  | .ok (sm, silk) =>
    let proto := o.proto.getD ((sm.map (·.proto)).getD .keri)
    if cls = .keri ∧ proto ≠ .keri then .error .serialize
    else
      let pvrsn := o.pvrsn.getD ((sm.map (·.pvrsn)).getD (2, 0))
      match domains proto pvrsn with
      | none => .error .serialize
      | some doms =>
        let gvrsn := pickGenus o sm pvrsn
        if oldGenus gvrsn then .error .serialize
        else
          let kind := o.kind.getD ((sm.map (·.kind)).getD .cesr)
          match pickIlk o silk doms with
          | .error e => .error e
          | .ok ilk => match domOf doms ilk with
            | none => .error .serialize
            | some fd => match arrange o ⟨proto, pvrsn, gvrsn, kind⟩ ilk fd sad with
              | .error e => .error e
              | .ok (sad, saids) => .ok (⟨proto, pvrsn, gvrsn, kind⟩, sad, saids)

/-- serdering.py:833-880 `makify`: the message, not verified. -/
def makify (lib : Lib) (cls : Cls) (o : Opts) (sad : Flds) : Except Err Serder :=
  match makifySad cls o sad with
  | .error e => .error e
  | .ok (a, sad, saids) => match compute lib a sad saids with
    | .error e => .error e
    | .ok (sad, raw, size) => .ok ⟨a, raw, sad, size⟩

/-- serdering.py:630-660 `Serder(sad=sad, makify=True, …)`, verifying. -/
def made (lib : Lib) (cls : Cls) (o : Opts) (sad : Flds) : Except Err Serder :=
  match makify lib cls o sad with
  | .error e => .error e
  | .ok s => match check lib cls s with
    | .error e => .error e
    | .ok () => .ok s

end Verif.Ser
