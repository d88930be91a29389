import Verif.Ser.Model
import Verif.Thold.Text

/-!
# Model of native CESR messages (src/keri/core/serdering.py 1298-1452, 1659-1826; structing.py 713-905, 1151-1280; coring.py 2925-3018)

Only the protocol KERI; native messages of the protocol ACDC are not modelled.  Texts are lists of characters that stand for the bytes of UTF-8.  Where a
value is not of the kind that its field asks for, the exception may be of another class than here.  The only genus version with counter codes for these
groups is 2.0: for another one the counters raise (counting.py:816-835), which is here an error from the start.
-/

namespace Verif.Cesr

open Verif.B64 Verif.Matter Verif.Mad
open Verif.Thold (natText parseNat splitC join Thold Sith SItem SElt ofSith sith limen ofLimen)
open Verif.Prs (Proto Smellage)

/-- What is taken as given, besides what is for field maps: `int(s, 16)`, none for a ValueError; and whether `namedtuple("_".join(mark), mark)` succeeds. -/
structure Env extends Mad.Env where
  hex : List Char → Option Int
  names : List (List Char) → Bool

/-! ## Values of fields -/

/-- A Python int, of its printed form or of a bool. -/
def intOf : Val → Option Int
  | .bool b => some (if b then 1 else 0)
  | .num ('-' :: ds) => (parseNat 10 ds).map fun n => -(n : Int)
  | .num ds => (parseNat 10 ds).map Int.ofNat
  | _ => none

/-- coring.py:1729-1768: an int as a primitive. -/
def intText (n : Int) : Except Err (List Char) := if n < 0 then .error .invalidValue else qb64Of (mkNumber n.toNat none)

/-- coring.py:1704-1768 `Number(numh=v).qb64`. -/
def numText (env : Env) (v : Val) : Except Err (List Char) :=
  match v with
  | .null => intText 0
  | .text [] => intText 0
  | .text s => match env.hex s with
    | none => .error .invalidValue
    | some n => intText n
  | v => match intOf v with
    | none => .error .typeError
    | some n => intText n

/-- A value that is a text. -/
def asText : Val → Option (List Char)
  | .text t => some t
  | _ => none

/-- A value that is a list of texts. -/
def asTexts : Val → Option (List (List Char))
  | .list vs => vs.mapM asText
  | _ => none

/-- An element of a clause of a threshold.  Simplification: the values of a map are lists of texts. -/
def sElt : Val → SElt
  | .text s => .str s
  | .map fs => match fs.mapM (fun (p : List Char × Val) => (asTexts p.2).map fun ts => (p.1, ts)) with
    | some es => .map es
    | none => .other
  | _ => .other

/-- An element of a threshold that is a sequence. -/
def sItem : Val → SItem
  | .list vs => .seq (vs.map sElt)
  | v => .bare (sElt v)

/-- coring.py:4342-4355 and 4491-4541 `Tholder(sith=v)`.  Simplification: JSON text of a sequence (4500-4501) is refused. -/
def tholdOf (env : Env) (v : Val) : Except Err Thold :=
  match v with
  | .null => .error .emptyMaterial
  | .text s =>
    if s = [] then .error .emptyMaterial
    else if '[' ∈ s then .error .valueError
    else match env.hex s with
      | none => .error .valueError
      | some n => ofSith (.int n)
  | .list vs => ofSith (.seq (vs.map sItem))
  | .map fs => ofSith (.seq (fs.map fun p => .bare (.str p.1)))
  | v => match intOf v with
    | none => .error .valueError
    | some n => ofSith (.int n)

/-- `Tholder(sith=v).limen`. -/
def tholdText (env : Env) (v : Val) : Except Err (List Char) :=
  match tholdOf env v with
  | .error e => .error e
  | .ok t => limen t

/-- A `.sith` (coring.py:4378-4406) as a value. -/
def eltVal : SElt → Val
  | .str s => .text s
  | .map es => .map (es.map fun p => (p.1, .list (p.2.map .text)))
  | .other => .null

def itemVal : SItem → Val
  | .bare e => eltVal e
  | .seq c => .list (c.map eltVal)

def sithVal : Sith → Val
  | .int n => .num (Thold.intText n)
  | .hex s => .text s
  | .seq items => .list (items.map itemVal)

/-- The texts of an iteration `for e in v`: of a list its elements, of a text its characters, of a map its labels. -/
def textsIn : Val → Except Err (List (List Char))
  | .list vs => match vs.mapM asText with
    | none => .error .attributeError
    | some ts => .ok ts
  | .text t => .ok (t.map fun c => [c])
  | .map fs => .ok (fs.map (·.1))
  | _ => .error .typeError

/-- `Counter(code, count=len(frame) // 4).qb64b` and the frame; nothing checks that the length is a multiple of four. -/
def counted (x : Char) (frame : List Char) : Except Err (List Char) :=
  match Ctr.make .v2 ['-', x] ((frame.length / 4 : Nat) : Int) with
  | .error e => .error e
  | .ok c => match Ctr.infil .v2 c with
    | .error e => .error e
    | .ok h => .ok (h ++ frame)

/-- kering.py:391-397 `TraitDex`. -/
def traitDex : List (List Char) := [['E', 'O'], ['D', 'N', 'D'], ['R', 'B'], ['N', 'B'], ['N', 'R', 'B'], ['D', 'I', 'D']]

/-- coring.py:2196-2216 `Tagger(tag=…)`. -/
def mkTag (tag : List Char) : Except Err Mat :=
  if !reb64 tag then .error .invalidSoft
  else match codify tag with
    | .error e => .error e
    | .ok c => makeSpecial c tag

/-- coring.py:2422-2432 `Traitor(trait=…).qb64`. -/
def traitText (t : List Char) : Except Err (List Char) := if t ∈ traitDex then qb64Of (mkTag t) else .error .invalidSoft

/-- serdering.py:1727-1729. -/
def traitsText : List (List Char) → Except Err (List Char)
  | [] => .ok []
  | t :: ts => match traitText t with
    | .error e => .error e
    | .ok a => match traitsText ts with
      | .error e => .error e
      | .ok b => .ok (a ++ b)

/-- helping.py:437-440 `Repath.match(part)`: letters, digits and `_`; the final `$` also matches before a newline at the end. -/
def repath (s : List Char) : Bool := (if s.getLast? = some '\n' then s.dropLast else s).all attChar

/-- `sub in path` for two equal characters. -/
def doubled (c : Char) : List Char → Bool
  | a :: b :: r => (a == c && b == c) || doubled c (b :: r)
  | _ => false

/-- coring.py:2946-2998 `Pather(path=…, relative=True, pathive=False)` of a text. -/
def mkPather (path : List Char) : Except Err Mat :=
  let parts := if '/' ∈ path then splitC '/' path else splitC '-' path
  if parts.all repath then
    let p := join '-' parts
    if doubled '-' p then .error .invalidValue
    else match rawOfText (if p.head? = some 'A' ∧ (wadSize p.length = 0 ∨ wadSize p.length = 1) then '-' :: '-' :: p else p) with
      | .error e => .error e
      | .ok raw => make ['4', 'A'] [] raw none
  else
    let p := join '/' parts
    if doubled '/' p then .error .invalidValue
    else make ['4', 'B'] [] (bytesOf p) none

/-- `path.removeprefix('--')`. -/
def unprefix : List Char → List Char
  | '-' :: '-' :: r => r
  | t => t

/-- coring.py:3001-3018 `Pather.path`. -/
def pathOf (env : Env) (m : Mat) : Except Err (List Char) :=
  if m.code ∈ bexDex then match sizes? m.code with
    | none => .error .keyError
    | some sz => .ok (join '/' (splitC '-' (unprefix (textOfRaw sz.ls m.raw))))
  else decodeText env.toEnv m.raw

/-! ## Seals -/

/-- structing.py:223-240, the classes of the values of seals. -/
inductive Cast where
  | dig | pre | num | ver
  deriving DecidableEq

/-- structing.py:202-208, 223-240 and serdering.py:340-348: counter codes of seals by their field names, with the classes of their values. -/
def sealKinds : List (Char × List (List Char) × List Cast) :=
  [('Q', [['d']], [.dig]), ('R', [['r', 'd']], [.dig]), ('S', [['s'], ['d']], [.num, .dig]), ('T', [['i'], ['s'], ['d']], [.pre, .num, .dig]),
   ('U', [['i']], [.pre]), ('V', [['b', 'i'], ['d']], [.pre, .dig]), ('W', [['t'], ['d']], [.ver, .dig])]

/-- `Sealer.Names.get(mark)`. -/
def kindOfMark (mark : List (List Char)) : Option (Char × List (List Char) × List Cast) := sealKinds.find? fun k => k.2.1 == mark

/-- `Serder.CodeClans[code]`. -/
def kindOfCode (x : List Char) : Option (Char × List (List Char) × List Cast) := sealKinds.find? fun k => ['-', k.1] == x

/-- Codes of a `Verser` (coring.py:2542). -/
def verDex : List (List Char) := [['Y'], ['0', 'O']]

/-- `kls(qb64=v).qb64`, the primitive at the front of a text, whatever follows. -/
def primText (codes : List (List Char)) (v : Val) : Except Err (List Char) :=
  match v with
  | .text t => match exfil t with
    | .error e => .error e
    | .ok m => if m.code ∈ codes then infil m else .error .invalidCode
  | .null => .error .emptyMaterial
  | _ => .error .typeError

/-- structing.py:871: a value of a seal as primitive.  A `Verser` made of nothing is that of KERI 2.0 (coring.py:2531-2535). -/
def castText (env : Env) (c : Cast) (v : Val) : Except Err (List Char) :=
  match c with
  | .dig => primText digDex v
  | .pre => primText Ser.preDex v
  | .num => numText env v
  | .ver => if Ser.truthy v then primText verDex v else qb64Of (mkTag ['K', 'E', 'R', 'I', 'C', 'A', 'A'])

/-- structing.py:871-872, in the order of the fields. -/
def castTexts (env : Env) : List Cast → List Val → Except Err (List Char)
  | c :: cs, v :: vs => match castText env c v with
    | .error e => .error e
    | .ok a => match castTexts env cs vs with
      | .error e => .error e
      | .ok b => .ok (a ++ b)
  | _, _ => .ok []

/-- structing.py:777-872 `Sealer(crew=e)`, with the counter code of its kind and `.qb64`. -/
def sealText (env : Env) (e : Val) : Except Err (Char × List Char) :=
  match e with
  | .map fs => match kindOfMark (fs.map (·.1)) with
    | some k => match castTexts env k.2.2 (fs.map (·.2)) with
      | .error e => .error e
      | .ok q => .ok (k.1, q)
    | none => if env.names (fs.map (·.1)) then .error .invalidValue else .error .valueError
  | _ => .error .invalidValue

/-- serdering.py:1751-1756, 1761-1766 and 1780-1785: the open group, if any, is closed. -/
def closeGroup (frame : List Char) : Option (Char × List Char) → Except Err (List Char)
  | none => .ok frame
  | some (x, g) => match counted x g with
    | .error e => .error e
    | .ok t => .ok (frame ++ t)

/-- serdering.py:1740-1785: seals one after the other; consecutive ones of a kind are in a group, what is not a known seal is left out. -/
def sealsText (env : Env) : List Val → List Char → Option (Char × List Char) → Except Err (List Char)
  | [], frame, g => closeGroup frame g
  | e :: es, frame, g => match sealText env e with
    | .error .invalidValue => match closeGroup frame g with
      | .error e => .error e
      | .ok f => sealsText env es f none
    | .error e => .error e
    | .ok (x, q) => match g with
      | some (y, gf) =>
        if x = y then sealsText env es frame (some (y, gf ++ q))
        else match closeGroup frame (some (y, gf)) with
          | .error e => .error e
          | .ok f => sealsText env es f (some (x, q))
      | none => sealsText env es frame (some (x, q))

/-- A value of a seal read at the front. -/
def castTake (c : Cast) (s : List Char) : Except Err (Val × List Char) :=
  match takeMat s with
  | .error e => .error e
  | .ok (m, r) =>
    if m.code ∉ (match c with | .dig => digDex | .pre => Ser.preDex | .num => numDex | .ver => verDex) then .error .invalidCode
    else match c with
      | .num => .ok (.text (natText 16 (numOf m)), r)
      | _ => match infil m with
        | .error e => .error e
        | .ok q => .ok (.text q, r)

/-- structing.py:874-887 and 1062-1073: the fields of a seal read at the front. -/
def sealTake : List (List Char) → List Cast → List Char → Except Err (Flds × List Char)
  | l :: ls, c :: cs, s => match castTake c s with
    | .error e => .error e
    | .ok (v, r) => match sealTake ls cs r with
      | .error e => .error e
      | .ok (fs, r) => .ok ((l, v) :: fs, r)
  | _, _, s => .ok ([], s)

/-- serdering.py:1433-1437: a group of seals; the number bounds the work. -/
def sealGroup (ls : List (List Char)) (cs : List Cast) : Nat → List Char → Except Err (List Val)
  | 0, _ => .error .recursion
  | _ + 1, [] => .ok []
  | n + 1, c :: r => match sealTake ls cs (c :: r) with
    | .error e => .error e
    | .ok (fs, r) => match sealGroup ls cs n r with
      | .error e => .error e
      | .ok vs => .ok (.map fs :: vs)

/-- serdering.py:1425-1437: groups of seals. -/
def sealGroups : Nat → List Char → Except Err (List Val)
  | 0, _ => .error .recursion
  | _ + 1, [] => .ok []
  | n + 1, c :: r => match takeCtr (c :: r) with
    | .error e => .error e
    | .ok (ctr, r) => match kindOfCode ctr.code with
      | none => .error .deserialize
      | some k => match sealGroup k.2.1 k.2.2 (r.length + 1) (r.take (ctr.count * 4)) with
        | .error e => .error e
        | .ok vs => match sealGroups n (r.drop (ctr.count * 4)) with
          | .error e => .error e
          | .ok ws => .ok (vs ++ ws)

/-! ## Fields -/

/-- What is done for a label, in `_dumps` and `_loads` alike (serdering.py:1355-1445, 1699-1797). -/
inductive Kind where
  | v | t | dig | nonce | pre | num | thold | prims | date | route | traits | attrs | query
  deriving DecidableEq

def kinds : List (List Char × Kind) :=
  [(['v'], .v), (['t'], .t), (['d'], .dig), (['p'], .dig), (['x'], .dig), (['u'], .nonce), (['i'], .pre), (['d', 'i'], .pre), (['r', 'i'], .pre),
   (['s'], .num), (['b', 't'], .num), (['k', 't'], .thold), (['n', 't'], .thold), (['k'], .prims), (['n'], .prims), (['b'], .prims), (['b', 'a'], .prims),
   (['b', 'r'], .prims), (['d', 't'], .date), (['r'], .route), (['r', 'r'], .route), (['c'], .traits), (['a'], .attrs), (['q'], .query)]

/-- The `match l` of the loops. -/
def kindOf (l : List Char) : Option Kind := kinds.lookup l

/-- Message types that may have seals (serdering.py:1416, 1734). -/
def sealIlks : List (List Char) := [['i', 'c', 'p'], ['i', 'x', 'n'], ['r', 'o', 't'], ['d', 'i', 'p'], ['d', 'r', 't']]

/-- Message types that have a native form (serdering.py:1339-1341, 1695-1697). -/
def nativeIlks : List (List Char) :=
  sealIlks ++ [['r', 'c', 't'], ['q', 'r', 'y'], ['r', 'p', 'y'], ['p', 'r', 'o'], ['b', 'a', 'r'], ['x', 'i', 'p'], ['e', 'x', 'n']]

/-- coring.py:2531-2545 `Verser(proto='KERI', pvrsn=…, gvrsn=(2, 0)).qb64`. -/
def verText (pvrsn : Nat × Nat) : Except Err (List Char) :=
  match Ctr.verToB64 pvrsn.1 pvrsn.2 with
  | .error e => .error e
  | .ok a => match Ctr.verToB64 2 0 with
    | .error e => .error e
    | .ok b => qb64Of (mkTag (['K', 'E', 'R', 'I'] ++ a ++ b))

/-- serdering.py:1731-1788: the list of seals, or the map of attributes. -/
def attrsText (env : Env) (ilk : List Char) (v : Val) : Except Err (List Char) :=
  match v with
  | .map fs => exhale true fs
  | v =>
    if ilk ∉ sealIlks then .error .serialize
    else match v with
      | .list es => match sealsText env es [] none with
        | .error e => .error e
        | .ok frame => counted 'J' frame
      | .text _ => counted 'J' []
      | _ => .error .typeError

/-- serdering.py:1699-1795: the value of a field.  Simplifications: a null date, for which the time of the call is written, and a route that is given as a
list of its parts are refused. -/
def fieldText (env : Env) (pvrsn : Nat × Nat) (ilk : List Char) (k : Kind) (v : Val) : Except Err (List Char) :=
  match k with
  | .v => verText pvrsn
  | .t => qb64Of (mkTag ilk)
  | .dig | .nonce | .pre => match v with
    | .text t => .ok t
    | _ => .error .attributeError
  | .num => numText env v
  | .thold => tholdText env v
  | .prims => match textsIn v with
    | .error e => .error e
    | .ok ts => counted 'J' ts.flatten
  | .date => match v with
    | .text t => qb64Of (mkDater t)
    | _ => .error .attributeError
  | .route => match v with
    | .text t => qb64Of (mkPather t)
    | _ => .error .typeError
  | .traits => match textsIn v with
    | .error e => .error e
    | .ok ts => match traitsText ts with
      | .error e => .error e
      | .ok frame => counted 'J' frame
  | .attrs => attrsText env ilk v
  | .query => match v with
    | .map fs => exhale true fs
    | .null => exhale true []
    | _ => .error .attributeError

/-- serdering.py:1698-1800, the loop over the fields of the message. -/
def fieldsText (env : Env) (pvrsn : Nat × Nat) (ilk : List Char) : Flds → Except Err (List Char)
  | [] => .ok []
  | (l, v) :: r => match kindOf l with
    | none => .error .serialize
    | some k => match fieldText env pvrsn ilk k v with
      | .error e => .error e
      | .ok a => match fieldsText env pvrsn ilk r with
        | .error e => .error e
        | .ok b => .ok (a ++ b)

/-- The table of the message type, if it has a native form: fixed fields (serdering.py:1345-1353, 1686-1703). -/
def fixedDom (pvrsn : Nat × Nat) (ilk : List Char) : Option Ser.FieldDom :=
  if ilk ∉ nativeIlks then none
  else match (Ser.domains .keri pvrsn).bind (fun doms => Ser.domOf doms (some ilk)) with
    | none => none
    | some fd => if fd.opts ≠ [] ∨ fd.strict = false then none else some fd

/-- serdering.py:1659-1803 `_dumps` for the protocol KERI. -/
def native (env : Env) (pvrsn : Nat × Nat) (gvrsn : Option (Nat × Nat)) (sad : Flds) : Except Err (List Char) :=
  if gvrsn ≠ some (2, 0) then .error .invalidVersion
  else match Ser.ilkOf sad with
    | .error e => .error e
    | .ok none => .error .serialize
    | .ok (some ilk) => match fixedDom pvrsn ilk with
      | none => .error .serialize
      | some _ => match fieldsText env pvrsn ilk sad with
        | .error e => .error e
        | .ok body => Ctr.encloseText .v2 ['-', 'F'] body

/-! ## Reading -/

/-- `kls(qb64b=raw, strip=True).qb64`. -/
def takePrim (codes : List (List Char)) (s : List Char) : Except Err (Val × List Char) :=
  match takeMat s with
  | .error e => .error e
  | .ok (m, r) => if m.code ∈ codes then (match infil m with | .error e => .error e | .ok q => .ok (.text q, r)) else .error .invalidCode

/-- coring.py:470-487 `NonceDex`. -/
def nonceDex : List (List Char) := [['1', 'A', 'A', 'P'], ['0', 'A'], ['a']] ++ digDex

/-- The elements of a frame, of any code; the number bounds the work (serdering.py:1384-1386). -/
def primsIn : Nat → List Char → Except Err (List Val)
  | 0, _ => .error .recursion
  | _ + 1, [] => .ok []
  | n + 1, c :: r => match takeMat (c :: r) with
    | .error e => .error e
    | .ok (m, r) => match infil m with
      | .error e => .error e
      | .ok q => match primsIn n r with
        | .error e => .error e
        | .ok vs => .ok (.text q :: vs)

/-- serdering.py:1403-1405. -/
def traitsIn : Nat → List Char → Except Err (List Val)
  | 0, _ => .error .recursion
  | _ + 1, [] => .ok []
  | n + 1, c :: r => match takeMat (c :: r) with
    | .error e => .error e
    | .ok (m, r) =>
      if m.code ∉ tagDex then .error .invalidCode
      else if m.soft ∉ traitDex then .error .invalidSoft
      else match traitsIn n r with
        | .error e => .error e
        | .ok vs => .ok (.text m.soft :: vs)

/-- serdering.py:1377-1387, 1396-1406, 1413-1438: the frame of a list and what follows it.  A frame cut short by the end is taken as it is. -/
def takeList (f : Nat → List Char → Except Err (List Val)) (s : List Char) : Except Err (Val × List Char) :=
  match takeCtr s with
  | .error e => .error e
  | .ok (c, r) =>
    if isListCtr c then match f ((r.take (c.count * 4)).length + 1) (r.take (c.count * 4)) with
      | .error e => .error e
      | .ok vs => .ok (.list vs, r.drop (c.count * 4))
    else .error .deserialize

/-- `Mapper(raw=raw, strip=True).mad`; of nothing it is the empty map (mapping.py:216). -/
def takeMap (env : Env) (s : List Char) : Except Err (Val × List Char) :=
  if s = [] then .ok (.map [], [])
  else match fromText env.toEnv true s with
    | .error e => .error e
    | .ok (fs, r) => .ok (.map fs, r)

/-- serdering.py:1408-1442, the field `a`. -/
def takeAttrs (env : Env) (ilk : List Char) (s : List Char) : Except Err (Val × List Char) :=
  match takeCtr s with
  | .error e => .error e
  | .ok (c, _) =>
    if isMapCtr c then takeMap env s
    else if isListCtr c then if ilk ∉ sealIlks then .error .serialize else takeList sealGroups s
    else .error .deserialize

/-- serdering.py:1355-1445: the value of a field and what follows it; `vs` is the version string and `ilk` the type, both known by then. -/
def takeField (env : Env) (vs : Val) (ilk : List Char) (k : Kind) (s : List Char) : Except Err (Val × List Char) :=
  match k with
  | .v => .ok (vs, s)
  | .t => .ok (.text ilk, s)
  | .dig => takePrim digDex s
  | .nonce => takePrim nonceDex s
  | .pre => takePrim Ser.preDex s
  | .num => match takeMat s with
    | .error e => .error e
    | .ok (m, r) => if m.code ∈ numDex then .ok (.text (natText 16 (numOf m)), r) else .error .validation
  | .thold => match takeMat s with
    | .error e => .error e
    | .ok (_, r) => match ofLimen s with
      | .error e => .error e
      | .ok t => .ok (sithVal (sith t), r)
  | .prims => takeList primsIn s
  | .date => match takeMat s with
    | .error e => .error e
    | .ok (m, r) => if m.code ≠ dtCode then .error .validation else match dtsOf m with
      | .error e => .error e
      | .ok t => .ok (.text t, r)
  | .route => match takeMat s with
    | .error e => .error e
    | .ok (m, r) => match pathOf env m with
      | .error e => .error e
      | .ok p => .ok (.text p, r)
  | .traits => takeList traitsIn s
  | .attrs => takeAttrs env ilk s
  | .query => takeMap env s

/-- serdering.py:1354-1449, the loop over the labels of the type (each label once). -/
def takeFields (env : Env) (vs : Val) (ilk : List Char) : List (List Char) → List Char → Except Err Flds
  | [], _ => .ok []
  | l :: ls, s => match kindOf l with
    | none => .error .deserialize
    | some k => match takeField env vs ilk k s with
      | .error e => .error e
      | .ok (v, r) => match takeFields env vs ilk ls r with
        | .error e => .error e
        | .ok fs => .ok ((l, v) :: fs)

/-- coring.py:2542-2555 `Verser(qb64b=raw, strip=True)` with `.versage`: protocol, version and genus version, and what follows. -/
def takeVer (s : List Char) : Except Err ((List Char × (Nat × Nat) × Option (Nat × Nat)) × List Char) :=
  match takeMat s with
  | .error e => .error e
  | .ok (m, r) =>
    if m.code ∉ verDex then .error .invalidCode
    else match Ctr.b64ToVer ((m.soft.drop 4).take 3) with
      | .error e => .error e
      | .ok p => if m.soft.length = 10 then match Ctr.b64ToVer (m.soft.drop 7) with
          | .error e => .error e
          | .ok g => .ok ((m.soft.take 4, p, some g), r)
        else .ok ((m.soft.take 4, p, none), r)

/-- serdering.py:1298-1449 `_loads` for the protocol KERI, `sm` being what is known of the message.  The types of `Ilks` that have no native form are refused
just after (1339-1343). -/
def loads (env : Env) (sm : Smellage) (raw : List Char) : Except Err Flds :=
  if sm.gvrsn ≠ some (2, 0) then .error .invalidVersion
  else match takeCtr (raw.take sm.size) with
    | .error e => .error e
    | .ok (c, r) =>
      if c.code ≠ ['-', 'F'] ∧ c.code ≠ ['-', '-', 'F'] then .error .deserialize
      else match takeVer r with
        | .error e => .error e
        | .ok (_, r) => match takeMat r with
          | .error e => .error e
          | .ok (m, r) =>
            if m.code ≠ ['X'] then .error .invalidCode
            else match fixedDom sm.pvrsn m.soft with
              | none => .error .deserialize
              | some fd => match Ser.versifyText ⟨.keri, sm.pvrsn, sm.gvrsn, .cesr⟩ sm.size with
                | .error e => .error e
                | .ok vs => takeFields env vs m.soft (fd.alls.map (·.1)) r

/-- serdering.py:1214-1225, the version after the counter `c` of `n` characters at the front of `sraw`. -/
def versage (c : Ctr.Counter) (n : Nat) (sraw : List Char) : Except Err (List Char × (Nat × Nat) × Option (Nat × Nat)) :=
  if c.code = ['-', 'F'] ∨ c.code = ['-', '-', 'F'] then match takeVer (sraw.drop n) with
    | .error e => .error e
    | .ok (v, _) => .ok v
  else if c.code = ['-', 'G'] ∨ c.code = ['-', '-', 'G'] then match takeLabeler (sraw.drop n) with
    | .error e => .error e
    | .ok (_, r) => match takeVer r with
      | .error e => .error e
      | .ok (v, _) => .ok v
  else .error .valueError

/-- serdering.py:1206-1240, the message once `sraw` has been taken from the stream.  Simplification: other protocols than KERI are refused. -/
def inhaleFound (env : Env) (c : Ctr.Counter) (n : Nat) (sraw : List Char) : Except Err Ser.Serder :=
  match versage c n sraw with
  | .error e => .error e
  | .ok (p, pv, gv) =>
    if p ≠ ['K', 'E', 'R', 'I'] then .error .versionError
    else match loads env ⟨.keri, pv, .cesr, sraw.length, gv⟩ sraw with
      | .error e => .error e
      | .ok sad => if ['v'] ∉ sad.map (·.1) then .error .deserialize else .ok ⟨⟨.keri, pv, gv, .cesr⟩, sraw, sad, sraw.length⟩

/-- serdering.py:1185-1240 `_inhale` without `smellage`, in the text domain with `strip`: the message and what is left of the stream. -/
def inhaleText (env : Env) (raw : List Char) : Except Err (Ser.Serder × List Char) :=
  match Ctr.exfil .v2 raw with
  | .error e => .error e
  | .ok c => match Ctr.fullSize .v2 c with
    | .error e => .error e
    | .ok n =>
      if raw.length < Ctr.byteCountText c + n then .error .shortage
      else match inhaleFound env c n (raw.take (Ctr.byteCountText c + n)) with
        | .error e => .error e
        | .ok s => .ok (s, raw.drop (Ctr.byteCountText c + n))

/-- serdering.py:1185-1240 `_inhale` without `smellage`, in the binary domain.  At 1194 it is the stream, after any stripping, that is encoded and not the
bytes of the message. -/
def inhaleBinary (env : Env) (strip : Bool) (raw : List Nat) : Except Err (Ser.Serder × List Nat) :=
  match Ctr.bexfil .v2 raw with
  | .error e => .error e
  | .ok c => match Ctr.fullSize .v2 c with
    | .error e => .error e
    | .ok n =>
      if raw.length < Ctr.byteCountBinary c + n * 3 / 4 then .error .shortage
      else
        let left := if strip then raw.drop (Ctr.byteCountBinary c + n * 3 / 4) else raw
        match inhaleFound env c n (encodeB64 left) with
        | .error e => .error e
        | .ok s => .ok (s, left)

end Verif.Cesr
