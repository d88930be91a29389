import Verif.Sub.PropsMap
import Verif.Krm.Tab

/-!
# Contacts (src/keri/app/organizing.py `BaseOrganizer`)

Texts are their bytes. Data of a contact is an ordered dict of JSON values, those that are not text are opaque. It is stored as JSON and signed by
the signator of the database, whose key does not change; here it is stored as the dict, and a signature is the dict that it signs, or `none` for one
that signs nothing. The sub-database of fields is the model of `Suber` in `Sub`, with the separator `.`. What a method does is a list of writes to
the sub-databases, each a transaction of its own, and perhaps an exception after them.
-/

namespace Verif.Org

open Verif.Db Verif.Krm Verif.Sub

abbrev Text := Bytes

inductive Val where
  | text (b : Text)
  | other (n : Nat)
  deriving DecidableEq

abbrev Dict := Tab Text Val

/-- `"id"`. -/
def idKey : Text := [105, 100]

/-- Values of `Suber` (subing.py:201-220). -/
def textCodec : Codec Bytes := ⟨.ok, .ok⟩

/-- `cigsdb`, `datadb`, `fielddb`. -/
structure World where
  cigs : Tab Text (Option Dict) := []
  data : Tab Text Dict := []
  fields : Tbl := []
  deriving DecidableEq

inductive Write where
  | pinCig (pre : Text) (d : Dict)
  | pinData (pre : Text) (d : Dict)
  | pinField (pre field : Text) (v : Text)
  | remCig (pre : Text)
  | remData (pre : Text)
  | trim (pre : Text)
  | remField (pre field : Text)
  deriving DecidableEq

def write (w : World) : Write → World
  | .pinCig pre d => { w with cigs := Tab.pin w.cigs pre (some d) }
  | .pinData pre d => { w with data := Tab.pin w.data pre d }
  | .pinField pre f v => { w with fields := (sPin 46 textCodec w.fields (.parts [pre, f]) v).1 }
  | .remCig pre => { w with cigs := Tab.rem w.cigs pre }
  | .remData pre => { w with data := Tab.rem w.data pre }
  | .trim pre => { w with fields := (trim 46 w.fields false (.parts [pre])).1 }
  | .remField pre f => { w with fields := (sRem 46 w.fields (.parts [pre, f])).1 }

def exec (w : World) (ws : List Write) : World := ws.foldl write w

/-- organizing.py:107-134 `get` without a field. A missing signature is None, which has no `raw`. -/
def get (w : World) (pre : Text) : Except Err (Option Dict) := match Tab.get w.data pre with
  | none => .ok none
  | some d => match Tab.get w.cigs pre with
    | none => .error .attributeError
    | some c => if c = some d then .ok (some (Tab.pin d idKey (.text pre))) else .error .validation

/-- organizing.py:130-131 `get` with a field: the data without `id`. -/
def getField (w : World) (pre field : Text) : Except Err (Option Val) := match Tab.get w.data pre with
  | none => .ok none
  | some d => match Tab.get w.cigs pre with
    | none => .error .attributeError
    | some c => if c = some d then .ok (Tab.get d field) else .error .validation

/-- `existing |= data`. -/
def merge (d : Dict) : Dict → Dict
  | [] => d
  | (k, v) :: r => merge (Tab.pin d k v) r

/-- organizing.py:53-54: LMDB takes bytes only, other values raise TypeError. -/
def fieldWrites (pre : Text) : Dict → List Write × Option Err
  | [] => ([], none)
  | (f, .text v) :: r => (.pinField pre f v :: (fieldWrites pre r).1, (fieldWrites pre r).2)
  | (_, .other _) :: _ => ([], some .typeError)

/-- organizing.py:33-54 `update`. -/
def update (w : World) (pre : Text) (data : Dict) : List Write × Option Err := match get w pre with
  | .error e => ([], some e)
  | .ok o =>
    let d := merge (o.getD []) data
    (.pinCig pre d :: .pinData pre d :: (fieldWrites pre data).1, (fieldWrites pre data).2)

/-- organizing.py:94-105 `rem`. -/
def rem (pre : Text) : List Write := [.remCig pre, .remData pre, .trim pre]

/-- organizing.py:56-65 `replace`. -/
def replace (w : World) (pre : Text) (data : Dict) : List Write × Option Err :=
  let (ws, e) := update (exec w (rem pre)) pre data
  (rem pre ++ ws, e)

/-- organizing.py:67-79 `set`. -/
def set (w : World) (pre field : Text) (v : Val) : List Write × Option Err := match get w pre with
  | .error e => ([], some e)
  | .ok o => match replace w pre (Tab.pin (o.getD []) field v) with
    | (ws, some e) => (ws, some e)
    | (ws, none) => match v with
      | .text b => (ws ++ [.pinField pre field b], none)
      | .other _ => (ws, some .typeError)

/-- organizing.py:81-92 `unset`: there is no contact: `del None[…]`. -/
def unset (w : World) (pre field : Text) : List Write × Option Err := match get w pre with
  | .error e => ([], some e)
  | .ok none => ([], some .typeError)
  | .ok (some d) =>
    if (Tab.get d field).isSome then
      match replace w pre (Tab.rem d field) with
      | (ws, some e) => (ws, some e)
      | (ws, none) => (ws ++ [.remField pre field], none)
    else ([], some .keyError)

inductive Op where
  | update (pre : Text) (data : Dict)
  | replace (pre : Text) (data : Dict)
  | set (pre field : Text) (v : Val)
  | unset (pre field : Text)
  | rem (pre : Text)
  deriving DecidableEq

def Op.writes (w : World) : Op → List Write × Option Err
  | .update pre d => Org.update w pre d
  | .replace pre d => Org.replace w pre d
  | .set pre f v => Org.set w pre f v
  | .unset pre f => Org.unset w pre f
  | .rem pre => (Org.rem pre, none)

/-- A call. -/
def call (w : World) (o : Op) : World × Option Err := (exec w (o.writes w).1, (o.writes w).2)

/-- A call of which only the first writes are done. -/
def crash (w : World) (o : Op) (n : Nat) : World := exec w ((o.writes w).1.take n)

/-! ## Reading all contacts -/

/-- `for (pre, field), val in self.fielddb.getTopItemIter()`: ValueError if a key has not two parts. -/
def unpack : List (List Bytes × Bytes) → List (Text × Text × Text) × Option Err
  | [] => ([], none)
  | ([p, f], v) :: r => ((p, f, v) :: (unpack r).1, (unpack r).2)
  | _ :: _ => ([], some .valueError)

def allFields (w : World) : Except Err (List (Text × Text × Text)) := match getTop 46 textCodec w.fields false (.raw []) with
  | .error e => .error e
  | .ok l => match unpack l with
    | (l, none) => .ok l
    | (_, some e) => .error e

/-- organizing.py:143-158, the loop of `list`: the contact that is being read and its identifier. -/
def listGo (key : Text) (data : Option Dict) : List (Text × Text × Text) → Except Err (List Dict)
  | [] => .ok data.toList
  | (p, f, v) :: r =>
    if p ≠ key then
      match listGo p (some (Tab.pin [(idKey, .text p)] f (.text v))) r with
      | .error e => .error e
      | .ok l => .ok (data.toList ++ l)
    else match data with
      | none => .error .typeError
      | some d => listGo key (some (Tab.pin d f (.text v))) r

/-- organizing.py:136-158 `list`. -/
def list (w : World) : Except Err (List Dict) := match allFields w with
  | .error e => .error e
  | .ok l => listGo [] none l

/-- `[self.get(pre) for pre in pres]`. -/
def getAll (w : World) : List Text → Except Err (List (Option Dict))
  | [] => .ok []
  | p :: ps => match get w p with
    | .error e => .error e
    | .ok d => match getAll w ps with
      | .error e => .error e
      | .ok l => .ok (d :: l)

/-- organizing.py:179-199 `findExact`. -/
def findExact (w : World) (field val : Text) : Except Err (List (Option Dict)) := match allFields w with
  | .error e => .error e
  | .ok l => getAll w ((l.filter fun x => decide (x.2.1 = field ∧ x.2.2 = val)).map (·.1))

/-- Add at the end unless present. -/
def addVal (l : List Text) (v : Text) : List Text := if v ∈ l then l else l ++ [v]

/-- organizing.py:201-219 `values` without a pattern. -/
def values (w : World) (field : Text) : Except Err (List Text) := match allFields w with
  | .error e => .error e
  | .ok l => .ok (((l.filter fun x => decide (x.2.1 = field)).map (·.2.2)).foldl addVal [])

/-! ## Images -/

/-- Decimal digits. -/
def dec (n : Nat) : Bytes := if n < 10 then [48 + n] else dec (n / 10) ++ [48 + n % 10]
  decreasing_by omega

/-- `b"content-type"`, `b"content-length"`. -/
def ctype : Bytes := [99, 111, 110, 116, 101, 110, 116, 45, 116, 121, 112, 101]
def clength : Bytes := [99, 111, 110, 116, 101, 110, 116, 45, 108, 101, 110, 103, 116, 104]

def imgKey (pre x : Bytes) : Bytes := pre ++ 46 :: x

/-- The chunks that are read from the stream: the first empty one ends it. -/
def putChunks (pre : Text) : Nat → List Bytes → Tbl → Tbl × Nat
  | _, [], t => (t, 0)
  | i, c :: cs, t =>
    if c = [] then (t, 0)
    else let (t', n) := putChunks pre (i + 1) cs (setVal t (imgKey pre (dec i)) c).1; (t', n + c.length)

/-- organizing.py:221-250 `setImg`. The size has four bytes, a greater one raises OverflowError. -/
def setImg (t : Tbl) (pre typ : Text) (chunks : List Bytes) : Tbl × Option Err :=
  let t := (remTop t pre).1
  let t := (setVal t (imgKey pre ctype) typ).1
  let (t, size) := putChunks pre 0 chunks t
  if size < 2 ^ 32 then ((setVal t (imgKey pre clength) [size / 2 ^ 24, size / 2 ^ 16 % 256, size / 2 ^ 8 % 256, size % 256]).1, none)
  else (t, some .overflowError)

/-- `int.from_bytes(size, "big")`. -/
def ofBig (b : Bytes) : Nat := b.foldl (fun n x => n * 256 + x) 0

/-- organizing.py:252-275 `getImgData`. -/
def getImgData (t : Tbl) (pre : Text) : Option (Text × Nat) := match getVal t (imgKey pre clength) with
  | none => none
  | some s => match getVal t (imgKey pre ctype) with
    | none => none
    | some ty => some (ty, ofBig s)

/-- organizing.py:277-291 `getImg`; `fuel`: chunks that are asked for at most. -/
def getImg (t : Tbl) (pre : Text) : Nat → Nat → List Bytes
  | _, 0 => []
  | i, fuel + 1 => match getVal t (imgKey pre (dec i)) with
    | none => []
    | some c => if c = [] then [] else c :: getImg t pre (i + 1) fuel

end Verif.Org
