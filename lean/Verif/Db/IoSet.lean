import Verif.Db.Table

/-! # Insertion-ordered sets in suffixed keys (src/keri/db/dbing.py 1088-1400) -/

namespace Verif.Db

/-- `oset(vals)`: first occurrences in order (ordered_set.OrderedSet). -/
def oset : List Bytes → List Bytes
  | [] => []
  | v :: vs => v :: (oset vs).filter (fun w => decide (w ≠ v))

/-- The loop over `cursor.iternext()` used by all readers: entries of `key` with their ordinals, up to the first entry of another
key; a key that does not split raises ValueError. -/
def scan (sep : Nat) (key : Bytes) : List Entry → Except Err (List (Nat × Bytes))
  | [] => .ok []
  | (x, v) :: r => match unsuffix sep x with
    | .error e => .error e
    | .ok (ck, ci) =>
      if ck = key then match scan sep key r with
        | .error e => .error e
        | .ok l => .ok ((ci, v) :: l)
      else .ok []

/-- Next insertion ordinal after the entries read. -/
def nextIon (l : List (Nat × Bytes)) : Nat := match l.getLast? with
  | none => 0
  | some (i, _) => i + 1

/-- Writing values at consecutive ordinals (dbing.py:1135-1140, 1170-1172). -/
def putSeq (sep : Nat) (key : Bytes) (overwrite : Bool) : Nat → List Bytes → Tbl → Tbl × Bool
  | _, [], t => (t, false)
  | i, v :: vs, t =>
    let (t1, r1) := t.put (suffix sep key i) v overwrite
    let (t2, r2) := putSeq sep key overwrite (i + 1) vs t1
    (t2, r1 || r2)

/-- dbing.py:1099-1141 `putIoSetVals`. -/
def putIoSetVals (sep : Nat) (t : Tbl) (key : Bytes) (vals : List Bytes) : Tbl × Except Err Bool :=
  if key = [] ∨ vals = [] then (t, .ok false)
  else match scan sep key (t.fro (suffix sep key 0)) with
    | .error e => (t, .error e)
    | .ok l =>
      let (t', r) := putSeq sep key false (nextIon l) ((oset vals).filter (fun v => decide (v ∉ l.map (·.2)))) t
      (t', .ok r)

/-- Deletion loop of `remIoSet` (dbing.py:1306-1313). -/
def remLoop (sep : Nat) (key : Bytes) : List Entry → Except Err (List Entry × Bool)
  | [] => .ok ([], false)
  | (x, v) :: r => match unsuffix sep x with
    | .error e => .error e
    | .ok (ck, _) =>
      if ck ≠ key then .ok ((x, v) :: r, false)
      else match remLoop sep key r with
        | .error e => .error e
        | .ok (r', _) => .ok (r', true)

/-- dbing.py:1284-1314 `remIoSet`. -/
def remIoSet (sep : Nat) (t : Tbl) (key : Bytes) : Tbl × Except Err Bool :=
  if key = [] then (t, .ok false)
  else match remLoop sep key (t.fro (suffix sep key 0)) with
    | .error e => (t, .error e)
    | .ok (r, b) => (t.before (suffix sep key 0) ++ r, .ok b)

/-- dbing.py:1144-1173 `pinIoSetVals`: removal and writing are two transactions. -/
def pinIoSetVals (sep : Nat) (t : Tbl) (key : Bytes) (vals : List Bytes) : Tbl × Except Err Bool :=
  if key = [] ∨ vals = [] then (t, .ok false)
  else match remIoSet sep t key with
    | (t1, .error e) => (t1, .error e)
    | (t1, .ok _) =>
      let (t2, r) := putSeq sep key true 0 (oset vals) t1
      (t2, .ok r)

/-- dbing.py:1176-1214 `addIoSetVal`. -/
def addIoSetVal (sep : Nat) (t : Tbl) (key val : Bytes) : Tbl × Except Err Bool :=
  if key = [] then (t, .ok false)
  else match scan sep key (t.fro (suffix sep key 0)) with
    | .error e => (t, .error e)
    | .ok l =>
      if val ∈ l.map (·.2) then (t, .ok false)
      else
        let (t', r) := t.put (suffix sep key (nextIon l)) val false
        (t', .ok r)

/-- dbing.py:1217-1248 `getIoSetItemIter`, values only. -/
def getIoSet (sep : Nat) (t : Tbl) (key : Bytes) (ion : Nat) : Except Err (List Bytes) :=
  if key = [] then .ok []
  else match scan sep key (t.fro (suffix sep key ion)) with
    | .error e => .error e
    | .ok l => .ok (l.map (·.2))

/-- dbing.py:1251-1281 `getIoSetLastItem`; the starting key is built with the default separator (`.`, 46) whatever `sep` is. -/
def getIoSetLast (sep : Nat) (t : Tbl) (key : Bytes) : Except Err (Option Bytes) :=
  if key = [] then .ok none
  else match scan sep key (t.fro (suffix 46 key 0)) with
    | .error e => .error e
    | .ok l => .ok ((l.map (·.2)).getLast?)

/-- Search and deletion loop of `remIoSetVal` (dbing.py:1359-1365). -/
def remFirst (sep : Nat) (key val : Bytes) : List Entry → Except Err (List Entry × Bool)
  | [] => .ok ([], false)
  | (x, v) :: r => match unsuffix sep x with
    | .error e => .error e
    | .ok (ck, _) =>
      if ck ≠ key then .ok ((x, v) :: r, false)
      else if val = v then .ok (r, true)
      else match remFirst sep key val r with
        | .error e => .error e
        | .ok (r', b) => .ok ((x, v) :: r', b)

/-- dbing.py:1317-1366 `remIoSetVal` with a value (without one it is `remIoSet`). -/
def remIoSetVal (sep : Nat) (t : Tbl) (key val : Bytes) : Tbl × Except Err Bool :=
  if key = [] then (t, .ok false)
  else match remFirst sep key val (t.fro (suffix sep key 0)) with
    | .error e => (t, .error e)
    | .ok (r, b) => (t.before (suffix sep key 0) ++ r, .ok b)

/-- dbing.py:1369-1397 `cntIoSet`. -/
def cntIoSet (sep : Nat) (t : Tbl) (key : Bytes) (ion : Nat) : Except Err Nat :=
  if key = [] then .ok 0
  else match scan sep key (t.fro (suffix sep key ion)) with
    | .error e => .error e
    | .ok l => .ok l.length

end Verif.Db
