import Verif.Db.On

/-! # Insertion-ordered sets at ordinal numbered keys (src/keri/db/dbing.py 1502-2193) -/

namespace Verif.Db

/-- dbing.py:1502-1540 `putOnIoSetVals`. -/
def putOnIoSetVals (sep : Nat) (t : Tbl) (key : Bytes) (on : Nat) (vals : List Bytes) : Tbl × Except Err Bool :=
  if key = [] then (t, .ok false) else putIoSetVals sep t (onKey sep key on) vals

/-- dbing.py:1543-1579 `pinOnIoSetVals`. -/
def pinOnIoSetVals (sep : Nat) (t : Tbl) (key : Bytes) (on : Nat) (vals : List Bytes) : Tbl × Except Err Bool :=
  if key = [] then (t, .ok false) else pinIoSetVals sep t (onKey sep key on) vals

/-- dbing.py:1656-1681 `addOnIoSetVal`. -/
def addOnIoSetVal (sep : Nat) (t : Tbl) (key : Bytes) (on : Nat) (val : Bytes) : Tbl × Except Err Bool :=
  addIoSetVal sep t (onKey sep key on) val

/-- Both splittings of a key (`unsuffix` then `splitOnKey`). -/
def split2 (sep : Nat) (x : Bytes) : Except Err (Bytes × Nat) :=
  match unsuffix sep x with
  | .error e => .error e
  | .ok (conkey, _) => splitOnKey sep conkey

/-- Iteration until another key (dbing.py:1965-1970 and 2101-2106). -/
def iterLoop (sep : Nat) (key : Bytes) : List Entry → Except Err (List (Bytes × Nat × Bytes))
  | [] => .ok []
  | (x, v) :: r => match split2 sep x with
    | .error e => .error e
    | .ok (ck, con) =>
      if key ≠ [] ∧ ck ≠ key then .ok []
      else match iterLoop sep key r with
        | .error e => .error e
        | .ok l => .ok ((ck, con, v) :: l)

/-- dbing.py:1924-1971 `getOnAllIoSetItemIter`; without a key, the whole sub-database. -/
def getOnAllIoSetItemIter (sep : Nat) (t : Tbl) (key : Bytes) (on : Nat) : Except Err (List (Bytes × Nat × Bytes)) :=
  if key = [] then iterLoop sep [] t else iterLoop sep key (t.fro (suffix sep (onKey sep key on) 0))

/-- Entries from the cursor backwards after `if not cursor.set_range(iokey): cursor.last()` (dbing.py:2085-2086, 2148-2149). -/
def Tbl.upto (t : Tbl) (k : Bytes) : List Entry :=
  match t.fro k with
  | [] => t.reverse
  | e :: _ => e :: (t.before k).reverse

/-- Positioning of a backward iteration (dbing.py:2085-2098, 2148-2161): entries from the starting one backwards; `none` when the key is
not there.  A cursor moved before the first entry, or on an empty sub-database, has an empty key, which does not split. -/
def backFrom (sep : Nat) (t : Tbl) (key : Bytes) (on : Nat) : Except Err (Option (List Entry)) :=
  match t.upto (suffix sep (onKey sep key on) maxON) with
  | [] => .error .valueError
  | (x, v) :: prev => match split2 sep x with
    | .error e => .error e
    | .ok (ck, con) =>
      if ck ≠ key ∨ ¬ con ≤ on then
        match prev with
        | [] => .error .valueError
        | (x', _) :: _ => match split2 sep x' with
          | .error e => .error e
          | .ok (ck', _) => if ck' ≠ key then .ok none else .ok (some prev)
      else .ok (some ((x, v) :: prev))

/-- dbing.py:2045-2106 `getOnAllIoSetItemBackIter`. -/
def getOnAllIoSetItemBackIter (sep : Nat) (t : Tbl) (key : Bytes) (on : Option Nat) : Except Err (List (Bytes × Nat × Bytes)) :=
  if t = [] then .ok []
  else if key = [] then iterLoop sep [] t.reverse
  else match backFrom sep t key (on.getD maxON) with
    | .error e => .error e
    | .ok none => .ok []
    | .ok (some l) => iterLoop sep key l

/-- The loop of the last-item iteration (dbing.py:2179-2193): an item is yielded when key or number change. -/
def lastLoop (sep : Nat) (key : Bytes) (lkey : Bytes) (lon : Nat) : List Entry → Except Err (List (Bytes × Nat × Bytes))
  | [] => .ok []
  | (x, v) :: r => match split2 sep x with
    | .error e => .error e
    | .ok (ck, con) =>
      if key ≠ [] ∧ ck ≠ key then .ok []
      else if ck ≠ lkey ∨ con ≠ lon then
        match lastLoop sep key ck con r with
        | .error e => .error e
        | .ok l => .ok ((ck, con, v) :: l)
      else lastLoop sep key lkey lon r

/-- First item and the loop (dbing.py:2173-2193). -/
def lastStart (sep : Nat) (key : Bytes) : List Entry → Except Err (List (Bytes × Nat × Bytes))
  | [] => .ok []
  | (x, v) :: r => match split2 sep x with
    | .error e => .error e
    | .ok (ck, con) => match lastLoop sep key ck con r with
      | .error e => .error e
      | .ok l => .ok ((ck, con, v) :: l)

/-- dbing.py:2109-2193 `getOnAllIoSetLastItemBackIter`. -/
def getOnAllIoSetLastItemBackIter (sep : Nat) (t : Tbl) (key : Bytes) (on : Option Nat) : Except Err (List (Bytes × Nat × Bytes)) :=
  if key = [] then lastStart sep [] t.reverse
  else match backFrom sep t key (on.getD maxON) with
    | .error e => .error e
    | .ok none => .ok []
    | .ok (some l) => lastStart sep key l

/-- dbing.py:1582-1653 `appendOnIoSetVals`: number to write at. -/
def appendSetOn (sep : Nat) (t : Tbl) (key : Bytes) : Except Err Nat :=
  let next : Option Entry → Except Err Nat
    | none => .ok 0
    | some (x, _) => match split2 sep x with
      | .error e => .error e
      | .ok (ck, con) => .ok (if ck = key then con + 1 else 0)
  match t.fro (suffix sep (onKey sep key maxON) maxON) with
  | [] => next t.getLast?
  | (x, _) :: _ => match split2 sep x with
    | .error e => .error e
    | .ok (ck, _) =>
      if ck = key then .error .valueError
      else next (t.before (suffix sep (onKey sep key maxON) maxON)).getLast?

/-- Writing loop of `appendOnIoSetVals` (dbing.py:1644-1648); `none` when a key is taken. -/
def putFresh (sep : Nat) (key : Bytes) : Nat → List Bytes → Tbl → Option Tbl
  | _, [], t => some t
  | i, v :: vs, t =>
    let (t1, r) := t.put (suffix sep key i) v false
    if r then putFresh sep key (i + 1) vs t1 else none

/-- dbing.py:1582-1653 `appendOnIoSetVals`. -/
def appendOnIoSetVals (sep : Nat) (t : Tbl) (key : Bytes) (vals : List Bytes) : Tbl × Except Err Nat :=
  if key = [] ∨ vals = [] then (t, .error .valueError)
  else match appendSetOn sep t key with
    | .error e => (t, .error e)
    | .ok on => match putFresh sep (onKey sep key on) 0 vals t with
      | none => (t, .error .valueError)
      | some t' => (t', .ok on)

end Verif.Db
