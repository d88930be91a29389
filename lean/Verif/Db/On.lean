import Verif.Db.IoSet

/-! # Values at ordinal numbered keys (src/keri/db/dbing.py 739-1082)

Iterators are modelled by the list of all they yield; an iterator raising midway is an error. -/

namespace Verif.Db

/-- dbing.py:739-765 `putOnVal`. -/
def putOnVal (sep : Nat) (t : Tbl) (key : Bytes) (on : Nat) (val : Bytes) : Tbl × Bool :=
  if key = [] then (t, false) else t.put (onKey sep key on) val false

/-- dbing.py:768-794 `pinOnVal`. -/
def pinOnVal (sep : Nat) (t : Tbl) (key : Bytes) (on : Nat) (val : Bytes) : Tbl × Bool :=
  if key = [] then (t, false) else t.put (onKey sep key on) val true

/-- dbing.py:829-831, 843-845: one past the number at the cursor if it is at the same key, else 0. -/
def nextAt (sep : Nat) (key : Bytes) : Option Entry → Except Err Nat
  | none => .ok 0
  | some (x, _) => match splitOnKey sep x with
    | .error e => .error e
    | .ok (ck, cn) => .ok (if ck = key then cn + 1 else 0)

/-- dbing.py:821-845: the number at which `appendOnVal` writes. -/
def appendOn (sep : Nat) (t : Tbl) (key : Bytes) : Except Err Nat :=
  match t.fro (onKey sep key maxON) with
  | [] => nextAt sep key t.getLast?
  | (x, _) :: _ => match splitOnKey sep x with
    | .error e => .error e
    | .ok (ck, _) =>
      if ck = key then .error .valueError
      else nextAt sep key (t.before (onKey sep key maxON)).getLast?

/-- dbing.py:797-853 `appendOnVal`. -/
def appendOnVal (sep : Nat) (t : Tbl) (key val : Bytes) : Tbl × Except Err Nat :=
  if key = [] then (t, .error .valueError)
  else match appendOn sep t key with
    | .error e => (t, .error e)
    | .ok on =>
      let (t', r) := t.put (onKey sep key on) val false
      if r then (t', .ok on) else (t, .error .valueError)

/-- dbing.py:886-908 `getOnVal`. -/
def getOnVal (sep : Nat) (t : Tbl) (key : Bytes) (on : Nat) : Option Bytes :=
  if key = [] then none else t.get (onKey sep key on)

/-- dbing.py:857-882 `getOnItem`: an empty value counts as none. -/
def getOnItem (sep : Nat) (t : Tbl) (key : Bytes) (on : Nat) : Option (Bytes × Nat × Bytes) :=
  if key = [] then none
  else match t.get (onKey sep key on) with
    | none => none
    | some v => if v = [] then none else some (key, on, v)

/-- dbing.py:912-933 `remOn`. -/
def remOn (sep : Nat) (t : Tbl) (key : Bytes) (on : Nat) : Tbl × Bool :=
  if key = [] then (t, false) else t.del (onKey sep key on)

/-- dbing.py:936-974 `remOnAll`; the loop is the one of `remIoSet`. -/
def remOnAll (sep : Nat) (t : Tbl) (key : Bytes) (on : Nat) : Tbl × Except Err Bool :=
  if key = [] then let (t', b) := remTop t []; (t', .ok b)
  else match remLoop sep key (t.fro (onKey sep key on)) with
    | .error e => (t, .error e)
    | .ok (r, b) => (t.before (onKey sep key on) ++ r, .ok b)

/-- dbing.py:1008-1016: counting stops quietly at a key that does not split. -/
def cntLoop (sep : Nat) (key : Bytes) : List Entry → Nat
  | [] => 0
  | (x, _) :: r => match splitOnKey sep x with
    | .error _ => 0
    | .ok (ck, _) => if key ≠ [] ∧ ck ≠ key then 0 else cntLoop sep key r + 1

/-- dbing.py:978-1018 `cntOnAll`. -/
def cntOnAll (sep : Nat) (t : Tbl) (key : Bytes) (on : Nat) : Nat :=
  cntLoop sep key (t.fro (if key = [] then [] else onKey sep key on))

/-- dbing.py:1078-1082. -/
def itemLoop (sep : Nat) (key : Bytes) : List Entry → Except Err (List (Bytes × Nat × Bytes))
  | [] => .ok []
  | (x, v) :: r => match splitOnKey sep x with
    | .error e => .error e
    | .ok (ck, cn) =>
      if key ≠ [] ∧ ck ≠ key then .ok []
      else match itemLoop sep key r with
        | .error e => .error e
        | .ok l => .ok ((ck, cn, v) :: l)

/-- dbing.py:1042-1082 `getOnAllItemIter`. -/
def getOnAllItemIter (sep : Nat) (t : Tbl) (key : Bytes) (on : Nat) : Except Err (List (Bytes × Nat × Bytes)) :=
  itemLoop sep key (t.fro (if key = [] then [] else onKey sep key on))

end Verif.Db
