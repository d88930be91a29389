import Verif.Web.Sets
import Verif.Db.OnIoSet
/-!
# Model of sets at numbered keys in browsers, and of what marks a store (src/keri/db/webdbing.py 1440-1785)

`putOnIoSetVals` (1442-1481), `pinOnIoSetVals` (1484-1521), `addOnIoSetVal` (1598-1624) and `remOnIoSetVal` (1690-1730) are the calls of `Sets` at a numbered key, but for that the first two answer False without
a key. The counting of 1788 on and the iterators change nothing; see `BackSets`.
-/

namespace Verif.Web

open Verif.Db (Bytes Entry Tbl suffix split2 onKey maxON SetOp SetOut)

/-- webdbing.py:1553-1581: the number that is appended at. -/
def appendSetAt (sep : Nat) (t : Tbl) (key : Bytes) : Except Err Nat :=
  match lastUpto t (suffix sep (onKey sep key maxON) maxON) with
  | none => .ok 0
  | some (x, _) => match split2 sep x with
    | .error e => .error e
    | .ok (ck, con) => if ck = key then (if con = maxON then .error .valueError else .ok (con + 1)) else .ok 0

/-- webdbing.py:1587-1593: values are assigned until one of the keys is there. What was assigned before that stays. -/
def assignNew (sep : Nat) (key : Bytes) : Nat → List Bytes → Tbl → Tbl × Bool
  | _, [], t => (t, true)
  | i, v :: vs, t => if (t.get (suffix sep key i)).isSome then (t, false) else assignNew sep key (i + 1) vs (assign t (suffix sep key i) v)

/-- webdbing.py:1524-1595 `appendOnIoSetVals`. -/
def appendSet (sep : Nat) (t : Tbl) (key : Bytes) (vals : List Bytes) : Tbl × Except Err Nat :=
  if key = [] ∨ vals = [] then (t, .error .valueError)
  else match appendSetAt sep t key with
    | .error e => (t, .error e)
    | .ok on => match assignNew sep (onKey sep key on) 0 vals t with
      | (t', true) => (t', .ok on)
      | (t', false) => (t', .error .valueError)

/-- webdbing.py:1767-1777: the keys to be removed. -/
def doomedSet (sep : Nat) (k : Bytes) : List Entry → Except Err (List Bytes)
  | [] => .ok []
  | (x, _) :: r => match split2 sep x with
    | .error e => .error e
    | .ok (ck, _) => if ck ≠ k then .ok [] else match doomedSet sep k r with
      | .error e => .error e
      | .ok ds => .ok (x :: ds)

/-- webdbing.py:1760-1785 `remOnAllIoSet` with a key. Without one it is `remTop` of everything (1757-1758). -/
def remOnAllSet (sep : Nat) (t : Tbl) (k : Bytes) (n : Nat) : Tbl × Except Err Bool :=
  match doomedSet sep k (t.fro (onKey sep k n)) with
  | .error e => (t, .error e)
  | .ok ds => (delAll t ds, .ok (decide (ds ≠ [])))

/-- What happens to a store with sets in it. -/
inductive SInp where
  | base (i : Inp)
  | set (o : SetOp)
  | append (k : Bytes) (vs : List Bytes)
  | remAll (k : Bytes) (n : Nat)

/-- Sets mark the store where they answer True (webdbing.py 1000, 1041, 1097, 1219, 1278). Neither `appendOnIoSetVals` (1524-1595) nor `remOnAllIoSet` with a key (1760-1785) has such a line. -/
def Store.stepS (sep : Nat) (s : Store) : SInp → Store
  | .base i => s.step sep i
  | .set o => { s with items := (setCall sep s.items o).1, dirty := s.dirty || decide ((setCall sep s.items o).2 = .ok (.bool true)) }
  | .append k vs => { s with items := (appendSet sep s.items k vs).1 }
  | .remAll k n => if k = [] then s.step sep (.call (.remTop [])) else { s with items := (remOnAllSet sep s.items k n).1 }

def Store.runS (sep : Nat) (s : Store) (is : List SInp) : Store := is.foldl (Store.stepS sep) s

end Verif.Web
