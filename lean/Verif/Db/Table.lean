import Verif.Db.Key

/-!
# An LMDB sub-database

A sub-database without duplicates is its list of entries in key order.  `put`, `del` and the cursor operations used by
`LMDBer` are functions on that list; a cursor is the list of entries from its position on, together with those before it.
Not modelled: the maximal key size of 511 bytes, the map size, concurrent transactions (LMDB has one writer at a time) and
durability; a transaction ended by an exception leaves the entries as they were.
-/

namespace Verif.Db

abbrev Entry := Bytes × Bytes
abbrev Tbl := List Entry

/-- `txn.get(key)`. -/
def Tbl.get (t : Tbl) (k : Bytes) : Option Bytes := (t.find? (fun e => decide (e.1 = k))).map (·.2)

/-- Position of a new or replaced entry. -/
def Tbl.insert (k v : Bytes) : Tbl → Tbl
  | [] => [(k, v)]
  | e :: r => if lexLt k e.1 then (k, v) :: e :: r else if k = e.1 then (k, v) :: r else e :: Tbl.insert k v r

/-- `txn.put(key, val, overwrite=…)`: without overwriting, an existing key is left and False returned. -/
def Tbl.put (t : Tbl) (k v : Bytes) (overwrite : Bool) : Tbl × Bool :=
  if overwrite = false ∧ (t.get k).isSome then (t, false) else (t.insert k v, true)

/-- `txn.delete(key)`. -/
def Tbl.del (t : Tbl) (k : Bytes) : Tbl × Bool := (t.filter (fun e => decide (e.1 ≠ k)), (t.get k).isSome)

/-- Entries from the position of `cursor.set_range(key)` on: the first key not below `key`. Empty: `set_range` returns False. -/
def Tbl.fro (t : Tbl) (k : Bytes) : Tbl := t.dropWhile (fun e => lexLt e.1 k)

/-- Entries before that position. -/
def Tbl.before (t : Tbl) (k : Bytes) : Tbl := t.takeWhile (fun e => lexLt e.1 k)

/-- Keys in strictly increasing order. -/
def Sorted (t : Tbl) : Prop := t.Pairwise (fun a b => lexLt a.1 b.1 = true)

/-! ## Branches (dbing.py 533-645) -/

/-- dbing.py:610-645 `getTopItemIter`. -/
def getTopItemIter (t : Tbl) (top : Bytes) : List Entry := (t.fro top).takeWhile (fun e => top.isPrefixOf e.1)

/-- dbing.py:533-563 `remTop`: entries are deleted from the cursor on while they belong to the branch. -/
def remTop (t : Tbl) (top : Bytes) : Tbl × Bool :=
  (t.before top ++ (t.fro top).dropWhile (fun e => top.isPrefixOf e.1), !((t.fro top).takeWhile (fun e => top.isPrefixOf e.1)).isEmpty)

/-- dbing.py:568-594 `cntTop`. -/
def cntTop (t : Tbl) (top : Bytes) : Nat := ((t.fro top).takeWhile (fun e => top.isPrefixOf e.1)).length

/-- dbing.py:597-607 `cntAll`. -/
def cntAll (t : Tbl) : Nat := t.length

/-! ## Single values (dbing.py 648-731) -/

/-- dbing.py:648-667 `putVal`. -/
def putVal (t : Tbl) (key val : Bytes) : Tbl × Bool := if key = [] then (t, false) else t.put key val false

/-- dbing.py:670-690 `setVal`. -/
def setVal (t : Tbl) (key val : Bytes) : Tbl × Bool := if key = [] then (t, false) else t.put key val true

/-- dbing.py:693-708 `getVal`; for an empty key the code returns False, which is no value either. -/
def getVal (t : Tbl) (key : Bytes) : Option Bytes := if key = [] then none else t.get key

/-- dbing.py:711-731 `remVal`. -/
def remVal (t : Tbl) (key : Bytes) : Tbl × Bool := if key = [] then (t, false) else t.del key

end Verif.Db
