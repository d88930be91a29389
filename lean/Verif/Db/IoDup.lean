import Verif.Db.OnIoSet

/-!
# Insertion-ordered duplicates (src/keri/db/dbing.py 2382-2750, 2756-3224)

A sub-database opened with dupsort is its list of (key, value) pairs in the order of pairs.  Values carry a 32 digit hex ordinal
and a dot in front.  Not modelled: LMDB's limit of 511 bytes for such values.
-/

namespace Verif.Db

/-- Sub-database with duplicates. -/
abbrev DTbl := List (Bytes × Bytes)

/-- LMDB's order of pairs. -/
def pairLt (a b : Bytes × Bytes) : Bool := lexLt a.1 b.1 || (decide (a.1 = b.1) && lexLt a.2 b.2)

/-- `txn.put(key, val, dupdata=True)`: an equal pair is there only once. -/
def DTbl.insert (k v : Bytes) : DTbl → DTbl
  | [] => [(k, v)]
  | e :: r => if pairLt (k, v) e then (k, v) :: e :: r else if e = (k, v) then e :: r else e :: DTbl.insert k v r

/-- Values seen by `cursor.set_key(key)` and `iternext_dup()`. -/
def DTbl.dups (t : DTbl) (k : Bytes) : List Bytes := (t.filter (fun e => decide (e.1 = k))).map (·.2)

/-- `b'%032x.' % idx + val`. -/
def proem (idx : Nat) (val : Bytes) : Bytes := hex32 idx ++ 46 :: val

/-- dbing.py:2459-2494 `getIoDupVals`. -/
def getIoDupVals (t : DTbl) (key : Bytes) : List Bytes := if key = [] then [] else (t.dups key).map (·.drop 33)

/-- Next ordinal (dbing.py:2416-2418); `int(…, 16)` of something else raises ValueError. -/
def nextDup (t : DTbl) (key : Bytes) : Except Err Nat :=
  match (t.dups key).getLast? with
  | none => .ok 0
  | some v => match intHex (v.take 32) with
    | .error e => .error e
    | .ok i => .ok (1 + i)

/-- The writing loop (dbing.py:2423-2428); `dups` is not extended by what is written. -/
def putDupLoop (key : Bytes) (dups : List Bytes) : Nat → List Bytes → DTbl → DTbl × Bool
  | _, [], t => (t, false)
  | idx, v :: vs, t =>
    if v ∈ dups then putDupLoop key dups idx vs t
    else ((putDupLoop key dups (idx + 1) vs (t.insert key (proem idx v))).1, true)

/-- dbing.py:2382-2429 `putIoDupVals`. -/
def putIoDupVals (t : DTbl) (key : Bytes) (vals : List Bytes) : DTbl × Except Err Bool :=
  if key = [] ∨ vals = [] ∨ key.head? = some 46 then (t, .ok false)
  else match nextDup t key with
    | .error e => (t, .error e)
    | .ok idx => let (t', r) := putDupLoop key (getIoDupVals t key) idx vals t; (t', .ok r)

/-- dbing.py:2432-2456 `addIoDupVal`. -/
def addIoDupVal (t : DTbl) (key val : Bytes) : DTbl × Except Err Bool := putIoDupVals t key [val]

/-- dbing.py:2545-2583 `getIoDupValLast`. -/
def getIoDupValLast (t : DTbl) (key : Bytes) : Option Bytes := if key = [] then none else (t.dups key).getLast?.map (·.drop 33)

/-- dbing.py:2586-2618 `delIoDupVals`. -/
def delIoDupVals (t : DTbl) (key : Bytes) : DTbl × Bool :=
  if key = [] then (t, false) else (t.filter (fun e => decide (e.1 ≠ key)), !(t.dups key).isEmpty)

/-- Deletion of the first pair with the key whose value matches. -/
def delFirst (key val : Bytes) : DTbl → DTbl × Bool
  | [] => ([], false)
  | e :: r => if e.1 = key ∧ val = e.2.drop 33 then (r, true) else (e :: (delFirst key val r).1, (delFirst key val r).2)

/-- dbing.py:2621-2663 `delIoDupVal`. -/
def delIoDupVal (t : DTbl) (key val : Bytes) : DTbl × Bool := if key = [] then (t, false) else delFirst key val t

/-- dbing.py:2666-2701 `cntIoDups`. -/
def cntIoDups (t : DTbl) (key : Bytes) : Nat := if key = [] then 0 else (t.dups key).length

/-- subing.py:2311-2330 `IoDupSuber.pin`: two transactions. -/
def pinIoDupVals (t : DTbl) (key : Bytes) (vals : List Bytes) : DTbl × Except Err Bool := putIoDupVals (delIoDupVals t key).1 key vals

/-! ## At numbered keys -/

/-- dbing.py:2807-2832 `addOnIoDupVal`. -/
def addOnIoDupVal (sep : Nat) (t : DTbl) (key : Bytes) (on : Nat) (val : Bytes) : DTbl × Except Err Bool := addIoDupVal t (onKey sep key on) val

/-- dbing.py:2863-2913 `getOnIoDupVals`. -/
def getOnIoDupVals (sep : Nat) (t : DTbl) (key : Bytes) (on : Nat) : List Bytes :=
  if key = [] then [] else (t.dups (onKey sep key on)).map (·.drop 33)

/-- dbing.py:2756-2804 `putOnIoDupVals`; the values already there are read at number 0 and with the default separator, whatever `on`
and `sep` are. -/
def putOnIoDupVals (sep : Nat) (t : DTbl) (key : Bytes) (on : Nat) (vals : List Bytes) : DTbl × Except Err Bool :=
  match nextDup t (onKey sep key on) with
  | .error e => (t, .error e)
  | .ok idx => let (t', r) := putDupLoop (onKey sep key on) (getOnIoDupVals 46 t key 0) idx vals t; (t', .ok r)

/-- Backward loop (dbing.py:3220-3224). -/
def dupBackLoop (sep : Nat) (key : Bytes) : List (Bytes × Bytes) → Except Err (List (Bytes × Nat × Bytes))
  | [] => .ok []
  | (x, v) :: r => match splitOnKey sep x with
    | .error e => .error e
    | .ok (ck, on) =>
      if key ≠ [] ∧ ck ≠ key then .ok []
      else match dupBackLoop sep key r with
        | .error e => .error e
        | .ok l => .ok ((ck, on, v.drop 33) :: l)

/-- dbing.py:3176-3224 `getOnIoDupItemBackIter`. -/
def getOnIoDupItemBackIter (sep : Nat) (t : DTbl) (key : Bytes) (on : Nat) : Except Err (List (Bytes × Nat × Bytes)) :=
  if t = [] then .ok []
  else if key = [] then dupBackLoop sep [] t.reverse
  else match t.dropWhile (fun e => lexLt e.1 (onKey sep key on)) with
    | [] => dupBackLoop sep key t.reverse
    | (x, _) :: _ => match splitOnKey sep x with
      | .error e => .error e
      | .ok (ck, _) =>
        if ck = key then dupBackLoop sep key (t.filter (fun e => decide (e.1 = x) || lexLt e.1 x)).reverse
        else dupBackLoop sep key (t.takeWhile (fun e => lexLt e.1 (onKey sep key on))).reverse

/-- Loop of `getOnIoDupLastItemIter`; `rem` are the entries from the cursor on.  The next position is computed with the default
separator.  `none` when the fuel runs out. -/
def lastFwd (sep : Nat) (t : DTbl) (key : Bytes) : Nat → List (Bytes × Bytes) → Option (Except Err (List (Bytes × Nat × Bytes)))
  | 0, _ => none
  | _ + 1, [] => some (.ok [])
  | f + 1, (x, v) :: _ => match splitOnKey sep x with
    | .error e => some (.error e)
    | .ok (ck, on) =>
      if key ≠ [] ∧ ck ≠ key then some (.ok [])
      else match lastFwd sep t key f (t.dropWhile (fun e => lexLt e.1 (onKey 46 ck (on + 1)))) with
        | some (.ok l) => some (.ok ((ck, on, ((t.dups x).getLast?.getD v).drop 33) :: l))
        | r => r

/-- dbing.py:3018-3060 `getOnIoDupLastItemIter`; `none` if it does not end. -/
def getOnIoDupLastItemIter (sep : Nat) (t : DTbl) (key : Bytes) (on : Nat) : Option (Except Err (List (Bytes × Nat × Bytes))) :=
  lastFwd sep t key (t.length + 1) (t.dropWhile (fun e => lexLt e.1 (if key = [] then [] else onKey sep key on)))

end Verif.Db
