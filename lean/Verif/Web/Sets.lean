import Verif.Web.Model
import Verif.Db.PropsIoSet
/-!
# Model of sets in order of insertion in browsers (src/keri/db/webdbing.py 940-1320)

The loops over `irange` read entries from a key on until another key comes: `Db.scan`, whose lines are repeated there (974-983, 1076-1086, 1130-1136, 1165-1171, 1309-1318).
-/

namespace Verif.Web

open Verif.Db (Bytes Entry Tbl suffix scan oset SetOp SetOut)

/-- `maxIon + 1`: webdbing.py 971, 982-983, 994 and 1074, 1085-1086, 1093. -/
def nextOf (l : List (Nat × Bytes)) : Nat := l.foldl (fun m p => if p.1 + 1 > m then p.1 + 1 else m) 0

/-- webdbing.py:995-998 and 1036-1038: assignments at one number after the other. -/
def assignSeq (sep : Nat) (key : Bytes) : Nat → List Bytes → Tbl → Tbl
  | _, [], t => t
  | i, v :: vs, t => assignSeq sep key (i + 1) vs (assign t (suffix sep key i) v)

/-- webdbing.py:940-1001 `putIoSetVals`. -/
def putSet (sep : Nat) (t : Tbl) (key : Bytes) (vals : List Bytes) : Tbl × Except Err Bool :=
  if key = [] ∨ vals = [] then (t, .ok false)
  else match scan sep key (t.fro (suffix sep key 0)) with
    | .error e => (t, .error e)
    | .ok l =>
      let new := (oset vals).filter fun v => decide (v ∉ l.map (·.2))
      if new = [] then (t, .ok false) else (assignSeq sep key (nextOf l) new t, .ok true)

/-- webdbing.py:1176-1220 `remIoSet`; keys to be removed are collected as in `doomed`. -/
def remSet (sep : Nat) (t : Tbl) (key : Bytes) : Tbl × Except Err Bool :=
  if key = [] then (t, .ok false)
  else match doomed sep key (t.fro (suffix sep key 0)) with
    | .error e => (t, .error e)
    | .ok [] => (t, .ok false)
    | .ok (d :: ds) => (delAll t (d :: ds), .ok true)

/-- webdbing.py:1004-1043 `pinIoSetVals`. -/
def pinSet (sep : Nat) (t : Tbl) (key : Bytes) (vals : List Bytes) : Tbl × Except Err Bool :=
  if key = [] ∨ vals = [] then (t, .ok false)
  else match remSet sep t key with
    | (t1, .error e) => (t1, .error e)
    | (t1, .ok _) => (assignSeq sep key 0 (oset vals) t1, .ok true)

/-- webdbing.py:1046-1098 `addIoSetVal`. -/
def addSet (sep : Nat) (t : Tbl) (key val : Bytes) : Tbl × Except Err Bool :=
  if key = [] then (t, .ok false)
  else match scan sep key (t.fro (suffix sep key 0)) with
    | .error e => (t, .error e)
    | .ok l => if val ∈ l.map (·.2) then (t, .ok false) else (assign t (suffix sep key (nextOf l)) val, .ok true)

/-- webdbing.py:1269-1279: the key of the first entry with the value. -/
def findVal (sep : Nat) (key val : Bytes) : List Entry → Except Err (Option Bytes)
  | [] => .ok none
  | (x, v) :: r => match Db.unsuffix sep x with
    | .error e => .error e
    | .ok (ck, _) => if ck ≠ key then .ok none else if v = val then .ok (some x) else findVal sep key val r

/-- webdbing.py:1223-1281 `remIoSetVal` with a value. -/
def remSetVal (sep : Nat) (t : Tbl) (key val : Bytes) : Tbl × Except Err Bool :=
  if key = [] then (t, .ok false)
  else match findVal sep key val (t.fro (suffix sep key 0)) with
    | .error e => (t, .error e)
    | .ok none => (t, .ok false)
    | .ok (some x) => (delAll t [x], .ok true)

/-- webdbing.py:1101-1136 `getIoSetItemIter`, values only. -/
def getSet (sep : Nat) (t : Tbl) (key : Bytes) : Except Err (List Bytes) :=
  if key = [] then .ok []
  else match scan sep key (t.fro (suffix sep key 0)) with
    | .error e => .error e
    | .ok l => .ok (l.map (·.2))

/-- webdbing.py:1139-1173 `getIoSetLastItem`, the value only. -/
def lastSet (sep : Nat) (t : Tbl) (key : Bytes) : Except Err (Option Bytes) :=
  if key = [] then .ok none
  else match scan sep key (t.fro (suffix sep key 0)) with
    | .error e => .error e
    | .ok l => .ok (l.foldl (fun _ p => some p.2) none)

/-- webdbing.py:1284-1320 `cntIoSet`. -/
def cntSet (sep : Nat) (t : Tbl) (key : Bytes) : Except Err Nat :=
  if key = [] then .ok 0
  else match scan sep key (t.fro (suffix sep key 0)) with
    | .error e => .error e
    | .ok l => .ok l.length

/-- The calls of `WebDBer` for sets. -/
def setCall (sep : Nat) (t : Tbl) : SetOp → Tbl × Except Err SetOut
  | .put k vs => let (t', r) := putSet sep t k vs; (t', r.map .bool)
  | .add k v => let (t', r) := addSet sep t k v; (t', r.map .bool)
  | .pin k vs => let (t', r) := pinSet sep t k vs; (t', r.map .bool)
  | .rem k => let (t', r) := remSet sep t k; (t', r.map .bool)
  | .remVal k v => let (t', r) := remSetVal sep t k v; (t', r.map .bool)
  | .get k => (t, (getSet sep t k).map .vals)
  | .last k => (t, (lastSet sep t k).map .val)
  | .cnt k => (t, (cntSet sep t k).map .num)

/-- The answers to calls one after the other. -/
def setAnswers (sep : Nat) (t : Tbl) : List SetOp → List (Except Err SetOut)
  | [] => []
  | o :: os => (setCall sep t o).2 :: setAnswers sep (setCall sep t o).1 os

end Verif.Web
