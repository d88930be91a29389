import Verif.Db.PropsMap
import Verif.Db.PropsIoSet

/-!
# Typed sub-databases (src/keri/db/subing.py, src/keri/db/koming.py)

Keys are given as one text or as parts that are joined by a separator; values are written and read by a codec. Text is its
UTF-8 bytes and the separator one ASCII byte, so that joining and splitting text is joining and splitting bytes. Given
iterables are lists, so that they have a last element.
-/

namespace Verif.Sub

open Verif.Db

/-- What callers give as `keys`: text or bytes, or an iterable of them. -/
inductive Keys where
  | raw (b : Bytes)
  | parts (ps : List Bytes)
  deriving DecidableEq

/-- `sep.join(…)`. -/
def join (sep : Nat) : List Bytes → Bytes
  | [] => []
  | [p] => p
  | p :: q :: ps => p ++ sep :: join sep (q :: ps)

/-- `key.split(sep)`: never empty. -/
def split (sep : Nat) : Bytes → List Bytes
  | [] => [[]]
  | c :: cs =>
    if c = sep then [] :: split sep cs
    else match split sep cs with
      | [] => [[c]]
      | p :: ps => (c :: p) :: ps

/-- subing.py:149-181 `_tokey` and koming.py:71-102: with `topive` a separator is put at the end unless the last part is empty;
`keys[-1]` of an empty iterable raises IndexError. -/
def tokey (sep : Nat) (topive : Bool) : Keys → Except Err Bytes
  | .raw b => .ok b
  | .parts ps =>
    if topive then
      match ps.getLast? with
      | none => .error .indexError
      | some l => .ok (join sep (if l ≠ [] then ps ++ [[]] else ps))
    else .ok (join sep ps)

/-- subing.py:184-198 `_tokeys` and koming.py:105-116. -/
def tokeys (sep : Nat) (key : Bytes) : List Bytes := split sep key

/-- How a sub-database writes and reads values: `_ser` and `_des`. -/
structure Codec (V : Type) where
  ser : V → Except Err Bytes
  des : Bytes → Except Err V

/-! ## Single values -/

/-- subing.py:403-415 `Suber.put` and koming.py:311-324; keys are converted first, a value that cannot be written raises before
the transaction. -/
def sPut {V : Type} (sep : Nat) (c : Codec V) (t : Tbl) (keys : Keys) (v : V) : Tbl × Except Err Bool :=
  match tokey sep false keys with
  | .error e => (t, .error e)
  | .ok k => match c.ser v with
    | .error e => (t, .error e)
    | .ok b => let (t', r) := putVal t k b; (t', .ok r)

/-- subing.py:418-429 `Suber.pin` and koming.py:327-339. -/
def sPin {V : Type} (sep : Nat) (c : Codec V) (t : Tbl) (keys : Keys) (v : V) : Tbl × Except Err Bool :=
  match tokey sep false keys with
  | .error e => (t, .error e)
  | .ok k => match c.ser v with
    | .error e => (t, .error e)
    | .ok b => let (t', r) := setVal t k b; (t', .ok r)

/-- subing.py:432-448 `Suber.get` and koming.py:341-358. Simplified: for an empty key `getVal` gives False, which the code hands
to `_des`; here nothing is read. -/
def sGet {V : Type} (sep : Nat) (c : Codec V) (t : Tbl) (keys : Keys) : Except Err (Option V) :=
  match tokey sep false keys with
  | .error e => .error e
  | .ok k => match getVal t k with
    | none => .ok none
    | some b => match c.des b with
      | .error e => .error e
      | .ok v => .ok (some v)

/-- subing.py:451-462 `Suber.rem` and koming.py:380-389. -/
def sRem (sep : Nat) (t : Tbl) (keys : Keys) : Tbl × Except Err Bool :=
  match tokey sep false keys with
  | .error e => (t, .error e)
  | .ok k => let (t', r) := remVal t k; (t', .ok r)

/-- Items as an iterator gives them; one that raises midway is an error. -/
def items {V : Type} (sep : Nat) (c : Codec V) : List Entry → Except Err (List (List Bytes × V))
  | [] => .ok []
  | (k, b) :: r => match c.des b with
    | .error e => .error e
    | .ok v => match items sep c r with
      | .error e => .error e
      | .ok l => .ok ((tokeys sep k, v) :: l)

/-- subing.py:296-338 `getTopItemIter` and koming.py:227-260. -/
def getTop {V : Type} (sep : Nat) (c : Codec V) (t : Tbl) (topive : Bool) (keys : Keys) : Except Err (List (List Bytes × V)) :=
  match tokey sep topive keys with
  | .error e => .error e
  | .ok k => items sep c (getTopItemIter t k)

/-- subing.py:223-249 `trim` and koming.py:203-222. -/
def trim (sep : Nat) (t : Tbl) (topive : Bool) (keys : Keys) : Tbl × Except Err Bool :=
  match tokey sep topive keys with
  | .error e => (t, .error e)
  | .ok k => let (t', r) := remTop t k; (t', .ok r)

/-- subing.py:254-281 `cntTop`. -/
def cntT (sep : Nat) (t : Tbl) (topive : Bool) (keys : Keys) : Except Err Nat :=
  match tokey sep topive keys with
  | .error e => .error e
  | .ok k => .ok (cntTop t k)

/-! ## Insertion-ordered sets -/

/-- `[self._ser(val) for val in vals]`. -/
def serAll {V : Type} (c : Codec V) : List V → Except Err (List Bytes)
  | [] => .ok []
  | v :: vs => match c.ser v with
    | .error e => .error e
    | .ok b => match serAll c vs with
      | .error e => .error e
      | .ok bs => .ok (b :: bs)

/-- `[self._des(val) for …]`. -/
def desAll {V : Type} (c : Codec V) : List Bytes → Except Err (List V)
  | [] => .ok []
  | b :: bs => match c.des b with
    | .error e => .error e
    | .ok v => match desAll c bs with
      | .error e => .error e
      | .ok vs => .ok (v :: vs)

/-- subing.py:1214-1233 `IoSetSuber.put` and koming.py:449-467, for values given as a list. -/
def ioPut {V : Type} (sep : Nat) (c : Codec V) (t : Tbl) (keys : Keys) (vs : List V) : Tbl × Except Err Bool :=
  match tokey sep false keys with
  | .error e => (t, .error e)
  | .ok k => match serAll c vs with
    | .error e => (t, .error e)
    | .ok bs => putIoSetVals sep t k bs

/-- subing.py:1236-1256 `IoSetSuber.pin` and koming.py:488-503, for values given as a list. -/
def ioPin {V : Type} (sep : Nat) (c : Codec V) (t : Tbl) (keys : Keys) (vs : List V) : Tbl × Except Err Bool :=
  match tokey sep false keys with
  | .error e => (t, .error e)
  | .ok k => match serAll c vs with
    | .error e => (t, .error e)
    | .ok bs => pinIoSetVals sep t k bs

/-- subing.py:1259-1279 `IoSetSuber.add` and koming.py:470-485. -/
def ioAdd {V : Type} (sep : Nat) (c : Codec V) (t : Tbl) (keys : Keys) (v : V) : Tbl × Except Err Bool :=
  match tokey sep false keys with
  | .error e => (t, .error e)
  | .ok k => match c.ser v with
    | .error e => (t, .error e)
    | .ok b => addIoSetVal sep t k b

/-- subing.py:1306-1327 `IoSetSuber.get` and koming.py:506-519. -/
def ioGet {V : Type} (sep : Nat) (c : Codec V) (t : Tbl) (keys : Keys) : Except Err (List V) :=
  match tokey sep false keys with
  | .error e => .error e
  | .ok k => match getIoSet sep t k 0 with
    | .error e => .error e
    | .ok bs => desAll c bs

/-- subing.py:1397-1413 `IoSetSuber.getLast` and koming.py:522-535. -/
def ioLast {V : Type} (sep : Nat) (c : Codec V) (t : Tbl) (keys : Keys) : Except Err (Option V) :=
  match tokey sep false keys with
  | .error e => .error e
  | .ok k => match getIoSetLast sep t k with
    | .error e => .error e
    | .ok none => .ok none
    | .ok (some b) => match c.des b with
      | .error e => .error e
      | .ok v => .ok (some v)

/-- subing.py:1416-1435 `IoSetSuber.rem` and koming.py:571-585. -/
def ioRem {V : Type} (sep : Nat) (c : Codec V) (t : Tbl) (keys : Keys) : Option V → Tbl × Except Err Bool
  | none => match tokey sep false keys with
    | .error e => (t, .error e)
    | .ok k => remIoSet sep t k
  | some v => match tokey sep false keys with
    | .error e => (t, .error e)
    | .ok k => match c.ser v with
      | .error e => (t, .error e)
      | .ok b => remIoSetVal sep t k b

/-- subing.py:1438-1457 `IoSetSuber.cnt` and koming.py:555-568, for keys that are not empty. -/
def ioCnt (sep : Nat) (t : Tbl) (keys : Keys) : Except Err Nat :=
  match tokey sep false keys with
  | .error e => .error e
  | .ok k => cntIoSet sep t k 0

/-- dbing.py:1400-1425 `getTopIoSetItemIter`: the suffix is taken off every key. -/
def ioTop (sep : Nat) : List Entry → Except Err (List Entry)
  | [] => .ok []
  | (x, v) :: r => match unsuffix sep x with
    | .error e => .error e
    | .ok (k, _) => match ioTop sep r with
      | .error e => .error e
      | .ok l => .ok ((k, v) :: l)

/-- subing.py:1460-1498 `IoSetSuber.getTopItemIter` and koming.py:588-619. -/
def ioGetTop {V : Type} (sep : Nat) (c : Codec V) (t : Tbl) (topive : Bool) (keys : Keys) : Except Err (List (List Bytes × V)) :=
  match tokey sep topive keys with
  | .error e => .error e
  | .ok k => match ioTop sep (getTopItemIter t k) with
    | .error e => .error e
    | .ok es => items sep c es

end Verif.Sub
