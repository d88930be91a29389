import Verif.Db.On
/-!
# Model of the database in browsers (src/keri/db/webdbing.py)

Entries of a sub-database are a `SortedDict`, here the list of entries in key order: assignment inserts or replaces, `del` removes, `irange(minimum)` are the entries from a key on. Keys are made as in
`db/dbing.py` (webdbing.py 30-125 repeats 105-270 there). Sets in order of insertion (940-1320) are in `Sets`, those at numbered keys in `OnSets`, `BackSets` and `LastSets`, last values of all sets in `AllLast` and `AllLastOn`, the version (330-372) in `Version`; not modelled: the rest of 1323-2215.
-/

namespace Verif.Web

open Verif.Db (Bytes Entry Tbl lexLt onKey splitOnKey maxON cntLoop itemLoop nextAt)

/-- What a call gives back. -/
inductive Out where
  | bool (b : Bool)
  | val (v : Option Bytes)
  | num (n : Nat)
  | item (i : Option (Bytes × Nat × Bytes))
  | items (l : List (Bytes × Nat × Bytes))
  | entries (l : List Entry)
  | raised (e : Err)
  deriving DecidableEq

/-- Calls on a sub-database without duplicates. -/
inductive Op where
  | put (k v : Bytes)
  | set (k v : Bytes)
  | get (k : Bytes)
  | rem (k : Bytes)
  | putOn (k : Bytes) (n : Nat) (v : Bytes)
  | pinOn (k : Bytes) (n : Nat) (v : Bytes)
  | appendOn (k v : Bytes)
  | getOn (k : Bytes) (n : Nat)
  | itemOn (k : Bytes) (n : Nat)
  | remOn (k : Bytes) (n : Nat)
  | remOnAll (k : Bytes) (n : Nat)
  | cntOnAll (k : Bytes) (n : Nat)
  | itemsOn (k : Bytes) (n : Nat)
  | top (p : Bytes)
  | remTop (p : Bytes)
  | cntTop (p : Bytes)
  | cntAll
  deriving DecidableEq

/-- The key of a call, if it has one. -/
def Op.key : Op → Option Bytes
  | .put k _ | .set k _ | .get k | .rem k | .putOn k _ _ | .pinOn k _ _ | .appendOn k _ | .getOn k _ | .itemOn k _ | .remOn k _ | .remOnAll k _ | .cntOnAll k _ | .itemsOn k _ => some k
  | .top _ | .remTop _ | .cntTop _ | .cntAll => none

/-- `items[key] = val`. -/
def assign (t : Tbl) (k v : Bytes) : Tbl := t.insert k v

/-- `del items[key]` for each of some keys. -/
def delAll (t : Tbl) (ks : List Bytes) : Tbl := t.filter fun e => !decide (e.1 ∈ ks)

/-- webdbing.py:387-413 `putVal`. -/
def putVal (t : Tbl) (k v : Bytes) : Tbl × Out :=
  if k = [] then (t, .raised .keyError)
  else if (t.get k).isSome then (t, .bool false)
  else (assign t k v, .bool true)

/-- webdbing.py:415-438 `setVal`. -/
def setVal (t : Tbl) (k v : Bytes) : Tbl × Out := if k = [] then (t, .raised .keyError) else (assign t k v, .bool true)

/-- webdbing.py:440-460 `getVal`. -/
def getVal (t : Tbl) (k : Bytes) : Out := if k = [] then .raised .keyError else .val (t.get k)

/-- webdbing.py:462-482 `remVal`. -/
def remVal (t : Tbl) (k : Bytes) : Tbl × Out :=
  if k = [] then (t, .bool false)
  else if (t.get k).isNone then (t, .bool false)
  else (delAll t [k], .bool true)

/-- webdbing.py:588-590 `bisect_right` and `peekitem`: the last entry whose key is not above `k`. -/
def lastUpto (t : Tbl) (k : Bytes) : Option Entry := (t.takeWhile fun e => !lexLt k e.1).getLast?

/-- webdbing.py:584-603 `appendOnVal`. -/
def appendOnVal (sep : Nat) (t : Tbl) (k v : Bytes) : Tbl × Out :=
  if k = [] then (t, .raised .valueError)
  else
    let write (on : Nat) : Tbl × Out := match putVal t (onKey sep k on) v with
      | (t', .bool true) => (t', .num on)
      | (t', .raised e) => (t', .raised e)
      | (t', _) => (t', .raised .valueError)
    match lastUpto t (onKey sep k maxON) with
    | none => write 0
    | some (x, _) => match splitOnKey sep x with
      | .error e => (t, .raised e)
      | .ok (ck, cn) =>
        if ck = k then (if cn ≥ maxON then (t, .raised .valueError) else write (cn + 1)) else write 0

/-- webdbing.py:727-732: the keys to be removed. -/
def doomed (sep : Nat) (k : Bytes) : List Entry → Except Err (List Bytes)
  | [] => .ok []
  | (x, _) :: r => match splitOnKey sep x with
    | .error e => .error e
    | .ok (ck, _) => if ck ≠ k then .ok [] else match doomed sep k r with
      | .error e => .error e
      | .ok ds => .ok (x :: ds)

/-- webdbing.py:848-870 `getTopItemIter`. -/
def topItems (t : Tbl) (p : Bytes) : List Entry := if p = [] then t else (t.fro p).takeWhile fun e => p.isPrefixOf e.1

/-- webdbing.py:872-901 `remTop`. -/
def remTop (t : Tbl) (p : Bytes) : Tbl × Out :=
  if p = [] then (if t = [] then (t, .bool false) else ([], .bool true))
  else match (topItems t p).map (·.1) with
    | [] => (t, .bool false)
    | d :: ds => (delAll t (d :: ds), .bool true)

/-- webdbing.py:724-740 `remOnAll`. -/
def remOnAll (sep : Nat) (t : Tbl) (k : Bytes) (n : Nat) : Tbl × Out :=
  if k = [] then remTop t []
  else match doomed sep k (t.fro (onKey sep k n)) with
    | .error e => (t, .raised e)
    | .ok [] => (t, .bool false)
    | .ok (d :: ds) => (delAll t (d :: ds), .bool true)

/-- What is iterated over. -/
def itemsOut : Except Err (List (Bytes × Nat × Bytes)) → Out
  | .error e => .raised e
  | .ok l => .items l

/-- The calls of `WebDBer`: 486-517 `putOnVal`, 519-550 `pinOnVal`, 605-634 `getOnItem`, 636-663 `getOnVal`, 665-692 `remOn`, 742-781 `cntOnAll`, 815-846 `getOnAllItemIter` with 2232-2272 `_iterOnItems`, 905-925 `cntTop`,
927-937 `cntAll`. -/
def Op.web (sep : Nat) (t : Tbl) : Op → Tbl × Out
  | .put k v => putVal t k v
  | .set k v => setVal t k v
  | .get k => (t, getVal t k)
  | .rem k => remVal t k
  | .putOn k n v => putVal t (onKey sep k n) v
  | .pinOn k n v => if k = [] then (t, .bool false) else setVal t (onKey sep k n) v
  | .appendOn k v => appendOnVal sep t k v
  | .getOn k n => (t, if k = [] then .val none else getVal t (onKey sep k n))
  | .itemOn k n => (t, if k = [] then .item none else match getVal t (onKey sep k n) with
    | .val (some v) => .item (some (k, n, v))
    | .val none => .item none
    | o => o)
  | .remOn k n => if k = [] then (t, .bool false) else remVal t (onKey sep k n)
  | .remOnAll k n => Web.remOnAll sep t k n
  | .cntOnAll k n => (t, .num (cntLoop sep k (t.fro (if k = [] then [] else onKey sep k n))))
  | .itemsOn k n => (t, itemsOut (itemLoop sep k (t.fro (if k = [] then [] else onKey sep k n))))
  | .top p => (t, .entries (topItems t p))
  | .remTop p => Web.remTop t p
  | .cntTop p => (t, .num (if p = [] then t.length else ((t.fro p).takeWhile fun e => p.isPrefixOf e.1).length))
  | .cntAll => (t, .num t.length)

/-- The same calls of `LMDBer`, as modelled in `Verif.Db`. -/
def Op.lmdb (sep : Nat) (t : Tbl) : Op → Tbl × Out
  | .put k v => let (t, b) := Db.putVal t k v; (t, .bool b)
  | .set k v => let (t, b) := Db.setVal t k v; (t, .bool b)
  | .get k => (t, .val (Db.getVal t k))
  | .rem k => let (t, b) := Db.remVal t k; (t, .bool b)
  | .putOn k n v => let (t, b) := Db.putOnVal sep t k n v; (t, .bool b)
  | .pinOn k n v => let (t, b) := Db.pinOnVal sep t k n v; (t, .bool b)
  | .appendOn k v => match Db.appendOnVal sep t k v with
    | (t, .ok n) => (t, .num n)
    | (t, .error e) => (t, .raised e)
  | .getOn k n => (t, .val (Db.getOnVal sep t k n))
  | .itemOn k n => (t, .item (Db.getOnItem sep t k n))
  | .remOn k n => let (t, b) := Db.remOn sep t k n; (t, .bool b)
  | .remOnAll k n => match Db.remOnAll sep t k n with
    | (t, .ok b) => (t, .bool b)
    | (t, .error e) => (t, .raised e)
  | .cntOnAll k n => (t, .num (Db.cntOnAll sep t k n))
  | .itemsOn k n => (t, itemsOut (Db.getOnAllItemIter sep t k n))
  | .top p => (t, .entries (Db.getTopItemIter t p))
  | .remTop p => let (t, b) := Db.remTop t p; (t, .bool b)
  | .cntTop p => (t, .num (Db.cntTop t p))
  | .cntAll => (t, .num (Db.cntAll t))

/-- The answers to calls one after the other. -/
def answers (f : Tbl → Op → Tbl × Out) : Tbl → List Op → List Out
  | _, [] => []
  | t, o :: os => (f t o).2 :: answers f (f t o).1 os

/-! ## Storage -/

/-- `bytes.hex()`. -/
def hexB (b : Bytes) : List Nat := b.flatMap fun x => [Db.hexChar (x / 16), Db.hexChar (x % 16)]

/-- `bytes.fromhex(text)`: ValueError for what is no pair of digits. Simplified: blanks, which Python skips, are errors here. -/
def unhexB : List Nat → Except Err Bytes
  | [] => .ok []
  | [_] => .error .valueError
  | a :: b :: r => match Db.hexVal a, Db.hexVal b with
    | some x, some y => match unhexB r with
      | .error e => .error e
      | .ok l => .ok ((16 * x + y) :: l)
    | _, _ => .error .valueError

/-- webdbing.py:2218-2225 `_serialize_records`. JSON is not modelled: the payload is the map of texts. Nor is the order in which they are written, since reading puts them in order. -/
def pack (t : Tbl) : List (List Nat × List Nat) := t.map fun e => (hexB e.1, hexB e.2)

/-- webdbing.py:2275-2290 `_deserialize_records` and the making of the `SortedDict` (278). -/
def unpack : List (List Nat × List Nat) → Except Err Tbl
  | [] => .ok []
  | (k, v) :: r => match unhexB k, unhexB v with
    | .ok k, .ok v => match unpack r with
      | .error e => .error e
      | .ok t => .ok (t.insert k v)
    | _, _ => .error .valueError

/-- What is kept of a store: records and, once they are written, the flag dupsort. -/
structure Kept where
  recs : List (List Nat × List Nat)
  dup : Option Bool
  deriving DecidableEq

/-- webdbing.py:148-172 `SubDb`, with what is being synced and what is kept. -/
structure Store where
  items : Tbl
  dup : Bool
  known : Bool
  dirty : Bool
  isOpen : Bool
  sync : Option Kept
  kept : Kept

/-- webdbing.py:271-293, a store as it is opened. -/
def openStore (k : Kept) : Except Err Store :=
  match unpack k.recs with
  | .error e => .error e
  | .ok t => if t ≠ [] ∧ k.dup = none then .error .valueError
    else .ok { items := t, dup := k.dup.getD false, known := k.dup.isSome, dirty := false, isOpen := false, sync := none, kept := k }

/-- Whether a call marks the store as dirty: those that change something do, as do assignments. -/
def Op.marks (o : Op) (out : Out) : Bool :=
  match o, out with
  | .appendOn _ _, .num _ => true
  | .put _ _, .bool b | .set _ _, .bool b | .rem _, .bool b | .putOn _ _ _, .bool b | .pinOn _ _ _, .bool b | .remOn _ _, .bool b | .remOnAll _ _, .bool b | .remTop _, .bool b => b
  | _, _ => false

/-- What happens to a store. `flush` (305-328) is two steps, as other code runs while `sync` is awaited, which ends or fails; there is one flush at a time. -/
inductive Inp where
  | call (o : Op)
  | openDb (dup : Bool)
  | flush
  | synced
  | failed
  deriving DecidableEq

/-- webdbing.py:185-210 `open_db`, 319-327 `flush`. If `sync` fails `flush` raises and the store stays marked. -/
def Store.step (sep : Nat) (s : Store) : Inp → Store
  | .call o => { s with items := (o.web sep s.items).1, dirty := s.dirty || o.marks (o.web sep s.items).2 }
  | .openDb d =>
    if s.isOpen then s
    else if s.known then { s with isOpen := true }
    else { s with dup := d, known := true, dirty := true, isOpen := true }
  | .flush => match s.sync with
    | some _ => s
    | none => if s.dirty then { s with sync := some ⟨pack s.items, some s.dup⟩ } else s
  | .synced => match s.sync with
    | none => s
    | some k => { s with sync := none, kept := k, dirty := false }
  | .failed => { s with sync := none }

def Store.run (sep : Nat) (s : Store) (is : List Inp) : Store := is.foldl (Store.step sep) s

/-- webdbing.py:374-385 `close`: the stores that are left to flush. -/
def close (stores : List Store) (clear : Bool) : List Store × List Store := (if clear then stores.map fun s => { s with items := [], dirty := true } else stores, [])

/-- `flush` without other code meanwhile: what is kept of each store of the list. -/
def flushAll (sep : Nat) (stores : List Store) : List Store := stores.map fun s => s.run sep [.flush, .synced]

end Verif.Web
