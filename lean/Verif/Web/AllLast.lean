import Verif.Web.Sets
/-!
# Model of the iteration over the last values of all sets, on disk and in browsers (src/keri/db/dbing.py 1428-1469, src/keri/db/webdbing.py 1352-1408)

Iterators are modelled as the list of what they yield. Simplified: if a key does not split, what was yielded before that is left out.
-/

namespace Verif.Web

open Verif.Db (Bytes Entry Tbl suffix unsuffix)

/-- webdbing.py:1388-1408, given the item before; `currKey` is its key. -/
def allLastLoop (sep : Nat) : Option (Bytes × Bytes) → List Entry → Except Err (List (Bytes × Bytes))
  | last, [] => .ok last.toList
  | last, (x, v) :: r => match unsuffix sep x with
    | .error e => .error e
    | .ok (ck, _) => match last with
      | none => allLastLoop sep (some (ck, v)) r
      | some p =>
        if ck ≠ p.1 then match allLastLoop sep (some (ck, v)) r with
          | .error e => .error e
          | .ok l => .ok (p :: l)
        else allLastLoop sep (some (ck, v)) r

/-- webdbing.py:1352-1408 `getIoSetLastItemIterAll`. -/
def allLast (sep : Nat) (t : Tbl) (key : Bytes) : Except Err (List (Bytes × Bytes)) :=
  allLastLoop sep none (if key = [] then t else t.fro (suffix sep key 0))

/-- dbing.py:1458-1468, given the key and the item before. -/
def diskAllLoop (sep : Nat) : Bytes → Option (Bytes × Bytes) → List Entry → Except Err (List (Bytes × Bytes))
  | _, last, [] => .ok last.toList
  | key, last, (x, v) :: r => match unsuffix sep x with
    | .error e => .error e
    | .ok (ck, _) =>
      if ck ≠ key then match diskAllLoop sep ck (some (ck, v)) r with
        | .error e => .error e
        | .ok l => .ok (last.toList ++ l)
      else diskAllLoop sep key (some (ck, v)) r

/-- dbing.py:1428-1469 `getIoSetLastItemIterAll`. The key it starts from is made with the separator `.` whatever separator is given (1457). -/
def diskAllLast (sep : Nat) (t : Tbl) (key : Bytes) : Except Err (List (Bytes × Bytes)) :=
  if key = [] then match t with
    | [] => .ok []
    | (x, v) :: r => match unsuffix sep x with
      | .error e => .error e
      | .ok (k, _) => diskAllLoop sep k none ((x, v) :: r)
  else diskAllLoop sep key none (t.fro (suffix 46 key 0))

end Verif.Web
