import Verif.Web.OnSets
/-!
# Model of the iteration forward over last values of sets at numbered keys, on disk and in browsers (src/keri/db/dbing.py 1974-2042, src/keri/db/webdbing.py 1951-2018)

With a key; without one (dbing.py 2002-2009, webdbing.py 1983-1987) in `AllLastOn`. Iterators are modelled as the list of what they yield. Simplified: if a key does not split, what was yielded before that is left out.
-/

namespace Verif.Web

open Verif.Db (Bytes Entry Tbl suffix split2 onKey maxON)

/-- webdbing.py:1993-2018, given the item before; `currentOn` is its number. -/
def lastFwdLoop (sep : Nat) (key : Bytes) : Option (Bytes × Nat × Bytes) → List Entry → Except Err (List (Bytes × Nat × Bytes))
  | last, [] => .ok last.toList
  | last, (x, v) :: r => match split2 sep x with
    | .error e => .error e
    | .ok (ck, con) =>
      if ck ≠ key then .ok last.toList
      else match last with
        | none => lastFwdLoop sep key (some (ck, con, v)) r
        | some p =>
          if con ≠ p.2.1 then match lastFwdLoop sep key (some (ck, con, v)) r with
            | .error e => .error e
            | .ok l => .ok (p :: l)
          else lastFwdLoop sep key (some (ck, con, v)) r

/-- webdbing.py:1951-2018 `getOnAllIoSetLastItemIter` with a key. -/
def lastFwdSets (sep : Nat) (t : Tbl) (key : Bytes) (on : Nat) : Except Err (List (Bytes × Nat × Bytes)) :=
  lastFwdLoop sep key none (t.fro (suffix sep (onKey sep key on) 0))

/-- dbing.py:2025-2041, given the number and the item before. -/
def diskLastLoop (sep : Nat) (key : Bytes) : Nat → Option (Bytes × Nat × Bytes) → List Entry → Except Err (List (Bytes × Nat × Bytes))
  | _, last, [] => .ok last.toList
  | on, last, (x, v) :: r => match split2 sep x with
    | .error e => .error e
    | .ok (ck, con) =>
      if ck ≠ key then .ok last.toList
      else if con ≠ on then match diskLastLoop sep key con (some (ck, con, v)) r with
        | .error e => .error e
        | .ok l => .ok (last.toList ++ l)
      else diskLastLoop sep key on (some (ck, con, v)) r

/-- dbing.py:2011-2042 `getOnAllIoSetLastItemIter` with a key. The key it starts from is made with the separator `.` whatever separator is given (2019-2020). -/
def diskLastSets (sep : Nat) (t : Tbl) (key : Bytes) (on : Nat) : Except Err (List (Bytes × Nat × Bytes)) :=
  diskLastLoop sep key on none (t.fro (suffix 46 (onKey 46 key on) 0))

end Verif.Web
