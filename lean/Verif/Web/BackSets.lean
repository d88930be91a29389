import Verif.Web.OnSets
/-!
# Model of counting and of backward iteration over sets at numbered keys in browsers (src/keri/db/webdbing.py 1810-1854, 2021-2212)

Iterators are modelled as the list of what they yield. Simplified: if a key does not split, what was yielded before that is left out. Iteration forward (1892-1948) is line by line that of `dbing.py`, modelled
as `Db.getOnAllIoSetItemIter`.
-/

namespace Verif.Web

open Verif.Db (Bytes Entry Tbl suffix split2 onKey maxON)

/-- webdbing.py:1843-1852 and, the same, dbing.py:1879-1885. -/
def cntSetLoop (sep : Nat) (key : Bytes) : List Entry → Except Err Nat
  | [] => .ok 0
  | (x, _) :: r => match split2 sep x with
    | .error e => .error e
    | .ok (ck, _) => if ck ≠ key then .ok 0 else match cntSetLoop sep key r with
      | .error e => .error e
      | .ok n => .ok (n + 1)

/-- webdbing.py:1810-1854 and dbing.py:1851-1887 `cntOnAllIoSet`. -/
def cntOnAllSet (sep : Nat) (t : Tbl) (key : Bytes) (on : Nat) : Except Err Nat :=
  if key = [] then .ok t.length else cntSetLoop sep key (t.fro (onKey sep key on))

/-- `items.irange(maximum=key, reverse=True)`: entries whose keys are not above a key, from the last one back. -/
def backTo (t : Tbl) (k : Bytes) : List Entry := (t.filter fun e => !Db.lexLt k e.1).reverse

/-- webdbing.py:2075-2087. -/
def backLoop (sep : Nat) (key : Bytes) (on : Nat) : List Entry → Except Err (List (Bytes × Nat × Bytes))
  | [] => .ok []
  | (x, v) :: r => match split2 sep x with
    | .error e => .error e
    | .ok (ck, con) =>
      if ck ≠ key then backLoop sep key on r
      else if con > on then backLoop sep key on r
      else match backLoop sep key on r with
        | .error e => .error e
        | .ok l => .ok ((ck, con, v) :: l)

/-- webdbing.py:2021-2087 `getOnAllIoSetItemBackIter`; the loop of 2057-2060 is that of `Db.iterLoop` without a key. -/
def backSets (sep : Nat) (t : Tbl) (key : Bytes) (on : Option Nat) : Except Err (List (Bytes × Nat × Bytes)) :=
  if t = [] then .ok []
  else if key = [] then Db.iterLoop sep [] t.reverse
  else backLoop sep key (on.getD maxON) (backTo t (suffix sep (onKey sep key (on.getD maxON)) maxON))

/-- webdbing.py:2182-2212: what is yielded, given number and value of the set before. -/
def lastBackLoop (sep : Nat) (key : Bytes) (on : Nat) : Option (Nat × Bytes) → List Entry → Except Err (List (Bytes × Nat × Bytes))
  | st, [] => match st with
    | none => .ok []
    | some (lcon, lval) => .ok [(key, lcon, lval)]
  | st, (x, v) :: r => match split2 sep x with
    | .error e => .error e
    | .ok (ck, con) =>
      if ck ≠ key then lastBackLoop sep key on st r
      else if con > on then lastBackLoop sep key on st r
      else match st with
        | none => lastBackLoop sep key on (some (con, v)) r
        | some (lcon, lval) =>
          if con ≠ lcon then match lastBackLoop sep key on (some (con, v)) r with
            | .error e => .error e
            | .ok l => .ok ((key, lcon, lval) :: l)
          else lastBackLoop sep key on st r

/-- webdbing.py:2131-2167, without a key: what is yielded, given the item at which the set before began. -/
def allBackLoop (sep : Nat) : Option (Bytes × Nat × Bytes) → List Entry → Except Err (List (Bytes × Nat × Bytes))
  | last, [] => .ok last.toList
  | last, (x, v) :: r => match split2 sep x with
    | .error e => .error e
    | .ok (ck, con) => match last with
      | none => allBackLoop sep (some (ck, con, v)) r
      | some p =>
        if ck ≠ p.1 ∨ con ≠ p.2.1 then match allBackLoop sep (some (ck, con, v)) r with
          | .error e => .error e
          | .ok l => .ok (p :: l)
        else allBackLoop sep (some p) r

/-- webdbing.py:2090-2212 `getOnAllIoSetLastItemBackIter`. -/
def lastBackSets (sep : Nat) (t : Tbl) (key : Bytes) (on : Option Nat) : Except Err (List (Bytes × Nat × Bytes)) :=
  if t = [] then .ok []
  else if key = [] then allBackLoop sep none t.reverse
  else lastBackLoop sep key (on.getD maxON) none (backTo t (suffix sep (onKey sep key (on.getD maxON)) maxON))

end Verif.Web
