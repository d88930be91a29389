import Verif.Web.AllLast
import Verif.Db.OnIoSet
/-! # Model of the iteration over last values of sets at all numbered keys, on disk and in browsers: `getOnAllIoSetLastItemIter` without a key -/

namespace Verif.Web

open Verif.Db (Bytes Tbl splitOnKey)

/-- dbing.py:2007-2008, webdbing.py:1985-1986: key and number of each item. Simplified: if a key does not split, what was yielded before that is left out. -/
def splitItems (sep : Nat) : List (Bytes × Bytes) → Except Err (List (Bytes × Nat × Bytes))
  | [] => .ok []
  | (x, v) :: r => match splitOnKey sep x with
    | .error e => .error e
    | .ok (k, n) => match splitItems sep r with
      | .error e => .error e
      | .ok l => .ok ((k, n, v) :: l)

/-- webdbing.py:1983-1987. The number that is given is not used. -/
def lastFwdAll (sep : Nat) (t : Tbl) : Except Err (List (Bytes × Nat × Bytes)) := match allLast sep t [] with
  | .error e => .error e
  | .ok l => splitItems sep l

/-- dbing.py:2002-2009. The number that is given is not used. -/
def diskLastAll (sep : Nat) (t : Tbl) : Except Err (List (Bytes × Nat × Bytes)) := match diskAllLast sep t [] with
  | .error e => .error e
  | .ok l => splitItems sep l

end Verif.Web
