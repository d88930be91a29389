import Verif.Db.OnIoSet

/-! # Removing sets from a number on (src/keri/db/dbing.py 1787-1827) -/

namespace Verif.Db

/-- dbing.py:1815-1825: what the cursor leaves, and whether it deleted anything. -/
def remLoop2 (sep : Nat) (key : Bytes) : List Entry → Except Err (List Entry × Bool)
  | [] => .ok ([], false)
  | (x, v) :: r => match split2 sep x with
    | .error e => .error e
    | .ok (ck, _) => if ck ≠ key then .ok ((x, v) :: r, false) else match remLoop2 sep key r with
      | .error e => .error e
      | .ok (l, _) => .ok (l, true)

/-- dbing.py:1787-1827 `remOnAllIoSet`. If a key does not split the transaction is aborted. -/
def remOnAllIoSet (sep : Nat) (t : Tbl) (key : Bytes) (on : Nat) : Tbl × Except Err Bool :=
  if key = [] then let (t', b) := remTop t []; (t', .ok b)
  else match remLoop2 sep key (t.fro (onKey sep key on)) with
    | .error e => (t, .error e)
    | .ok (r, b) => (t.before (onKey sep key on) ++ r, .ok b)

end Verif.Db
