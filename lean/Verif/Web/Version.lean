import Verif.Web.Model
/-!
# Model of the version of a database in browsers (src/keri/db/webdbing.py 330-385)

The version is one entry of the store `__meta__`, which every database has (267-270), and is remembered once it is read or set. Texts are bytes here, `encode` and `decode` are not modelled; versions are
texts or bytes, not None.
-/

namespace Verif.Web

open Verif.Db (Bytes Tbl)

/-- webdbing.py:145 `_VERSION_KEY`. -/
def verKey : Bytes := [95, 95, 118, 101, 114, 115, 105, 111, 110, 95, 95]

/-- A database: the remembered version (234), the store `__meta__`, and whether `close` took the stores away. -/
structure VDb where
  memo : Option Bytes
  store : Store
  closed : Bool

/-- webdbing.py:348-358 `getVer`. -/
def VDb.getVer (d : VDb) : Option Bytes := if d.closed then none else d.store.items.get verKey

/-- webdbing.py:330-338, reading `version`: the answer. -/
def VDb.version (d : VDb) : Option Bytes := match d.memo with
  | none => d.getVer
  | some v => some v

/-- webdbing.py:360-372 `setVer`. -/
def VDb.setVer (d : VDb) (v : Bytes) : VDb := if d.closed then d else { d with store := { d.store with items := assign d.store.items verKey v, dirty := true } }

/-- What happens to a database, as far as its store `__meta__` goes. -/
inductive VInp where
  | set (v : Bytes)
  | read
  | base (i : Inp)
  | close (clear : Bool)
  deriving DecidableEq

/-- webdbing.py:330-346 and 374-385. Once closed neither `flush` nor `open_db` finds the store; a flush that was under way ends or fails as before, and handles that were got before still work. -/
def VDb.step (sep : Nat) (d : VDb) : VInp → VDb
  | .set v => { d with memo := some v }.setVer v
  | .read => { d with memo := d.version }
  | .base .flush => if d.closed then d else { d with store := d.store.step sep .flush }
  | .base (.openDb b) => if d.closed then d else { d with store := d.store.step sep (.openDb b) }
  | .base i => { d with store := d.store.step sep i }
  | .close clear => { d with closed := true, store := if clear ∧ ¬d.closed then { d.store with items := [], dirty := true } else d.store }

def VDb.run (sep : Nat) (d : VDb) (is : List VInp) : VDb := is.foldl (VDb.step sep) d

/-- webdbing.py:229-234 and 271-295: a database as it is opened. -/
def openVDb (k : Kept) : Except Err VDb := match openStore k with
  | .error e => .error e
  | .ok s => .ok ⟨none, s, false⟩

end Verif.Web
