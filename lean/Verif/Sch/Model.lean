/-!
# Model of schemas (src/keri/core/scheming.py)

A schema is the list of its fields at the top. JSON, digests, the text form of primitives and the check against the draft of JSON Schema are parameters. Simplified: schemas with a field `v` at the top, for
which `Saider` writes a size into that field (core/coring.py 3900-3902), are left out; only JSON is loaded, as `Schemer` never passes another kind.
-/

namespace Verif.Sch

abbrev Bytes := List Nat

/-- Values: texts, and all others. -/
inductive Val (V : Type) where
  | text (t : Bytes)
  | other (v : V)
  deriving DecidableEq

abbrev Sed (V : Type) := List (Bytes × Val V)

/-- `$id`. -/
def idL : Bytes := [36, 105, 100]

def Sed.get {V : Type} (d : Sed V) (l : Bytes) : Option (Val V) := (d.find? fun p => decide (p.1 = l)).map (·.2)

/-- `d[l] = v` for a label that is there. -/
def Sed.set {V : Type} (d : Sed V) (l : Bytes) (v : Val V) : Sed V := d.map fun p => if p.1 = l then (l, v) else p

inductive Fail where
  | deserialize
  | validation
  | value
  | material
  deriving DecidableEq

/-- The parameters. `dig`: the code is one of digests; `size`: bytes of its digests; `dummy`: `#` as often as its text form is long; `draft`: the check of `verify_schema`. -/
structure World (V : Type) where
  loads : Bytes → Option (Sed V)
  dumps : Sed V → Bytes
  draft : Sed V → Bool
  dig : Nat → Bool
  size : Nat → Nat
  digest : Nat → Bytes → Bytes
  qb64 : Nat → Bytes → Bytes
  parse : Bytes → Option (Nat × Bytes)
  dummy : Nat → Bytes

variable {V : Type} [DecidableEq V] (w : World V)

/-- coring.py:3874-3910 `Saider._derive` for digest codes. -/
def derive (d : Sed V) (code : Nat) : Bytes := w.digest code (w.dumps (d.set idL (.text (w.dummy code))))

/-- coring.py:3930-3972 `Saider.verify(prefixed=True)`. -/
def check (d : Sed V) (code : Nat) (r : Bytes) : Bool :=
  if w.qb64 code r ≠ w.qb64 code (derive w d code) then false
  else if d.get idL ≠ some (.text (w.qb64 code r)) then false
  else true

/-- scheming.py:133-179 `JSONSchema.load`. -/
def load (raw : Bytes) : Except Fail (Sed V × Nat × Bytes) :=
  match w.loads raw with
  | none => .error .deserialize
  | some d => match d.get idL with
    | none => .error .validation
    | some (.other _) => .error .material
    | some (.text t) => match w.parse t with
      | none => .error .material
      | some (code, r) =>
        if w.dig code = false then .error .value
        else if check w d code r then .ok (d, code, r) else .error .validation

/-- scheming.py:268-332 `Schemer`. -/
structure Schemer (V : Type) where
  raw : Bytes
  sed : Sed V
  code : Nat
  dgst : Bytes
  deriving DecidableEq

/-- scheming.py:438-441 `said`. -/
def Schemer.said (s : Schemer V) : Bytes := w.qb64 s.code s.dgst

/-- scheming.py:320-332 with bytes, 335-347, 390-397. -/
def ofRaw (raw : Bytes) (verify : Bool) : Except Fail (Schemer V) :=
  if raw = [] then .error .value
  else match load w raw with
    | .error e => .error e
    | .ok (d, code, r) => if verify && !w.draft d then .error .validation else .ok ⟨raw, d, code, r⟩

/-- scheming.py:320-332 with a dict, 350-362, 406-413; coring.py:3785-3814. -/
def ofSed (d : Sed V) (code : Nat) (verify : Bool) : Except Fail (Schemer V) :=
  if d = [] then .error .value
  else if (d.get idL).isNone then .error .material
  else if w.dig code = false then .error .value
  else
    let r := derive w d code
    let d' := d.set idL (.text (w.qb64 code r))
    if verify && !w.draft d' then .error .validation else .ok ⟨w.dumps d', d', code, r⟩

/-- What the attributes of a schema hold after its kind is set. -/
inductive Slot (V : Type) where
  | dict (d : Sed V)
  | kind (k : Option Nat)

structure Reset (V : Type) where
  raw : Bytes
  sed : Slot V
  kind : Slot V
  said : Bytes

/-- scheming.py:422-429, the setter of `kind`: what `_exhale` gives (raw, sed, kind, saider) is taken as (raw, kind, sed, saider), and the identifier is made of the serialization as if it were a digest, of
which `Matter` takes as many bytes as the code has. -/
def setKind (s : Schemer V) (code : Nat) (k : Option Nat) : Reset V :=
  let r := derive w s.sed code
  let d' := s.sed.set idL (.text (w.qb64 code r))
  let raw := w.dumps d'
  ⟨raw, .kind k, .dict d', w.qb64 code (raw.take (w.size code))⟩

/-! ## The cache -/

/-- The database of schemas holds serializations. -/
abbrev Db := List (Bytes × Bytes)

def Db.get (db : Db) (k : Bytes) : Option Bytes := (db.find? fun p => decide (p.1 = k)).map (·.2)

def Db.pin (db : Db) (k v : Bytes) : Db := (k, v) :: db.filter fun p => decide (p.1 ≠ k)

/-- scheming.py:39-50 `CacheResolver.add`. -/
def add (db : Db) (key raw : Bytes) : Db × Option Fail :=
  match ofRaw w raw true with
  | .error e => (db, some e)
  | .ok s => if s.said w ≠ key then (db, none) else (db.pin key s.raw, none)

/-- scheming.py:53-57 `CacheResolver.resolve`; the database makes a `Schemer` of what it holds, without the check against the draft. -/
def resolve (db : Db) (uri : Bytes) : Except Fail (Option Bytes) :=
  match db.get uri with
  | none => .ok none
  | some raw => match ofRaw w raw false with
    | .error e => .error e
    | .ok s => .ok (some s.raw)

/-- A history of additions. -/
def adds (db : Db) (l : List (Bytes × Bytes)) : Db := l.foldl (fun db p => (add w db p.1 p.2).1) db

end Verif.Sch
