/-!
# Model of configuration files (src/keri/app/configing.py)

A file is its bytes. The path is fixed when the file is made, so its extension is part of the state; hio's `Filer`, which makes and opens it, is not modelled beyond opening and closing. The codecs are
parameters. A write reaches the file as bytes one after the other, in order; an interruption leaves what was written so far.
-/

namespace Verif.Conf

/-- What is raised. -/
inductive Fail where
  | notOpen
  | badExt
  | codec
  deriving DecidableEq

/-- The extensions: of `os.path.splitext(self.path)` those that are known. -/
inductive Ext where
  | json
  | mgpk
  | cbor
  | other
  deriving DecidableEq

inductive Fmt where
  | hjson
  | json
  | mgpk
  | cbor
  deriving DecidableEq

/-- configing.py:152-164 and 204-215: the format of an extension. -/
def Ext.fmt (human : Bool) : Ext → Option Fmt
  | .json => some (if human then .hjson else .json)
  | .mgpk => some .mgpk
  | .cbor => some .cbor
  | .other => none

/-- `dumps` and `loads` of the formats; `none`: something is raised. -/
structure Codec (D : Type) where
  dumps : Fmt → D → Option (List Nat)
  loads : Fmt → List Nat → Option D
  /-- The dict without entries. -/
  empty : D

structure File where
  isOpen : Bool
  bytes : List Nat
  ext : Ext
  human : Bool
  deriving DecidableEq

/-- configing.py:123-168 `put`. -/
def put {D : Type} (c : Codec D) (f : File) (d : D) (human : Option Bool) : File × Except Fail Bool :=
  if f.isOpen = false then (f, .error .notOpen)
  else
    let cut := { f with bytes := [] }
    match f.ext.fmt (human.getD f.human) with
    | none => (cut, .error .badExt)
    | some m => match c.dumps m d with
      | none => (cut, .error .codec)
      | some b => ({ cut with bytes := b }, .ok true)

/-- configing.py:171-216 `get`. -/
def get {D : Type} (c : Codec D) (f : File) (human : Option Bool) : Except Fail D :=
  if f.isOpen = false then .error .notOpen
  else if f.bytes = [] then .ok c.empty
  else match f.ext.fmt (human.getD f.human) with
    | none => .error .badExt
    | some m => match c.loads m f.bytes with
      | none => .error .codec
      | some d => .ok d

/-- What is in the file at the points at which `put` can be interrupted: 148 before, 150 after it is cut, 165 while it is written. -/
def during {D : Type} (c : Codec D) (f : File) (d : D) (human : Option Bool) : List (List Nat) :=
  if f.isOpen = false then [f.bytes]
  else f.bytes :: match f.ext.fmt (human.getD f.human) with
    | none => [[]]
    | some m => match c.dumps m d with
      | none => [[]]
      | some b => (List.range (b.length + 1)).map fun n => b.take n

/-- What is done with a file. `close` without clear and `reopen` leave what is in it. -/
inductive Op (D : Type) where
  | put (d : D) (human : Option Bool)
  | get (human : Option Bool)
  | close
  | reopen

inductive Out (D : Type) where
  | ok
  | data (d : D)
  | raised (e : Fail)
  deriving DecidableEq

def step {D : Type} (c : Codec D) (f : File) : Op D → File × Out D
  | .put d h => match put c f d h with
    | (f, .ok _) => (f, .ok)
    | (f, .error e) => (f, .raised e)
  | .get h => match get c f h with
    | .ok d => (f, .data d)
    | .error e => (f, .raised e)
  | .close => ({ f with isOpen := false }, .ok)
  | .reopen => ({ f with isOpen := true }, .ok)

def answers {D : Type} (c : Codec D) : File → List (Op D) → List (Out D)
  | _, [] => []
  | f, o :: os => (step c f o).2 :: answers c (step c f o).1 os

end Verif.Conf
