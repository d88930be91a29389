import Verif.Sub.Spec
import Verif.Codec.PropsMatter

/-! # How typed sub-databases write and read values (src/keri/db/subing.py, src/keri/db/koming.py, src/keri/help/helping.py) -/

namespace Verif.Sub

open Verif.Db

/-! ## Base64 texts -/

/-- helping.py:274-275 `Reb64`: letters, digits, `-` and `_`; the empty text matches. -/
def b64Char (n : Nat) : Bool :=
  (48 ≤ n && n ≤ 57) || (65 ≤ n && n ≤ 90) || (97 ≤ n && n ≤ 122) || n = 45 || n = 95

/-- subing.py:822-899 `B64SuberBase._ser`/`_des`: one text is made a tuple of one. The constructor refuses a separator that
matches Base64 (subing.py:818). -/
def b64Codec (sep : Nat) : Codec (List Bytes) where
  ser vs := if vs.all (fun p => p.all b64Char) then .ok (join sep vs) else .error .valueError
  des b := .ok (split sep b)

/-! ## Concatenated primitives -/

/-- A primitive: the class of the object and its contents. -/
structure Prim where
  klas : Nat
  mat : Verif.Matter.Mat
  deriving DecidableEq

/-- Text of ASCII characters as bytes and back. -/
def toBytes (s : List Char) : Bytes := s.map Char.toNat
def ofBytes (b : Bytes) : List Char := b.map Char.ofNat

/-- `b''.join(obj.qb64b for obj in vals)`. -/
def catAll : List Prim → Except Err Bytes
  | [] => .ok []
  | p :: ps => match Verif.Matter.infil p.mat with
    | .error e => .error e
    | .ok s => match catAll ps with
      | .error e => .error e
      | .ok r => .ok (toBytes s ++ r)

/-- `tuple(klas(qb64b=val, strip=True) for klas in self.klas)`: every class reads one primitive off the front, `fits` is the check
of codes by the class; what is left is ignored. -/
def readAll (fits : Nat → Verif.Matter.Mat → Bool) : List Nat → List Char → Except Err (List Prim)
  | [], _ => .ok []
  | k :: ks, s => match Verif.Matter.exfil s with
    | .error e => .error e
    | .ok m =>
      if fits k m then
        match Verif.Matter.fullSize m with
        | .error e => .error e
        | .ok n => match readAll fits ks (s.drop n) with
          | .error e => .error e
          | .ok ps => .ok (⟨k, m⟩ :: ps)
      else .error .valueError

/-- `zip(…, strict=True)` with the check of classes: ValueError for different lengths, TypeError for another class. Simplified:
one error, and a class has no subclasses. -/
def sameKlas : List Nat → List Prim → Bool
  | [], [] => true
  | k :: ks, p :: ps => decide (p.klas = k) && sameKlas ks ps
  | _, _ => false

/-- subing.py:1095-1135 `CatCesrSuberBase._ser`/`_des`; `CesrSuberBase` (subing.py:966-1000) is the case of one class. -/
def catCodec (fits : Nat → Verif.Matter.Mat → Bool) (ks : List Nat) (strict : Bool) : Codec (List Prim) where
  ser vs := if strict && !sameKlas ks vs then .error .valueError else catAll vs
  des b := readAll fits ks (ofBytes b)

/-! ## Records -/

mutual
/-- Values: numbers, booleans and None, text, lists, dicts by key, and instances of dataclasses by field. -/
inductive Val where
  | atom (n : Nat)
  | text (s : List Nat)
  | list (l : Vals)
  | dict (l : Kvs)
  | inst (c : Nat) (l : Kvs)
inductive Vals where
  | nil
  | cons (v : Val) (r : Vals)
inductive Kvs where
  | nil
  | cons (k : Nat) (v : Val) (r : Kvs)
end

mutual
/-- Annotations: a dataclass with its fields in order, each with the default if any, or anything else, such as `str`, `list[X]` or
`X | None`. -/
inductive Ty where
  | other
  | data (c : Nat) (fs : Flds)
inductive Flds where
  | nil
  | cons (k : Nat) (ty : Ty) (dflt : Option Val) (r : Flds)
end

def Kvs.find? (k : Nat) : Kvs → Option Val
  | .nil => none
  | .cons k' v r => if k' = k then some v else r.find? k

def Flds.find? (k : Nat) : Flds → Option Ty
  | .nil => none
  | .cons k' ty _ r => if k' = k then some ty else r.find? k

mutual
/-- helping.py:47-59 `dictify`: `dataclasses.asdict`. -/
def dictify : Val → Val
  | .atom n => .atom n
  | .text s => .text s
  | .list l => .list (dictifyL l)
  | .dict l => .dict (dictifyK l)
  | .inst _ l => .dict (dictifyK l)
def dictifyL : Vals → Vals
  | .nil => .nil
  | .cons v r => .cons (dictify v) (dictifyL r)
def dictifyK : Kvs → Kvs
  | .nil => .nil
  | .cons k v r => .cons k (dictify v) (dictifyK r)
end

/-- `cls(**kw)`: fields in order, absent ones by default; a field without default that is absent raises TypeError. -/
def build (kw : Kvs) : Flds → Option Kvs
  | .nil => some .nil
  | .cons k _ d r => match (match kw.find? k with | some v => some v | none => d) with
    | none => none
    | some v => match build kw r with
      | none => none
      | some vs => some (.cons k v vs)

mutual
/-- helping.py:62-78 `datify`: whatever is raised, the value is returned as it is. Text and lists are iterated over too, so that empty
ones make an instance of the defaults; other ones raise. -/
def datify (ty : Ty) : Val → Val
  | .dict l => match ty with
    | .other => .dict l
    | .data c fs => match datifyK fs l with
      | none => .dict l
      | some kw => match build kw fs with
        | none => .dict l
        | some vs => .inst c vs
  | .list .nil => match ty with
    | .other => .list .nil
    | .data c fs => match build .nil fs with
      | none => .list .nil
      | some vs => .inst c vs
  | .text [] => match ty with
    | .other => .text []
    | .data c fs => match build .nil fs with
      | none => .text []
      | some vs => .inst c vs
  | v => v
/-- `{f: datify(fieldtypes[f], d[f]) for f in d}`; an unknown field raises KeyError. -/
def datifyK (fs : Flds) : Kvs → Option Kvs
  | .nil => some .nil
  | .cons k v r => match fs.find? k with
    | none => none
    | some ty => match datifyK fs r with
      | none => none
      | some kw => some (.cons k (datify ty v) kw)
end

/-- `isinstance(val, self.klas)`. Simplified: a class has no subclasses. -/
def isInst (c : Nat) : Val → Bool
  | .inst c' _ => decide (c' = c)
  | _ => false

/-- koming.py:147-200: `dumps` and `loads` are those of the kind of serialization. -/
def recCodec (dumps : Val → Bytes) (loads : Bytes → Except Err Val) (c : Nat) (fs : Flds) : Codec Val where
  ser v := if isInst c v then .ok (dumps (dictify v)) else .error .valueError
  des b := match loads b with
    | .error e => .error e
    | .ok d => if isInst c (datify (.data c fs) d) then .ok (datify (.data c fs) d) else .error .valueError

end Verif.Sub
