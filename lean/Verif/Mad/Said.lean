import Verif.Mad.Model

/-!
# Model of SAIDs of field maps (src/keri/core/mapping.py 216-273, 591-607, 617-653)

`Diger` is coring.py:3504.
-/

namespace Verif.Mad

open Verif.B64 Verif.Matter

/-- What is taken as given: the digest functions by code (coring.py:3520-3530), and `json.dumps`, `msgpack.dumps` or `cbor.dumps` for the other
serialization kinds, mapping.py:641-648. -/
structure World where
  hash : List Char → List Char → List Nat
  dumps : Flds → Except Err (List Char)

/-- Native CESR or one of the other kinds. -/
inductive Kind where
  | cesr | other
  deriving DecidableEq

/-- The labels of said fields with the code of their digest, a dict. -/
abbrev Saids := List (List Char × List Char)

/-- coring.py:446-466 `DigDex`. -/
def digDex : List (List Char) :=
  [['E'], ['F'], ['G'], ['H'], ['I'], ['0', 'D'], ['0', 'E'], ['0', 'F'], ['0', 'G']]

/-- `d[key]` for a dict with keys that are texts. -/
def getKey {α : Type} (d : List (List Char × α)) (l : List Char) : Option α := d.lookup l

/-- `saids[label] = code` for a label that is in it. -/
def setCode (saids : Saids) (l code : List Char) : Saids := saids.map fun (p : List Char × List Char) => if p.1 = l then (l, code) else p

/-- mapping.py:592-595 and 622-625: the code of the primitive at the front of the value, or the given one.  For values that are not texts
`Matter(qb64=v)` raises. -/
def codeOf (dflt : List Char) (v : Val) : List Char :=
  match v with
  | .text t => match exfil t with
    | .ok m => m.code
    | .error _ => dflt
  | _ => dflt

/-- mapping.py:606: `Dummy * Matter.Sizes[code].fs`. -/
def dummyOf (code : List Char) : List Char :=
  match sizes? code with
  | some sz => match sz.fs with
    | some n => List.replicate n '#'
    | none => []
  | none => []

/-- mapping.py:584-609 with `dummy=True`: the body and the said codes. -/
def dummyFlds (strict : Bool) : Saids → Flds → Except Err (List Char × Saids)
  | saids, [] => .ok ([], saids)
  | saids, (l, v) :: fs => match serLabel strict l with
    | .error e => .error e
    | .ok x => match getKey saids l with
      | none => match serVal strict v with
        | .error e => .error e
        | .ok a => match dummyFlds strict saids fs with
          | .error e => .error e
          | .ok (b, s) => .ok (x ++ (a ++ b), s)
      | some d =>
        if codeOf d v ∉ digDex then .error .serialize
        else match dummyFlds strict (setCode saids l (codeOf d v)) fs with
          | .error e => .error e
          | .ok (b, s) => .ok (x ++ (dummyOf (codeOf d v) ++ b), s)

/-- mapping.py:620-638: the map with dummies in place and the said codes.  The message at 630 refers to an unbound name: UnboundLocalError. -/
def dummyMad : List (List Char) → Saids → Flds → Except Err (Flds × Saids)
  | [], saids, mad => .ok (mad, saids)
  | l :: ls, saids, mad => match getKey mad l, getKey saids l with
    | some v, some d =>
      if codeOf d v ∉ digDex then .error .unboundLocal
      else dummyMad ls (setCode saids l (codeOf d v)) (setField mad l (.text (dummyOf (codeOf d v))))
    | _, _ => dummyMad ls saids mad

/-- mapping.py:567-653 `_exhale(mad, dummy=True, kind=kind)`: the serialization, the map as it is left, and the said codes as they are left. -/
def exhaleDummy (w : World) (kind : Kind) (strict : Bool) (saids : Saids) (mad : Flds) : Except Err (List Char × Flds × Saids) :=
  match kind with
  | .cesr => match dummyFlds strict saids mad with
    | .error e => .error e
    | .ok (b, s) => match Ctr.encloseText .v2 mapCode b with
      | .error e => .error e
      | .ok raw => .ok (raw, mad, s)
  | .other => match dummyMad (saids.map (·.1)) saids mad with
    | .error e => .error e
    | .ok (mad', s) => match w.dumps mad' with
      | .error e => .error e
      | .ok raw => .ok (raw, mad', s)

/-- mapping.py:567-653 `_exhale(mad, kind=kind)`. -/
def exhaleKind (w : World) (kind : Kind) (strict : Bool) (mad : Flds) : Except Err (List Char) :=
  match kind with
  | .cesr => exhale strict mad
  | .other => w.dumps mad

/-- coring.py:3534-3574 `Diger(ser=ser, code=code).qb64`. -/
def digestOf (w : World) (code ser : List Char) : Except Err (List Char) :=
  if ser = [] then .error .emptyMaterial
  else if code ∉ digDex then .error .invalidCode
  else qb64Of (make code [] (w.hash code ser) none)

/-- mapping.py:219-222. -/
def putSaids (w : World) (ser : List Char) : Saids → Flds → Except Err Flds
  | [], mad => .ok mad
  | (l, c) :: r, mad => match getKey mad l with
    | none => putSaids w ser r mad
    | some _ => match digestOf w c ser with
      | .error e => .error e
      | .ok said => putSaids w ser r (setField mad l (.text said))

/-- mapping.py:216-227 with `makify` and `saidive`: the serialization, the map and the said codes. -/
def makify (w : World) (kind : Kind) (strict : Bool) (saids : Saids) (mad : Flds) : Except Err (List Char × Flds × Saids) :=
  match exhaleDummy w kind strict saids mad with
  | .error e => .error e
  | .ok (ser, mad1, saids1) => match putSaids w ser saids1 mad1 with
    | .error e => .error e
    | .ok mad2 => match exhaleKind w kind strict mad2 with
      | .error e => .error e
      | .ok raw => .ok (raw, mad2, saids1)

/-- mapping.py:266-273. -/
def checkSaids (w : World) (ser : List Char) : Saids → Flds → Except Err Unit
  | [], _ => .ok ()
  | (l, c) :: r, mad => match getKey mad l with
    | none => checkSaids w ser r mad
    | some v => match digestOf w c ser with
      | .error e => .error e
      | .ok said => match v with
        | .text t => if t = said then checkSaids w ser r mad else .error .invalidValue
        | _ => .error .invalidValue

/-- mapping.py:263-273 with `saidive`, `verify` and not `makify`. -/
def verify (w : World) (kind : Kind) (strict : Bool) (saids : Saids) (mad : Flds) : Except Err Unit :=
  match exhaleDummy w kind strict saids mad with
  | .error e => .error e
  | .ok (ser, _, saids1) => checkSaids w ser saids1 mad

/-- `Mapper(mad=mad, saids=saids, saidive=True, strict=strict, kind=kind)`, verifying: the serialization. -/
def fromMad (w : World) (kind : Kind) (strict : Bool) (saids : Saids) (mad : Flds) : Except Err (List Char) :=
  match exhaleKind w kind strict mad with
  | .error e => .error e
  | .ok raw => match verify w kind strict saids mad with
    | .error e => .error e
    | .ok () => .ok raw

/-- `Mapper(raw=raw, saids=saids, saidive=True, strict=strict)`, verifying, native CESR: the map and the rest of the stream. -/
def fromRaw (env : Env) (w : World) (strict : Bool) (saids : Saids) (raw : List Char) : Except Err (Flds × List Char) :=
  match fromText env strict raw with
  | .error e => .error e
  | .ok (mad, rest) => match verify w .cesr strict saids mad with
    | .error e => .error e
    | .ok () => .ok (mad, rest)

end Verif.Mad
