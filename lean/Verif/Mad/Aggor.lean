import Verif.Mad.Compact

/-!
# Model of `Aggor` (src/keri/core/mapping.py 1157-1802): lists whose elements are disclosed selectively

An element is a map or a text.  Texts have one character per byte, as in `Model`.
-/

namespace Verif.Mad

open Verif.B64 Verif.Matter

/-- Besides the digest functions, `json.dumps`, `msgpack.dumps` or `cbor.dumps` of a list, mapping.py:1749-1756. -/
structure AWorld extends World where
  dumpsL : List Val → Except Err (List Char)

/-- `Diger(qb64=t).qb64` (coring.py:3534-3574): the digest at the front of the text. -/
def digElem (t : List Char) : Except Err (List Char) :=
  match exfil t with
  | .error e => .error e
  | .ok m => if m.code ∉ digDex then .error .invalidCode else infil m

/-- mapping.py:1725-1740: the elements in native CESR.  Texts are taken as they are. -/
def exhaleElems (strict : Bool) : List Val → Except Err (List Char)
  | [] => .ok []
  | .map fs :: r => match exhale strict fs with
    | .error _ => .error .serialize
    | .ok a => match exhaleElems strict r with
      | .error e => .error e
      | .ok b => .ok (a ++ b)
  | .text t :: r => match exhaleElems strict r with
    | .error e => .error e
    | .ok b => .ok (t ++ b)
  | _ :: _ => .error .serialize

/-- mapping.py:1706-1761 `_exhale`. -/
def exhaleList (w : AWorld) (kind : Kind) (strict : Bool) (vs : List Val) : Except Err (List Char) :=
  match kind with
  | .cesr => match exhaleElems strict vs with
    | .error e => .error e
    | .ok b => Ctr.encloseText .v2 listCode b
  | .other => w.dumpsL vs

/-- mapping.py:1335-1358, after the zeroth element: the compact elements, and the elements as they are left. -/
def makeElems (w : AWorld) (kind : Kind) (strict : Bool) (saids : Saids) : List Val → Except Err (List Val × List Val)
  | [] => .ok ([], [])
  | .map fs :: r => match makify w.toWorld kind strict saids fs with
    | .error _ => .error .invalidValue
    | .ok (_, fs1, _) => match makeElems w kind strict saids r with
      | .error e => .error e
      | .ok (c, a) => .ok (saidVal saids fs1 :: c, .map fs1 :: a)
  | .text t :: r => match digElem t with
    | .error _ => .error .invalidValue
    | .ok q => match makeElems w kind strict saids r with
      | .error e => .error e
      | .ok (c, a) => .ok (.text q :: c, .text q :: a)
  | _ :: _ => .error .invalidValue

/-- mapping.py:1322-1371 with `makify`: the serialization and the elements with their SAIDs and the aggregate in place. -/
def aggMake (w : AWorld) (kind : Kind) (strict : Bool) (saids : Saids) (code : List Char) (ael : List Val) : Except Err (List Char × List Val) :=
  match ael with
  | [] => match exhaleList w kind strict [] with
    | .error e => .error e
    | .ok raw => .ok (raw, [])
  | .text _ :: r => match makeElems w kind strict saids r with
    | .error e => .error e
    | .ok (c, a) => match exhaleList w kind strict (.text (dummyOf code) :: c) with
      | .error e => .error e
      | .ok ser => match digestOf w.toWorld code ser with
        | .error e => .error e
        | .ok agid => match exhaleList w kind strict (.text agid :: a) with
          | .error e => .error e
          | .ok raw => .ok (raw, .text agid :: a)
  | _ :: _ => .error .invalidValue

/-- mapping.py:1420-1440, after the zeroth element: the compact elements; each map must verify. -/
def checkElems (w : AWorld) (kind : Kind) (strict : Bool) (saids : Saids) : List Val → Except Err (List Val)
  | [] => .ok []
  | .map fs :: r => match fromMad w.toWorld kind strict saids fs with
    | .error _ => .error .invalidValue
    | .ok _ => match checkElems w kind strict saids r with
      | .error e => .error e
      | .ok c => .ok (saidVal saids fs :: c)
  | .text t :: r => match digElem t with
    | .error _ => .error .invalidValue
    | .ok q => match checkElems w kind strict saids r with
      | .error e => .error e
      | .ok c => .ok (.text q :: c)
  | _ :: _ => .error .invalidValue

/-- mapping.py:1410-1443: what the aggregate is a digest of. -/
def aggSer (w : AWorld) (kind : Kind) (strict : Bool) (saids : Saids) (code : List Char) (r : List Val) : Except Err (List Char) :=
  match checkElems w kind strict saids r with
  | .error e => .error e
  | .ok c => exhaleList w kind strict (.text (dummyOf code) :: c)

/-- mapping.py:1409-1448 with `verify` and not `makify`. -/
def aggVerify (w : AWorld) (kind : Kind) (strict : Bool) (saids : Saids) (code : List Char) (ael : List Val) : Except Err Unit :=
  match ael with
  | [] => match exhaleList w kind strict [] with
    | .error e => .error e
    | .ok _ => .ok ()
  | .text agid :: r => match aggSer w kind strict saids code r with
    | .error e => .error e
    | .ok ser => match digestOf w.toWorld code ser with
      | .error e => .error e
      | .ok d => if agid = d then .ok () else .error .invalidValue
  | _ :: _ => .error .invalidValue

/-- `Aggor(ael=ael, …)`, verifying: the serialization. -/
def aggFrom (w : AWorld) (kind : Kind) (strict : Bool) (saids : Saids) (code : List Char) (ael : List Val) : Except Err (List Char) :=
  match exhaleList w kind strict ael with
  | .error e => .error e
  | .ok raw => match aggVerify w kind strict saids code ael with
    | .error e => .error e
    | .ok () => .ok raw

/-- mapping.py:1229-1261 `verifyDisclosure`; the class is instantiated with `strict` as by default.  An empty list raises IndexError. -/
def verifyDisclosure (w : AWorld) (kind : Kind) (saids : Saids) (code : List Char) (ael : List Val) : Except Err Bool :=
  match aggFrom w kind true saids code ael with
  | .error _ => .ok false
  | .ok _ => match ael with
    | [] => .error .indexError
    | _ :: _ => .ok true

/-- mapping.py:1764-1802 `disclose`; the second argument is the index of the first element. -/
def discloseFrom (w : AWorld) (kind : Kind) (strict : Bool) (saids : Saids) (indices : List Int) : Nat → List Val → Except Err (List Val)
  | _, [] => .ok []
  | i, .map fs :: r => match fromMad w.toWorld kind strict saids fs with
    | .error _ => .error .valueError
    | .ok _ => match discloseFrom w kind strict saids indices (i + 1) r with
      | .error e => .error e
      | .ok d => .ok ((if indices.contains (i : Int) then .map fs else saidVal saids fs) :: d)
  | i, .text t :: r => match digElem t with
    | .error _ => .error .valueError
    | .ok q => match discloseFrom w kind strict saids indices (i + 1) r with
      | .error e => .error e
      | .ok d => .ok (.text q :: d)
  | _, _ :: _ => .error .valueError

/-- mapping.py:1764-1802. -/
def disclose (w : AWorld) (kind : Kind) (strict : Bool) (saids : Saids) (ael : List Val) (indices : List Int) : Except Err (List Val) :=
  discloseFrom w kind strict saids indices 0 ael

/-- mapping.py:1643-1670, the elements in native CESR.  The first argument bounds the work; `aggInhale` gives the length of the input. -/
def inhaleElems (env : Env) (strict : Bool) : Nat → List Char → Except Err (List Val)
  | 0, _ => .error .recursion
  | _ + 1, [] => .ok []
  | n + 1, c0 :: r0 =>
    if c0 = '-' then
      match Ctr.exfil .v2 (c0 :: r0) with
      | .error e => .error e
      | .ok c =>
        if !isMapCtr c then .error .deserialize
        else match fromText env strict (c0 :: r0) with
          | .error _ => .error .deserialize
          | .ok (mad, r) => match inhaleElems env strict n r with
            | .error e => .error e
            | .ok vs => .ok (.map mad :: vs)
    else match takeMat (c0 :: r0) with
      | .error _ => .error .deserialize
      | .ok (m, r) =>
        if m.code ∉ digDex then .error .deserialize
        else match infil m with
          | .error e => .error e
          | .ok q => match inhaleElems env strict n r with
            | .error e => .error e
            | .ok vs => .ok (.text q :: vs)

/-- mapping.py:1610-1670 `_inhale` for native CESR. -/
def aggInhale (env : Env) (strict : Bool) (ser : List Char) : Except Err (List Val) :=
  match takeCtr ser with
  | .error e => .error e
  | .ok (c, r) =>
    if !isListCtr c then .error .deserialize
    else if r.length ≠ c.count * 4 then .error .deserialize
    else inhaleElems env strict (r.length + 1) r

/-- mapping.py:1374-1384, 1402-1405 and 1409-1448, `Aggor(raw=…)` for native CESR, verifying: the elements and the rest of the stream. -/
def aggFromRaw (env : Env) (w : AWorld) (strict : Bool) (saids : Saids) (code raw : List Char) : Except Err (List Val × List Char) :=
  match Ctr.exfil .v2 raw with
  | .error e => .error e
  | .ok c => match Ctr.fullSize .v2 c with
    | .error e => .error e
    | .ok n => match aggInhale env strict (raw.take (Ctr.byteCountText c + n)) with
      | .error e => .error e
      | .ok ael => match aggVerify w .cesr strict saids code ael with
        | .error e => .error e
        | .ok () => .ok (ael, raw.drop (Ctr.byteCountText c + n))

end Verif.Mad
