import Verif.Prs.Model

/-!
# Writing attachment groups

Primitives, counters and groups as bytes, in text or in binary.  This is the other side of the parser: `Counter.enclose` and the loops over
primitives that `messagize` (core/eventing.py:1563-1937) and others repeat for every list of attachments.
-/

namespace Verif.Prs

open Verif.Matter (Mat)
open Verif.Idr (Ixr)
open Verif.Ctr (Ver Counter)

/-- Text or binary. -/
def coldOf (bin : Bool) : Cold := if bin then .bny else .txt

/-- `qb64b` or `qb2` of a primitive (coring.py:1164-1190). -/
def writeMat (bin : Bool) (m : Mat) : Except Err Bytes := if bin then Verif.Matter.binfil m else (Verif.Matter.infil m).map asc

/-- `qb64b` or `qb2` of an indexed signature. -/
def writeSig (bin : Bool) (m : Ixr) : Except Err Bytes := if bin then Verif.Idr.binfil m else (Verif.Idr.infil m).map asc

/-- `qb64b` or `qb2` of a counter. -/
def writeCtr (v : Ver) (bin : Bool) (c : Counter) : Except Err Bytes := if bin then Verif.Ctr.binfil v c else (Verif.Ctr.infil v c).map asc

/-- `Counter(code, count=…).qb64b` or `.qb2`. -/
def counted (v : Ver) (bin : Bool) (code : List Char) (count : Nat) : Except Err Bytes :=
  match Verif.Ctr.make v code count with
  | .error e => .error e
  | .ok c => writeCtr v bin c

/-- Bytes in a quadlet or triplet. -/
def unit (bin : Bool) : Nat := if bin then 3 else 4

/-- counting.py:723-779 `enclose`, on bytes. -/
def enclose (v : Ver) (bin : Bool) (code : List Char) (content : Bytes) : Except Err Bytes :=
  if content.length % unit bin ≠ 0 then .error .valueError
  else match Verif.Ctr.make v code ((content.length / unit bin : Nat) : Int) with
    | .error e => .error e
    | .ok c =>
      if v = .v1 ∧ c.code ∉ Verif.Ctr.quadCodes then .error .valueError
      else match writeCtr v bin c with
        | .error e => .error e
        | .ok t => .ok (t ++ content)

/-- One after the other. -/
def cat {α : Type} (w : α → Except Err Bytes) : List α → Except Err Bytes
  | [] => .ok []
  | a :: as => match w a with
    | .error e => .error e
    | .ok b => match cat w as with
      | .error e => .error e
      | .ok bs => .ok (b ++ bs)

/-- The signatures at the end of an element: none, one, or a group (core/eventing.py:1655-1658 for version 1, 1805-1810 for version 2). -/
def writeSigs (v : Ver) (bin : Bool) : Tail → List Ixr → Except Err Bytes
  | .none, _ => .ok []
  | .one, ss => cat (writeSig bin) ss
  | .group, ss => match cat (writeSig bin) ss with
    | .error e => .error e
    | .ok b => match v with
      | .v1 => match counted .v1 bin ['-', 'A'] ss.length with
        | .error e => .error e
        | .ok c => .ok (c ++ b)
      | .v2 => enclose .v2 bin ['-', 'K'] b

/-- One element: its primitives, then its signatures. -/
def writeElem (v : Ver) (bin : Bool) (m : Meth) (e : Elem) : Except Err Bytes :=
  match cat (writeMat bin) e.mats with
  | .error x => .error x
  | .ok a => match writeSigs v bin m.tail e.sigs with
    | .error x => .error x
    | .ok b => .ok (a ++ b ++ e.blob)

/-- A group with its counter: the counter counts the elements (e.g. core/eventing.py:1646-1658) or encloses them (e.g. 1797-1814). -/
def writeGroup (v : Ver) (bin : Bool) (code : List Char) (m : Meth) (es : List Elem) : Except Err Bytes :=
  match cat (writeElem v bin m) es with
  | .error e => .error e
  | .ok b => match m.mode with
    | .counted => match counted v bin code es.length with
      | .error e => .error e
      | .ok c => .ok (c ++ b)
    | _ => enclose v bin code b

end Verif.Prs
