import Verif.Mad.Labeler
import Verif.Codec.Counter

/-!
# Model of `Mapper` (src/keri/core/mapping.py 104-708), native CESR serialization

A value is what `Mapper` serializes: `None`, a bool, a number, a text, a list, a map.  A number is represented by its printed form `f"{val}"`.
`bytes` values are not distinguished from texts.  Python's recursion limit is not modelled.  The exception classes wrapped at 480 and 610 are the wrapped ones.
-/

namespace Verif.Mad

open Verif.B64 Verif.Matter

inductive Val where
  | null
  | bool (b : Bool)
  | num (dns : List Char)
  | text (t : List Char)
  | list (vs : List Val)
  | map (fs : List (List Char × Val))

/-- The fields of a map in order.  A Python dict has each label once. -/
abbrev Flds := List (List Char × Val)

/-- mapping.py:39-74 `EscapeDex`. -/
def escapeDex : List (List Char) :=
  [['1', 'A', 'A', 'O'], ['1', 'A', 'A', 'K'], ['1', 'A', 'A', 'L'], ['1', 'A', 'A', 'M']] ++ decDex ++
  [['1', 'A', 'A', 'P'],
   ['0', 'J'], ['0', 'K'], ['X'], ['1', 'A', 'A', 'F'], ['0', 'L'], ['0', 'M'], ['Y'], ['1', 'A', 'A', 'N'], ['0', 'N'], ['0', 'O'], ['Z'],
   ['4', 'A'], ['5', 'A'], ['6', 'A'], ['7', 'A', 'A', 'A'], ['8', 'A', 'A', 'A'], ['9', 'A', 'A', 'A'],
   ['V'], ['W'], ['4', 'B'], ['5', 'B'], ['6', 'B'], ['7', 'A', 'A', 'B'], ['8', 'A', 'A', 'B'], ['9', 'A', 'A', 'B']]

/-- `.qb64b` of what has been constructed. -/
def qb64Of (r : Except Err Mat) : Except Err (List Char) :=
  match r with
  | .error e => .error e
  | .ok m => infil m

/-- `Matter(raw=b'', code=code).qb64b` (mapping.py:668, 671, 673, 687). -/
def bare (code : List Char) : Except Err (List Char) := qb64Of (make code [] [] none)

/-- mapping.py:676-688, a text value: verbatim if it is a complete primitive, escaped if the primitive is one that has another meaning. -/
def serText (t : List Char) : Except Err (List Char) :=
  match exfil t with
  | .error _ => qb64Of (mkText t)
  | .ok m =>
    match infil m with
    | .error e => .error e
    | .ok q =>
      if q.length ≠ t.length then qb64Of (mkText t)
      else if m.code ∈ escapeDex then
        match bare ['1', 'A', 'A', 'O'] with
        | .error e => .error e
        | .ok x => .ok (x ++ q)
      else .ok q

/-- mapping.py:586-589 and 692-695, a label. -/
def serLabel (strict : Bool) (l : List Char) : Except Err (List Char) := qb64Of (if strict then mkLabel l else mkText l)

/-- counting.py:222-223 codes of `GenericMapGroup` and `GenericListGroup`. -/
def mapCode : List Char := ['-', 'I']
def listCode : List Char := ['-', 'J']

mutual
/-- mapping.py:656-708 `_serialize`. -/
def serVal (strict : Bool) : Val → Except Err (List Char)
  | .null => bare ['1', 'A', 'A', 'K']
  | .bool true => bare ['1', 'A', 'A', 'M']
  | .bool false => bare ['1', 'A', 'A', 'L']
  | .num dns => qb64Of (mkDecimer dns)
  | .text t => serText t
  | .list vs => match serVals strict vs with
    | .error e => .error e
    | .ok b => Ctr.encloseText .v2 listCode b
  | .map fs => match serFlds strict fs with
    | .error e => .error e
    | .ok b => Ctr.encloseText .v2 mapCode b

/-- mapping.py:701-702. -/
def serVals (strict : Bool) : List Val → Except Err (List Char)
  | [] => .ok []
  | v :: vs => match serVal strict v with
    | .error e => .error e
    | .ok a => match serVals strict vs with
      | .error e => .error e
      | .ok b => .ok (a ++ b)

/-- mapping.py:691-696. -/
def serFlds (strict : Bool) : List (List Char × Val) → Except Err (List Char)
  | [] => .ok []
  | (l, v) :: fs => match serLabel strict l with
    | .error e => .error e
    | .ok x => match serVal strict v with
      | .error e => .error e
      | .ok a => match serFlds strict fs with
        | .error e => .error e
        | .ok b => .ok (x ++ (a ++ b))
end

/-- mapping.py:567-615 `_exhale(mad, dummy=False)` for native CESR: the raw serialization. -/
def exhale (strict : Bool) (mad : Flds) : Except Err (List Char) := serVal strict (.map mad)

/-- `mad[label] = value` for a dict. -/
def setField (fs : Flds) (l : List Char) (v : Val) : Flds :=
  match fs with
  | [] => [(l, v)]
  | (k, w) :: r => if k = l then (k, v) :: r else (k, w) :: setField r l v

/-- The dict built by assigning the pairs in order. -/
def dictOf (ps : List (List Char × Val)) : Flds := ps.foldl (fun fs p => setField fs p.1 p.2) []

/-- `Counter(qb64b=ser, strip=True)`: the counter at the front and what is left (counting.py:868-871). -/
def takeCtr (s : List Char) : Except Err (Ctr.Counter × List Char) :=
  match Ctr.exfil .v2 s with
  | .error e => .error e
  | .ok c => match Ctr.fullSize .v2 c with
    | .error e => .error e
    | .ok n => .ok (c, s.drop n)

/-- mapping.py:464, 532: the names `GenericMapGroup`, `BigGenericMapGroup`. -/
def isMapCtr (c : Ctr.Counter) : Bool := c.code = ['-', 'I'] || c.code = ['-', '-', 'I']
/-- mapping.py:524: the names `GenericListGroup`, `BigGenericListGroup`. -/
def isListCtr (c : Ctr.Counter) : Bool := c.code = ['-', 'J'] || c.code = ['-', '-', 'J']

/-- mapping.py:475-478 and 538-541, the label at the front. -/
def takeLabel (env : Env) (strict : Bool) (s : List Char) : Except Err (List Char × List Char) :=
  match takeLabeler s with
  | .error e => .error e
  | .ok (m, r) =>
    match (if strict then labelOf env m else textOf env m) with
    | .error e => .error e
    | .ok l => .ok (l, r)

/-- mapping.py:547-562, a primitive value and what is left. -/
def deserPrim (env : Env) (s : List Char) : Except Err (Val × List Char) :=
  match takeMat s with
  | .error e => .error e
  | .ok (m, r) =>
    if m.code = ['1', 'A', 'A', 'O'] then
      match takeMat r with
      | .error e => .error e
      | .ok (m2, r2) => match infil m2 with
        | .error e => .error e
        | .ok q => .ok (.text q, r2)
    else if m.code = ['1', 'A', 'A', 'K'] then .ok (.null, r)
    else if m.code = ['1', 'A', 'A', 'M'] then .ok (.bool true, r)
    else if m.code = ['1', 'A', 'A', 'L'] then .ok (.bool false, r)
    else if m.code ∈ decDex then
      match dnsOf m with
      | .error e => .error e
      | .ok d => match env.norm d with
        | none => .error .valueError
        | some d' => .ok (.num d', r)
    else if m.code ∈ labelDex then
      match textOf env m with
      | .error e => .error e
      | .ok t => .ok (.text t, r)
    else match infil m with
      | .error e => .error e
      | .ok q => .ok (.text q, r)

mutual
/-- mapping.py:512-564 `_deserialize`: the value at the front and what is left.  The first argument bounds the work; `inhale` gives the length of the
input, which is enough (`c116_enough`). -/
def deser (env : Env) (strict : Bool) : Nat → List Char → Except Err (Val × List Char)
  | 0, _ => .error .recursion
  | _ + 1, [] => .error .indexError
  | n + 1, c0 :: r0 =>
    if c0 = '-' then
      match takeCtr (c0 :: r0) with
      | .error e => .error e
      | .ok (c, r) =>
        if isListCtr c then
          match deserVals env strict n (r.take (Ctr.byteCountText c)) with
          | .error e => .error e
          | .ok vs => .ok (.list vs, r.drop (Ctr.byteCountText c))
        else if isMapCtr c then
          match deserFlds env strict n (r.take (Ctr.byteCountText c)) with
          | .error e => .error e
          | .ok ps => .ok (.map (dictOf ps), r.drop (Ctr.byteCountText c))
        else .error .deserialize
    else deserPrim env (c0 :: r0)

/-- mapping.py:529-530. -/
def deserVals (env : Env) (strict : Bool) : Nat → List Char → Except Err (List Val)
  | 0, _ => .error .recursion
  | _ + 1, [] => .ok []
  | n + 1, c0 :: r0 => match deser env strict n (c0 :: r0) with
    | .error e => .error e
    | .ok (v, r) => match deserVals env strict n r with
      | .error e => .error e
      | .ok vs => .ok (v :: vs)

/-- mapping.py:473-479 and 537-542, the pairs in order. -/
def deserFlds (env : Env) (strict : Bool) : Nat → List Char → Except Err (List (List Char × Val))
  | 0, _ => .error .recursion
  | _ + 1, [] => .ok []
  | n + 1, c0 :: r0 => match takeLabel env strict (c0 :: r0) with
    | .error e => .error e
    | .ok (l, r1) => match deser env strict n r1 with
      | .error e => .error e
      | .ok (v, r) => match deserFlds env strict n r with
        | .error e => .error e
        | .ok ps => .ok ((l, v) :: ps)
end

/-- mapping.py:439-481 `_inhale` for native CESR. -/
def inhale (env : Env) (strict : Bool) (ser : List Char) : Except Err Flds :=
  match takeCtr ser with
  | .error e => .error e
  | .ok (c, r) =>
    if !isMapCtr c then .error .deserialize
    else if r.length ≠ c.count * 4 then .error .deserialize
    else match deserFlds env strict (r.length + 1) r with
      | .error e => .error e
      | .ok ps => .ok (dictOf ps)

/-- mapping.py:230-239 and 257, `Mapper(raw=…, verify=False)` for native CESR: the map and the rest of the stream (`strip`). -/
def fromText (env : Env) (strict : Bool) (raw : List Char) : Except Err (Flds × List Char) :=
  match Ctr.exfil .v2 raw with
  | .error e => .error e
  | .ok c => match Ctr.fullSize .v2 c with
    | .error e => .error e
    | .ok n => match inhale env strict (raw.take (Ctr.byteCountText c + n)) with
      | .error e => .error e
      | .ok mad => .ok (mad, raw.drop (Ctr.byteCountText c + n))

/-- mapping.py:243-249, `Mapper(qb2=…, verify=False)`. -/
def fromBinary (env : Env) (strict : Bool) (qb2 : List Nat) : Except Err (Flds × List Nat) :=
  match Ctr.bexfil .v2 qb2 with
  | .error e => .error e
  | .ok c => match Ctr.fullSize .v2 c with
    | .error e => .error e
    | .ok n => match inhale env strict (encodeB64 (qb2.take (Ctr.byteCountBinary c + n * 3 / 4))) with
      | .error e => .error e
      | .ok mad => .ok (mad, qb2.drop (Ctr.byteCountBinary c + n * 3 / 4))

/-- mapping.py:313-324 `Mapper.qb2`. -/
def qb2Of (raw : List Char) : Except Err (List Nat) := decodeB64 raw

end Verif.Mad
