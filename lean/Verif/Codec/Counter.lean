import Verif.Codec.Matter

/-!
# Model of `Counter` (src/keri/core/counting.py)

The `code` given to the constructor is its characters; names of codes (counting.py:835) are not modelled.  Only the two supported versions occur: the
version argument is checked by `tables`.
-/

namespace Verif.Ctr

open Verif.B64

/-- counting.py:419 `Cizage`: hard, soft and full size. -/
structure Cizage where
  hs : Nat
  ss : Nat
  fs : Nat
  deriving DecidableEq, Repr

/-- The versions with tables (counting.py:611-706). -/
inductive Ver where
  | v1 | v2
  deriving DecidableEq, Repr

/-- counting.py:816-827: the tables of the version asked for. -/
def tables (major minor : Nat) : Except Err Ver :=
  if major = 1 then if minor > 0 then .error .invalidVersion else .ok .v1
  else if major = 2 then if minor > 0 then .error .invalidVersion else .ok .v2
  else .error .invalidVersion

/-- counting.py:617-638. -/
def sizes1 : List (List Char × Cizage) := [
  (['-', 'A'], ⟨2, 2, 4⟩), (['-', 'B'], ⟨2, 2, 4⟩), (['-', 'C'], ⟨2, 2, 4⟩), (['-', 'D'], ⟨2, 2, 4⟩),
  (['-', 'E'], ⟨2, 2, 4⟩), (['-', 'F'], ⟨2, 2, 4⟩), (['-', 'G'], ⟨2, 2, 4⟩), (['-', 'H'], ⟨2, 2, 4⟩),
  (['-', 'I'], ⟨2, 2, 4⟩), (['-', 'L'], ⟨2, 2, 4⟩), (['-', '-', 'L'], ⟨3, 5, 8⟩), (['-', 'T'], ⟨2, 2, 4⟩),
  (['-', '-', 'T'], ⟨3, 5, 8⟩), (['-', 'U'], ⟨2, 2, 4⟩), (['-', '-', 'U'], ⟨3, 5, 8⟩), (['-', 'V'], ⟨2, 2, 4⟩),
  (['-', '-', 'V'], ⟨3, 5, 8⟩), (['-', 'W'], ⟨2, 2, 4⟩), (['-', '-', 'W'], ⟨3, 5, 8⟩), (['-', 'Z'], ⟨2, 2, 4⟩),
  (['-', '-', 'Z'], ⟨3, 5, 8⟩), (['-', '_', 'A', 'A', 'A'], ⟨5, 3, 8⟩)]

/-- counting.py:645-703. -/
def sizes2 : List (List Char × Cizage) := [
  (['-', 'A'], ⟨2, 2, 4⟩), (['-', '-', 'A'], ⟨3, 5, 8⟩), (['-', 'B'], ⟨2, 2, 4⟩), (['-', '-', 'B'], ⟨3, 5, 8⟩),
  (['-', 'C'], ⟨2, 2, 4⟩), (['-', '-', 'C'], ⟨3, 5, 8⟩), (['-', 'D'], ⟨2, 2, 4⟩), (['-', '-', 'D'], ⟨3, 5, 8⟩),
  (['-', 'E'], ⟨2, 2, 4⟩), (['-', '-', 'E'], ⟨3, 5, 8⟩), (['-', 'F'], ⟨2, 2, 4⟩), (['-', '-', 'F'], ⟨3, 5, 8⟩),
  (['-', 'G'], ⟨2, 2, 4⟩), (['-', '-', 'G'], ⟨3, 5, 8⟩), (['-', 'H'], ⟨2, 2, 4⟩), (['-', '-', 'H'], ⟨3, 5, 8⟩),
  (['-', 'I'], ⟨2, 2, 4⟩), (['-', '-', 'I'], ⟨3, 5, 8⟩), (['-', 'J'], ⟨2, 2, 4⟩), (['-', '-', 'J'], ⟨3, 5, 8⟩),
  (['-', 'K'], ⟨2, 2, 4⟩), (['-', '-', 'K'], ⟨3, 5, 8⟩), (['-', 'L'], ⟨2, 2, 4⟩), (['-', '-', 'L'], ⟨3, 5, 8⟩),
  (['-', 'M'], ⟨2, 2, 4⟩), (['-', '-', 'M'], ⟨3, 5, 8⟩), (['-', 'N'], ⟨2, 2, 4⟩), (['-', '-', 'N'], ⟨3, 5, 8⟩),
  (['-', 'O'], ⟨2, 2, 4⟩), (['-', '-', 'O'], ⟨3, 5, 8⟩), (['-', 'P'], ⟨2, 2, 4⟩), (['-', '-', 'P'], ⟨3, 5, 8⟩),
  (['-', 'Q'], ⟨2, 2, 4⟩), (['-', '-', 'Q'], ⟨3, 5, 8⟩), (['-', 'R'], ⟨2, 2, 4⟩), (['-', '-', 'R'], ⟨3, 5, 8⟩),
  (['-', 'S'], ⟨2, 2, 4⟩), (['-', '-', 'S'], ⟨3, 5, 8⟩), (['-', 'T'], ⟨2, 2, 4⟩), (['-', '-', 'T'], ⟨3, 5, 8⟩),
  (['-', 'U'], ⟨2, 2, 4⟩), (['-', '-', 'U'], ⟨3, 5, 8⟩), (['-', 'V'], ⟨2, 2, 4⟩), (['-', '-', 'V'], ⟨3, 5, 8⟩),
  (['-', 'W'], ⟨2, 2, 4⟩), (['-', '-', 'W'], ⟨3, 5, 8⟩), (['-', 'X'], ⟨2, 2, 4⟩), (['-', '-', 'X'], ⟨3, 5, 8⟩),
  (['-', 'Y'], ⟨2, 2, 4⟩), (['-', '-', 'Y'], ⟨3, 5, 8⟩), (['-', 'Z'], ⟨2, 2, 4⟩), (['-', '-', 'Z'], ⟨3, 5, 8⟩),
  (['-', 'a'], ⟨2, 2, 4⟩), (['-', '-', 'a'], ⟨3, 5, 8⟩), (['-', 'b'], ⟨2, 2, 4⟩), (['-', '-', 'b'], ⟨3, 5, 8⟩),
  (['-', 'c'], ⟨2, 2, 4⟩), (['-', '-', 'c'], ⟨3, 5, 8⟩), (['-', '_', 'A', 'A', 'A'], ⟨5, 3, 8⟩)]

/-- counting.py:611-706 `Counter.Sizes`. -/
def sizes : Ver → List (List Char × Cizage)
  | .v1 => sizes1
  | .v2 => sizes2

/-- `self._sizes[code]`. -/
def sizes? (v : Ver) (code : List Char) : Option Cizage := (sizes v).lookup code

/-- counting.py:86-112 `QTDex_1_0`: version 1 codes that count quadlets. -/
def quadCodes : List (List Char) := [['-', 'D'], ['-', 'L'], ['-', '-', 'L'], ['-', 'T'], ['-', '-', 'T'], ['-', 'U'], ['-', '-', 'U'], ['-', 'V'], ['-', '-', 'V'], ['-', 'W'], ['-', '-', 'W'], ['-', 'Z'], ['-', '-', 'Z']]

/-- counting.py:597-600 `Counter.Hards`, by the first two characters. -/
def hards (first : List Char) : Option Nat :=
  match first with
  | ['-', c] =>
    if c ∈ ['A', 'B', 'C', 'D', 'E', 'F', 'G', 'H', 'I', 'J', 'K', 'L', 'M', 'N', 'O', 'P', 'Q', 'R', 'S', 'T', 'U', 'V', 'W', 'X', 'Y', 'Z']
    then some 2
    else if c ∈ ['a', 'b', 'c', 'd', 'e', 'f', 'g', 'h', 'i', 'j', 'k', 'l', 'm', 'n', 'o', 'p', 'q', 'r', 's', 't', 'u', 'v', 'w', 'x', 'y', 'z']
    then some 2
    else if c = '-' then some 3
    else if c = '_' then some 5
    else none
  | _ => none

/-- counting.py:604 `Counter.Bards`: the keys are two characters converted to bytes. -/
def bards (first : List Nat) : Option Nat :=
  alphabet.findSome? fun c => if codeB64ToB2 ['-', c] = .ok first then hards ['-', c] else none

/-- A `Counter` instance. -/
structure Counter where
  code : List Char
  count : Nat
  deriving DecidableEq, Repr

/-- counting.py:851: second characters of codes whose count is not dynamic. -/
def fixedChars : List Char := ['0', '1', '2', '3', '4', '5', '6', '7', '8', '9', '_']

/-- counting.py:856-859: a small code with a large count becomes the large code. -/
def promote (code : List Char) (ss : Nat) (count : Int) : List Char × Nat :=
  if code.drop 1 |>.head? |>.any (· ∉ fixedChars) then
    if (code.drop 1).head? ≠ some '-' ∧ count > 64 ^ 2 - 1 then (['-', '-'] ++ ((code.drop 1).take 1), 5) else (code, ss)
  else (code, ss)

/-- counting.py:831-866 and 886, `Counter(code=…, count=…)`; at 886 the name of a promoted code that the table lacks raises KeyError.  The checks of the
table at 843 and 852 always pass (`table_wf` in CounterLemmas). -/
def make (v : Ver) (code : List Char) (count : Int) : Except Err Counter :=
  if code = [] then .error .emptyMaterial else
  match sizes? v code with
  | none => .error .invalidCode
  | some sz =>
    let p := promote code sz.ss count
    if count < 0 ∨ count > 64 ^ p.2 - 1 then .error .invalidVarIndex
    else match sizes? v p.1 with
      | none => .error .keyError
      | some _ => .ok ⟨p.1, count.toNat⟩

/-- counting.py:848-849: the count from `count`, else from `countB64`, else 1. -/
def countArg (count : Option Int) (countB64 : Option (List Char)) : Except Err Int :=
  match count with
  | some c => .ok c
  | none => match countB64 with
    | none => .ok 1
    | some s => (b64ToInt s).map Int.ofNat

/-- counting.py:971-978 `fullSize`. -/
def fullSize (v : Ver) (m : Counter) : Except Err Nat :=
  match sizes? v m.code with
  | none => .error .keyError
  | some sz => .ok sz.fs

/-- counting.py:1128-1150 `_infil`. -/
def infil (v : Ver) (m : Counter) : Except Err (List Char) :=
  match sizes? v m.code with
  | none => .error .keyError
  | some sz =>
    if m.count > 64 ^ sz.ss - 1 then .error .invalidVarIndex
    else
      let both := m.code ++ intToB64 m.count sz.ss
      if both.length % 4 ≠ 0 then .error .invalidCodeSize else .ok both

/-- counting.py:1153-1174 `_binfil`. -/
def binfil (v : Ver) (m : Counter) : Except Err (List Nat) :=
  match sizes? v m.code with
  | none => .error .keyError
  | some sz =>
    if m.count > 64 ^ sz.ss - 1 then .error .invalidVarIndex
    else
      let both := m.code ++ intToB64 m.count sz.ss
      if both.length ≠ sz.fs then .error .invalidCodeSize else codeB64ToB2 both

/-- counting.py:1177-1218 `_exfil`. -/
def exfil (v : Ver) (t : List Char) : Except Err Counter :=
  if t.length < 2 then .error .shortage
  else match hards (t.take 2) with
    | none => if t.head? = some '_' then .error .unexpectedOpCode else .error .unexpectedCode
    | some hs =>
      if t.length < hs then .error .shortage
      else match sizes? v (t.take hs) with
        | none => .error .unexpectedCode
        | some sz =>
          if t.length < sz.fs then .error .shortage
          else match b64ToInt ((t.drop sz.hs).take (sz.fs - sz.hs)) with
            | .error e => .error e
            | .ok count => .ok ⟨t.take hs, count⟩

/-- counting.py:1221-1257 `_bexfil`.  The comparison of an int with bytes at 1228 is always false. -/
def bexfil (v : Ver) (b : List Nat) : Except Err Counter :=
  if b.length < 2 then .error .shortage
  else match nabSextets b 2 with
    | .error e => .error e
    | .ok first => match bards first with
      | none => .error .unexpectedCode
      | some hs =>
        if b.length < sceil34 hs then .error .shortage
        else match codeB2ToB64 b hs with
          | .error e => .error e
          | .ok hard => match sizes? v hard with
            | none => .error .unexpectedCode
            | some sz =>
              if b.length < sceil34 sz.fs then .error .shortage
              else match codeB2ToB64 b sz.fs with
                | .error e => .error e
                | .ok both => match b64ToInt ((both.drop sz.hs).take (sz.fs - sz.hs)) with
                  | .error e => .error e
                  | .ok count => .ok ⟨hard, count⟩

/-- counting.py:745-763, `enclose(qb64=…)`. -/
def encloseText (v : Ver) (code : List Char) (content : List Char) : Except Err (List Char) :=
  if content.length % 4 ≠ 0 then .error .valueError
  else match make v code ((content.length / 4 : Nat) : Int) with
    | .error e => .error e
    | .ok m =>
      if v = .v1 ∧ m.code ∉ quadCodes then .error .valueError
      else match infil v m with
        | .error e => .error e
        | .ok t => .ok (t ++ content)

/-- counting.py:765-779, `enclose(qb2=…)`. -/
def encloseBinary (v : Ver) (code : List Char) (content : List Nat) : Except Err (List Nat) :=
  if content.length % 3 ≠ 0 then .error .valueError
  else match make v code ((content.length / 3 : Nat) : Int) with
    | .error e => .error e
    | .ok m =>
      if v = .v1 ∧ m.code ∉ quadCodes then .error .valueError
      else match binfil v m with
        | .error e => .error e
        | .ok t => .ok (t ++ content)

/-- counting.py:1022-1036 `byteCount`, in characters. -/
def byteCountText (m : Counter) : Nat := m.count * 4

/-- counting.py:1022-1036 `byteCount`, in bytes. -/
def byteCountBinary (m : Counter) : Nat := m.count * 3

/-- counting.py:1097-1100, end of `verToB64`. -/
def verToB64 (major minor : Int) : Except Err (List Char) :=
  if major < 0 ∨ major > 63 ∨ minor < 0 ∨ minor > 4095 then .error .valueError
  else .ok (intToB64 major.toNat 1 ++ intToB64 minor.toNat 2)

/-- counting.py:1119-1125 `b64ToVer`.  `b64[0]` of an empty string is an IndexError. -/
def b64ToVer (s : List Char) : Except Err (Nat × Nat) :=
  if reb64 s = false then .error .valueError
  else match s with
    | [] => .error .indexError
    | c :: tl => match b64ToInt [c] with
      | .error e => .error e
      | .ok major => match b64ToInt (tl.take 2) with
        | .error e => .error e
        | .ok minor => .ok (major, minor)

end Verif.Ctr
