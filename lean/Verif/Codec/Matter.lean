import Verif.Codec.B64

/-!
# Model of `Matter` (src/keri/core/coring.py 735-1515): sizes table, constructor, text and binary forms

Simplifications common to the whole file.
* Text is `List Char`; inputs are taken to be ASCII (a byte per character).  For non-ASCII input Python raises
  `UnicodeDecodeError`/`UnicodeEncodeError` (both `ValueError`s) at the places where bytes are decoded.
* `str`, `bytes`, `bytearray` and `memoryview` inputs are not distinguished.  `strip=True` (deleting the
  consumed prefix from the caller's buffer) is represented by `fullSize`.
* Python's `x != y - ls` with a possibly negative right side is written `x + ls ≠ y`.
-/

namespace Verif.Matter

open Verif.B64

/-- coring.py:660 `Sizage` namedtuple: hard, soft, xtra, full (None for variable), lead size. -/
structure Sizage where
  hs : Nat
  ss : Nat
  xs : Nat
  fs : Option Nat
  ls : Nat
  deriving DecidableEq, Repr

/-- `cs = hs + ss`, computed at the start of each method. -/
def Sizage.cs (sz : Sizage) : Nat := sz.hs + sz.ss

/-- coring.py:728-731 `Matter.Hards`: hard size by first character. -/
def hards (c : Char) : Option Nat :=
  if c ∈ ['A','B','C','D','E','F','G','H','I','J','K','L','M','N','O','P','Q','R','S','T','U','V','W','X','Y','Z']
  then some 1
  else if c ∈ ['a','b','c','d','e','f','g','h','i','j','k','l','m','n','o','p','q','r','s','t','u','v','w','x','y','z']
  then some 1
  else [('0', 2), ('1', 4), ('2', 4), ('3', 4), ('4', 2), ('5', 2), ('6', 2), ('7', 4), ('8', 4), ('9', 4)].lookup c

/-- coring.py:736 `Matter.Bards`: hard size by the binary form of the first character.  The dict is keyed by
`codeB64ToB2(c)`; the lookup searches the characters of the alphabet for one with that binary form. -/
def bards (first : List Nat) : Option Nat :=
  alphabet.findSome? fun c => if codeB64ToB2 [c] = .ok first then hards c else none

/-- coring.py:742-848 `Matter.Sizes`. -/
def sizes : List (List Char × Sizage) := [
  (['A'], ⟨1, 0, 0, some 44, 0⟩),
  (['B'], ⟨1, 0, 0, some 44, 0⟩),
  (['C'], ⟨1, 0, 0, some 44, 0⟩),
  (['D'], ⟨1, 0, 0, some 44, 0⟩),
  (['E'], ⟨1, 0, 0, some 44, 0⟩),
  (['F'], ⟨1, 0, 0, some 44, 0⟩),
  (['G'], ⟨1, 0, 0, some 44, 0⟩),
  (['H'], ⟨1, 0, 0, some 44, 0⟩),
  (['I'], ⟨1, 0, 0, some 44, 0⟩),
  (['J'], ⟨1, 0, 0, some 44, 0⟩),
  (['K'], ⟨1, 0, 0, some 76, 0⟩),
  (['L'], ⟨1, 0, 0, some 76, 0⟩),
  (['M'], ⟨1, 0, 0, some 4, 0⟩),
  (['N'], ⟨1, 0, 0, some 12, 0⟩),
  (['O'], ⟨1, 0, 0, some 44, 0⟩),
  (['P'], ⟨1, 0, 0, some 124, 0⟩),
  (['Q'], ⟨1, 0, 0, some 44, 0⟩),
  (['R'], ⟨1, 0, 0, some 8, 0⟩),
  (['S'], ⟨1, 0, 0, some 16, 0⟩),
  (['T'], ⟨1, 0, 0, some 20, 0⟩),
  (['U'], ⟨1, 0, 0, some 24, 0⟩),
  (['V'], ⟨1, 0, 0, some 4, 1⟩),
  (['W'], ⟨1, 0, 0, some 4, 0⟩),
  (['X'], ⟨1, 3, 0, some 4, 0⟩),
  (['Y'], ⟨1, 7, 0, some 8, 0⟩),
  (['Z'], ⟨1, 11, 0, some 12, 0⟩),
  (['a'], ⟨1, 0, 0, some 44, 0⟩),
  (['b'], ⟨1, 3, 0, some 8, 0⟩),
  (['0', 'A'], ⟨2, 0, 0, some 24, 0⟩),
  (['0', 'B'], ⟨2, 0, 0, some 88, 0⟩),
  (['0', 'C'], ⟨2, 0, 0, some 88, 0⟩),
  (['0', 'D'], ⟨2, 0, 0, some 88, 0⟩),
  (['0', 'E'], ⟨2, 0, 0, some 88, 0⟩),
  (['0', 'F'], ⟨2, 0, 0, some 88, 0⟩),
  (['0', 'G'], ⟨2, 0, 0, some 88, 0⟩),
  (['0', 'H'], ⟨2, 0, 0, some 8, 0⟩),
  (['0', 'I'], ⟨2, 0, 0, some 88, 0⟩),
  (['0', 'J'], ⟨2, 2, 1, some 4, 0⟩),
  (['0', 'K'], ⟨2, 2, 0, some 4, 0⟩),
  (['0', 'L'], ⟨2, 6, 1, some 8, 0⟩),
  (['0', 'M'], ⟨2, 6, 0, some 8, 0⟩),
  (['0', 'N'], ⟨2, 10, 1, some 12, 0⟩),
  (['0', 'O'], ⟨2, 10, 0, some 12, 0⟩),
  (['1', 'A', 'A', 'A'], ⟨4, 0, 0, some 48, 0⟩),
  (['1', 'A', 'A', 'B'], ⟨4, 0, 0, some 48, 0⟩),
  (['1', 'A', 'A', 'C'], ⟨4, 0, 0, some 80, 0⟩),
  (['1', 'A', 'A', 'D'], ⟨4, 0, 0, some 80, 0⟩),
  (['1', 'A', 'A', 'E'], ⟨4, 0, 0, some 156, 0⟩),
  (['1', 'A', 'A', 'F'], ⟨4, 4, 0, some 8, 0⟩),
  (['1', 'A', 'A', 'G'], ⟨4, 0, 0, some 36, 0⟩),
  (['1', 'A', 'A', 'H'], ⟨4, 0, 0, some 100, 0⟩),
  (['1', 'A', 'A', 'I'], ⟨4, 0, 0, some 48, 0⟩),
  (['1', 'A', 'A', 'J'], ⟨4, 0, 0, some 48, 0⟩),
  (['1', 'A', 'A', 'K'], ⟨4, 0, 0, some 4, 0⟩),
  (['1', 'A', 'A', 'L'], ⟨4, 0, 0, some 4, 0⟩),
  (['1', 'A', 'A', 'M'], ⟨4, 0, 0, some 4, 0⟩),
  (['1', 'A', 'A', 'N'], ⟨4, 8, 0, some 12, 0⟩),
  (['1', 'A', 'A', 'O'], ⟨4, 0, 0, some 4, 0⟩),
  (['1', 'A', 'A', 'P'], ⟨4, 0, 0, some 4, 0⟩),
  (['1', '_', '_', '-'], ⟨4, 2, 0, some 12, 0⟩),
  (['1', '_', '_', '_'], ⟨4, 0, 0, some 8, 0⟩),
  (['2', '_', '_', '-'], ⟨4, 2, 1, some 12, 1⟩),
  (['2', '_', '_', '_'], ⟨4, 0, 0, some 8, 1⟩),
  (['3', '_', '_', '-'], ⟨4, 2, 0, some 12, 2⟩),
  (['3', '_', '_', '_'], ⟨4, 0, 0, some 8, 2⟩),
  (['4', 'A'], ⟨2, 2, 0, none, 0⟩),
  (['5', 'A'], ⟨2, 2, 0, none, 1⟩),
  (['6', 'A'], ⟨2, 2, 0, none, 2⟩),
  (['7', 'A', 'A', 'A'], ⟨4, 4, 0, none, 0⟩),
  (['8', 'A', 'A', 'A'], ⟨4, 4, 0, none, 1⟩),
  (['9', 'A', 'A', 'A'], ⟨4, 4, 0, none, 2⟩),
  (['4', 'B'], ⟨2, 2, 0, none, 0⟩),
  (['5', 'B'], ⟨2, 2, 0, none, 1⟩),
  (['6', 'B'], ⟨2, 2, 0, none, 2⟩),
  (['7', 'A', 'A', 'B'], ⟨4, 4, 0, none, 0⟩),
  (['8', 'A', 'A', 'B'], ⟨4, 4, 0, none, 1⟩),
  (['9', 'A', 'A', 'B'], ⟨4, 4, 0, none, 2⟩),
  (['4', 'C'], ⟨2, 2, 0, none, 0⟩),
  (['5', 'C'], ⟨2, 2, 0, none, 1⟩),
  (['6', 'C'], ⟨2, 2, 0, none, 2⟩),
  (['7', 'A', 'A', 'C'], ⟨4, 4, 0, none, 0⟩),
  (['8', 'A', 'A', 'C'], ⟨4, 4, 0, none, 1⟩),
  (['9', 'A', 'A', 'C'], ⟨4, 4, 0, none, 2⟩),
  (['4', 'D'], ⟨2, 2, 0, none, 0⟩),
  (['5', 'D'], ⟨2, 2, 0, none, 1⟩),
  (['6', 'D'], ⟨2, 2, 0, none, 2⟩),
  (['7', 'A', 'A', 'D'], ⟨4, 4, 0, none, 0⟩),
  (['8', 'A', 'A', 'D'], ⟨4, 4, 0, none, 1⟩),
  (['9', 'A', 'A', 'D'], ⟨4, 4, 0, none, 2⟩),
  (['4', 'E'], ⟨2, 2, 0, none, 0⟩),
  (['5', 'E'], ⟨2, 2, 0, none, 1⟩),
  (['6', 'E'], ⟨2, 2, 0, none, 2⟩),
  (['7', 'A', 'A', 'E'], ⟨4, 4, 0, none, 0⟩),
  (['8', 'A', 'A', 'E'], ⟨4, 4, 0, none, 1⟩),
  (['9', 'A', 'A', 'E'], ⟨4, 4, 0, none, 2⟩),
  (['4', 'F'], ⟨2, 2, 0, none, 0⟩),
  (['5', 'F'], ⟨2, 2, 0, none, 1⟩),
  (['6', 'F'], ⟨2, 2, 0, none, 2⟩),
  (['7', 'A', 'A', 'F'], ⟨4, 4, 0, none, 0⟩),
  (['8', 'A', 'A', 'F'], ⟨4, 4, 0, none, 1⟩),
  (['9', 'A', 'A', 'F'], ⟨4, 4, 0, none, 2⟩),
  (['4', 'H'], ⟨2, 2, 0, none, 0⟩),
  (['5', 'H'], ⟨2, 2, 0, none, 1⟩),
  (['6', 'H'], ⟨2, 2, 0, none, 2⟩),
  (['7', 'A', 'A', 'H'], ⟨4, 4, 0, none, 0⟩),
  (['8', 'A', 'A', 'H'], ⟨4, 4, 0, none, 1⟩),
  (['9', 'A', 'A', 'H'], ⟨4, 4, 0, none, 2⟩)]

/-- `Matter.Sizes[code]`, `none` for KeyError. -/
def sizes? (code : List Char) : Option Sizage := sizes.lookup code

/-- A `Matter` instance: the three stored attributes. -/
structure Mat where
  code : List Char
  soft : List Char
  raw : List Nat
  deriving DecidableEq, Repr

/-- base64.urlsafe_b64encode (imported as `encodeB64`, coring.py:9), with `=` padding. -/
def encodeB64 : List Nat → List Char
  | [] => []
  | [a] => [chr (a / 4), chr (a % 4 * 16), '=', '=']
  | [a, b] => [chr (a / 4), chr (a % 4 * 16 + b / 16), chr (b % 16 * 4), '=']
  | a :: b :: c :: rest =>
    chr (a / 4) :: chr (a % 4 * 16 + b / 16) :: chr (b % 16 * 4 + c / 64) :: chr (c % 64) :: encodeB64 rest

/-- Value of a character for the decoder: base64.urlsafe_b64decode translates `-_` to `+/` and then uses the
standard alphabet, so both spellings are understood. -/
def decIdx (c : Char) : Option Nat :=
  if c = '+' then some 62 else if c = '/' then some 63 else idx c

/-- `binascii.a2b_base64` in non-strict mode (CPython 3.14 Modules/binascii.c): `q` position in the quad, `l`
left-over bits, `p` pads seen.  Characters outside the alphabet are skipped; a completed pad sequence ends the
parse; an incomplete quad at the end is an error. -/
def a2b : List Char → Nat → Nat → Nat → Except Err (List Nat)
  | [], q, _, _ => if q = 0 then .ok [] else .error .binasciiError
  | c :: cs, q, l, p =>
    if c = '=' then
      if 2 ≤ q then
        if 4 ≤ q + (p + 1) then .ok [] else a2b cs q l (p + 1)
      else a2b cs q l p
    else
      match decIdx c with
      | none => a2b cs q l p
      | some v =>
        if q = 0 then a2b cs 1 v 0
        else if q = 1 then (a2b cs 2 (v % 16) 0).map (fun r => (l * 4 + v / 16) :: r)
        else if q = 2 then (a2b cs 3 (v % 4) 0).map (fun r => (l * 16 + v / 4) :: r)
        else (a2b cs 0 0 0).map (fun r => (l * 64 + v) :: r)

/-- base64.urlsafe_b64decode (imported as `decodeB64`, coring.py:10). -/
def decodeB64 (s : List Char) : Except Err (List Nat) := a2b s 0 0 0

def zeros (n : Nat) : List Nat := List.replicate n 0

/-- `Matter.Pad * xs`, coring.py:853. -/
def pads (n : Nat) : List Char := List.replicate n '_'

/-- coring.py:856-867 `_rawSize` for a fixed size code. -/
def rawSize (sz : Sizage) (fs : Nat) : Nat := (fs - sz.cs) * 3 / 4 - sz.ls

/-- coring.py:350-384 `astuple(SmallVrzDex)`. -/
def smallVrz : List Char := ['4', '5', '6']
/-- coring.py:368-384 `astuple(LargeVrzDex)`. -/
def largeVrz : List Char := ['7', '8', '9']

/-- coring.py:970-1015, choice of code and soft for a variable size primitive of `rize` bytes. -/
def varCode (code : List Char) (rize : Nat) : Except Err (List Char × List Char) :=
  let ls := (3 - (rize % 3)) % 3
  let size := (rize + ls) / 3
  match code with
  | [] => .error .indexError
  | c0 :: ctail =>
    if c0 ∈ smallVrz then
      if size ≤ 64 ^ 2 - 1 then
        .ok (smallVrz.getD ls '4' :: ctail.take 1, intToB64 size 2)
      else if size ≤ 64 ^ 4 - 1 then
        .ok (largeVrz.getD ls '7' :: 'A' :: 'A' :: ctail.take 1, intToB64 size 4)
      else .error .invalidVarRawSize
    else if c0 ∈ largeVrz then
      if size ≤ 64 ^ 4 - 1 then
        .ok (largeVrz.getD ls '7' :: ctail.take 3, intToB64 size 4)
      else .error .invalidVarRawSize
    else .error .invalidVarRawSize

/-- coring.py:972-977, the raw size used for a variable size code. -/
def varRize (raw : List Nat) (rize : Option Int) : Except Err Nat :=
  match rize with
  | none => .ok raw.length
  | some r => if r = 0 then .ok raw.length
              else if r < 0 then .error .invalidVarRawSize else .ok r.toNat

/-- coring.py:1021-1030, the soft part of a fixed size code. -/
def fixedSoft (sz : Sizage) (soft : List Char) : Except Err (List Char) :=
  if 0 < sz.ss then
    let s := soft.take (sz.ss - sz.xs)
    if s.length ≠ sz.ss - sz.xs then .error .softMaterial
    else if !reb64 s then .error .invalidSoft
    else .ok s
  else .ok []

/-- coring.py:954-1042, `Matter(raw=..., code=..., soft=..., rize=...)`. -/
def make (code soft : List Char) (raw : List Nat) (rize : Option Int) : Except Err Mat :=
  if code = [] then .error .emptyMaterial else
  match sizes? code with
  | none => .error .invalidCode
  | some sz =>
    match sz.fs with
    | none =>
      match varRize raw rize with
      | .error e => .error e
      | .ok rz =>
        match varCode code rz with
        | .error e => .error e
        | .ok (code', soft') =>
          let raw' := raw.take rz
          if raw'.length ≠ rz then .error .rawMaterial else .ok ⟨code', soft', raw'⟩
    | some fs =>
      match fixedSoft sz soft with
      | .error e => .error e
      | .ok soft' =>
        let rz := rawSize sz fs
        let raw' := raw.take rz
        if raw'.length ≠ rz then .error .rawMaterial else .ok ⟨code, soft', raw'⟩

/-- coring.py:1043-1066, `Matter(code=..., soft=...)` with `raw` None and `soft` nonempty. -/
def makeSpecial (code soft : List Char) : Except Err Mat :=
  match sizes? code with
  | none => .error .keyError
  | some sz =>
    match sz.fs with
    | none => .error .invalidSoft
    | some fs =>
      if ¬ 0 < sz.ss ∨ (fs = sz.cs ∧ ¬ sz.ls = 0) then .error .invalidSoft else
      let s := soft.take (sz.ss - sz.xs)
      if s.length ≠ sz.ss - sz.xs then .error .softMaterial
      else if !reb64 s then .error .invalidSoft
      else .ok ⟨code, s, []⟩

/-- coring.py:1133-1149 `Matter.both`. -/
def both (sz : Sizage) (m : Mat) : List Char := m.code ++ (pads sz.xs ++ m.soft)

/-- coring.py:1120-1131 `Matter.size`, with the empty soft case (None) left to the caller. -/
def size (m : Mat) : Except Err Nat := b64ToInt m.soft

/-- coring.py:1152-1165 `Matter.fullSize`; `None * 4` is a TypeError. -/
def fullSize (m : Mat) : Except Err Nat :=
  match sizes? m.code with
  | none => .error .keyError
  | some sz =>
    match sz.fs with
    | some fs => .ok fs
    | none => if m.soft = [] then .error .typeError else do
      let n ← b64ToInt m.soft
      .ok (sz.cs + n * 4)

/-- coring.py:1250-1308 `_infil`, the `.qb64b` text.  `if cs != len(both)` at 1263 builds an exception without
raising it, so it has no effect. `fs` is never 0 in the table, so `not fs` is `fs = None`. -/
def infil (m : Mat) : Except Err (List Char) :=
  match sizes? m.code with
  | none => .error .keyError
  | some sz =>
    let rs := m.raw.length
    match sz.fs with
    | none =>
      if (sz.ls + rs) % 3 ≠ 0 ∨ sz.cs % 4 ≠ 0 then .error .invalidCodeSize else
      let full := both sz m ++ encodeB64 (zeros sz.ls ++ m.raw)
      if full.length % 4 ≠ 0 then .error .invalidCodeSize else .ok full
    | some fs =>
      let ps := (3 - ((rs + sz.ls) % 3)) % 3
      if ps ≠ sz.cs % 4 then .error .invalidCodeSize else
      let full := both sz m ++ (encodeB64 (zeros (ps + sz.ls) ++ m.raw)).drop ps
      if full.length % 4 ≠ 0 ∨ full.length ≠ fs then .error .invalidCodeSize else .ok full

/-- coring.py:1311-1337 `_binfil`, the `.qb2` bytes. -/
def binfil (m : Mat) : Except Err (List Nat) :=
  match sizes? m.code with
  | none => .error .keyError
  | some sz =>
    match b64ToInt (both sz m) with
    | .error e => .error e
    | .ok i =>
      match toBytes (i <<< (2 * (sz.cs % 4))) (sceil34 sz.cs) with
      | .error e => .error e
      | .ok bcode =>
        let full := bcode ++ (zeros sz.ls ++ m.raw)
        let fs := match sz.fs with
          | some fs => fs
          | none => sz.cs + (m.raw.length + sz.ls) * 4 / 3
        if full.length % 3 ≠ 0 ∨ full.length * 4 / 3 ≠ fs then .error .invalidCodeSize else .ok full

/-- coring.py:1396-1400 (and 1479-1485): full size in characters, from the table or from the soft part.
`b64ToInt('')` raises ValueError. -/
def framedSize (sz : Sizage) (soft : List Char) : Except Err Nat :=
  match sz.fs with
  | some fs => .ok fs
  | none => (b64ToInt soft).map (fun n => n * 4 + sz.cs)

/-- coring.py:1402-1428, end of `_exfil` once the full size `fs` is known. -/
def exfilRaw (qb64b hard soft : List Char) (sz : Sizage) (fs : Nat) : Except Err Mat :=
  if qb64b.length < fs then .error .shortage else
  let qb64b := qb64b.take fs
  let ps := sz.cs % 4
  match decodeB64 (List.replicate ps 'A' ++ qb64b.drop sz.cs) with
  | .error e => .error e
  | .ok paw =>
    let raw := paw.drop (ps + sz.ls)
    if ofDigits 256 (paw.take (ps + sz.ls)) ≠ 0 then .error .conversion else
    if raw.length + sz.ls ≠ (qb64b.length - sz.cs) * 3 / 4 then .error .conversion else
    .ok ⟨hard, soft, raw⟩

/-- coring.py:1377-1400, middle of `_exfil` once the hard code is found in the table. -/
def exfilSoft (qb64b hard : List Char) (sz : Sizage) : Except Err Mat :=
  let softx := (qb64b.drop sz.hs).take sz.ss
  let xtra := softx.take sz.xs
  let soft := softx.drop sz.xs
  if xtra ≠ pads sz.xs then .error .unexpectedCode else
  match framedSize sz soft with
  | .error e => .error e
  | .ok fs => exfilRaw qb64b hard soft sz fs

/-- coring.py:1339-1428 `_exfil`. -/
def exfil (qb64b : List Char) : Except Err Mat :=
  match qb64b with
  | [] => .error .shortage
  | first :: _ =>
    match hards first with
    | none =>
      if first = '-' then .error .unexpectedCountCode
      else if first = '_' then .error .unexpectedOpCode
      else .error .unexpectedCode
    | some hs =>
      if qb64b.length < hs then .error .shortage else
      match sizes? (qb64b.take hs) with
      | none => .error .unexpectedCode
      | some sz => exfilSoft qb64b (qb64b.take hs) sz

/-- coring.py:1487-1515, end of `_bexfil` once the full size `fs` is known.  The mask `pi & (2**pbs - 1)` is the
remainder by `2^pbs`. -/
def bexfilRaw (qb2 : List Nat) (hard soft : List Char) (sz : Sizage) (fs : Nat) : Except Err Mat :=
  let bcs := sceil34 sz.cs
  let bfs := sceil34 fs
  if qb2.length < bfs then .error .shortage else
  let qb2 := qb2.take bfs
  let pbs := 2 * (sz.cs % 4)
  let pi := ofDigits 256 ((qb2.drop (bcs - 1)).take 1) % 2 ^ pbs
  if pi ≠ 0 then .error .conversion else
  let li := ofDigits 256 ((qb2.drop bcs).take sz.ls)
  if li ≠ 0 then .error .conversion else
  let raw := qb2.drop (bcs + sz.ls)
  if raw.length + sz.ls + bcs ≠ qb2.length then .error .conversion else
  .ok ⟨hard, soft, raw⟩

/-- coring.py:1456-1485, middle of `_bexfil` once the hard code is found in the table. -/
def bexfilSoft (qb2 : List Nat) (hard : List Char) (sz : Sizage) : Except Err Mat :=
  if qb2.length < sceil34 sz.cs then .error .shortage else
  match codeB2ToB64 qb2 sz.cs with
  | .error e => .error e
  | .ok both =>
    let softx := (both.drop sz.hs).take sz.ss
    let xtra := softx.take sz.xs
    let soft := softx.drop sz.xs
    if xtra ≠ pads sz.xs then .error .unexpectedCode else
    match framedSize sz soft with
    | .error e => .error e
    | .ok fs => bexfilRaw qb2 hard soft sz fs

/-- coring.py:1431-1515 `_bexfil`.  `first[0] == b'\xf8'` at 1441 compares an int with bytes, always false, so an
unknown first sextet is always reported as an unexpected code. -/
def bexfil (qb2 : List Nat) : Except Err Mat :=
  if qb2 = [] then .error .shortage else
  match nabSextets qb2 1 with
  | .error e => .error e
  | .ok first =>
    match bards first with
    | none => .error .unexpectedCode
    | some hs =>
      if qb2.length < sceil34 hs then .error .shortage else
      match codeB2ToB64 qb2 hs with
      | .error e => .error e
      | .ok hard =>
        match sizes? hard with
        | none => .error .unexpectedCode
        | some sz => bexfilSoft qb2 hard sz

end Verif.Matter
