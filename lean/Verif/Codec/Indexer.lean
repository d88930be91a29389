import Verif.Codec.Matter

/-!
# Model of `Indexer` and `Siger` (src/keri/core/indexing.py) and of the choice of code in `Signer` (src/keri/core/signing.py)

The same simplifications as in `Verif.Codec.Matter`.  `strip=True` deletes the length of the text (or binary) form made anew from
the parsed object.
-/

namespace Verif.Idr

open Verif.B64
open Verif.Matter (encodeB64 decodeB64 zeros)

/-- indexing.py:151 `Xizage`: hard, soft, other index, full (None for variable) and lead size. -/
structure Xizage where
  hs : Nat
  ss : Nat
  os : Nat
  fs : Option Nat
  ls : Nat
  deriving DecidableEq, Repr

/-- `cs = hs + ss`. -/
def Xizage.cs (sz : Xizage) : Nat := sz.hs + sz.ss

/-- `ms = ss - os`, size of the main index. -/
def Xizage.ms (sz : Xizage) : Nat := sz.ss - sz.os

/-- indexing.py:187-189 `Indexer.Hards`. -/
def hards (c : Char) : Option Nat :=
  if c ∈ ['A','B','C','D','E','F','G','H','I','J','K','L','M','N','O','P','Q','R','S','T','U','V','W','X','Y','Z']
  then some 1
  else if c ∈ ['a','b','c','d','e','f','g','h','i','j','k','l','m','n','o','p','q','r','s','t','u','v','w','x','y','z']
  then some 1
  else [('0', 2), ('1', 2), ('2', 2), ('3', 2), ('4', 2)].lookup c

/-- indexing.py:218 `Indexer.Bards`, as in `Matter.bards`. -/
def bards (first : List Nat) : Option Nat :=
  alphabet.findSome? fun c => if codeB64ToB2 [c] = .ok first then hards c else none

/-- indexing.py:195-215 `Indexer.Sizes`. -/
def sizes : List (List Char × Xizage) := [
  (['A'], ⟨1, 1, 0, some 88, 0⟩),
  (['B'], ⟨1, 1, 0, some 88, 0⟩),
  (['C'], ⟨1, 1, 0, some 88, 0⟩),
  (['D'], ⟨1, 1, 0, some 88, 0⟩),
  (['E'], ⟨1, 1, 0, some 88, 0⟩),
  (['F'], ⟨1, 1, 0, some 88, 0⟩),
  (['0', 'A'], ⟨2, 2, 1, some 156, 0⟩),
  (['0', 'B'], ⟨2, 2, 1, some 156, 0⟩),
  (['2', 'A'], ⟨2, 4, 2, some 92, 0⟩),
  (['2', 'B'], ⟨2, 4, 2, some 92, 0⟩),
  (['2', 'C'], ⟨2, 4, 2, some 92, 0⟩),
  (['2', 'D'], ⟨2, 4, 2, some 92, 0⟩),
  (['2', 'E'], ⟨2, 4, 2, some 92, 0⟩),
  (['2', 'F'], ⟨2, 4, 2, some 92, 0⟩),
  (['3', 'A'], ⟨2, 6, 3, some 160, 0⟩),
  (['3', 'B'], ⟨2, 6, 3, some 160, 0⟩),
  (['0', 'z'], ⟨2, 2, 0, none, 0⟩),
  (['1', 'z'], ⟨2, 2, 1, some 76, 1⟩),
  (['4', 'z'], ⟨2, 6, 3, some 80, 1⟩)]

/-- `Indexer.Sizes[code]`. -/
def sizes? (code : List Char) : Option Xizage := sizes.lookup code

/-- indexing.py:100-119 `IdxCrtSigDex`: signatures for the current key list only. -/
def crtCodes : List (List Char) := [['B'], ['D'], ['F'], ['0', 'B'], ['2', 'B'], ['2', 'D'], ['2', 'F'], ['3', 'B']]

/-- indexing.py:123-142 `IdxBthSigDex`: signatures for both key lists. -/
def bthCodes : List (List Char) := [['A'], ['C'], ['E'], ['0', 'A'], ['2', 'A'], ['2', 'C'], ['2', 'E'], ['3', 'A']]

/-- indexing.py:70-97 `IdxSigDex`. -/
def sigCodes : List (List Char) := [['A'], ['B'], ['C'], ['D'], ['E'], ['F'], ['0', 'A'], ['0', 'B'],
  ['2', 'A'], ['2', 'B'], ['2', 'C'], ['2', 'D'], ['2', 'E'], ['2', 'F'], ['3', 'A'], ['3', 'B']]

/-- An `Indexer` instance. -/
structure Ixr where
  code : List Char
  index : Nat
  ondex : Option Nat
  raw : List Nat
  deriving DecidableEq, Repr

/-- indexing.py:293-300 (and 423-430, 487-494): the full size; `err` is the exception for a variable size code with a code part that is not
aligned or with an other index. -/
def fullOf (sz : Xizage) (index : Nat) (err : Err) : Except Err Nat :=
  match sz.fs with
  | some fs => .ok fs
  | none => if sz.cs % 4 ≠ 0 then .error err else if sz.os ≠ 0 then .error err else .ok (index * 4 + sz.cs)

/-- indexing.py:280-290: the other index of a new signature. -/
def makeOndex (code : List Char) (sz : Xizage) (index : Int) (ondex : Option Int) : Except Err (Option Int) :=
  if code ∈ crtCodes ∧ ondex ≠ none then .error .invalidVarIndex
  else if code ∈ bthCodes then
    match ondex with
    | none => .ok (some index)
    | some o => if o ≠ index ∧ sz.os = 0 then .error .invalidVarIndex else .ok (some o)
  else .ok ondex

/-- indexing.py:260-313, `Indexer(raw=…, code=…, index=…, ondex=…)`.  For a code without other index that is neither for current nor for both
lists a negative `ondex` is stored by Python as it is; the model stores its absolute value. -/
def make (code : List Char) (index : Int) (ondex : Option Int) (raw : List Nat) : Except Err Ixr :=
  if code = [] then .error .emptyMaterial else
  match sizes? code with
  | none => .error .unexpectedCode
  | some sz =>
    if index < 0 ∨ index > 64 ^ sz.ms - 1 then .error .invalidVarIndex
    else if ondex.any (fun o => decide (sz.os ≠ 0) && !decide (0 ≤ o ∧ o ≤ 64 ^ sz.os - 1)) then .error .invalidVarIndex
    else match makeOndex code sz index ondex with
      | .error e => .error e
      | .ok ondex => match fullOf sz index.toNat .invalidCodeSize with
        | .error e => .error e
        | .ok fs =>
          let rz := (fs - sz.cs) * 3 / 4
          if (raw.take rz).length ≠ rz then .error .rawMaterial
          else .ok ⟨code, index.toNat, ondex.map Int.natAbs, raw.take rz⟩

/-- The code characters of a signature (indexing.py:441-442, 497-498). -/
def both (sz : Xizage) (m : Ixr) : List Char := m.code ++ (intToB64 m.index sz.ms ++ intToB64 (m.ondex.getD 0) sz.os)

/-- indexing.py:403-460 `_infil`. -/
def infil (m : Ixr) : Except Err (List Char) :=
  match sizes? m.code with
  | none => .error .keyError
  | some sz =>
    let ps := (3 - (m.raw.length % 3)) % 3
    match fullOf sz m.index .invalidCodeSize with
    | .error e => .error e
    | .ok fs =>
      if m.index > 64 ^ sz.ms - 1 then .error .invalidVarIndex
      else if m.ondex.any (fun o => decide (sz.os ≠ 0) && decide (o > 64 ^ sz.os - 1)) then .error .invalidVarIndex
      else if (both sz m).length ≠ sz.cs then .error .invalidCodeSize
      else if sz.cs % 4 + sz.ls ≠ ps then .error .invalidCodeSize
      else
        let full := both sz m ++ (encodeB64 (zeros ps ++ m.raw)).drop (ps - sz.ls)
        if full.length ≠ fs then .error .invalidCodeSize else .ok full

/-- indexing.py:463-518 `_binfil`. The bound of the index is by `ss` instead of `ms` (479). -/
def binfil (m : Ixr) : Except Err (List Nat) :=
  match sizes? m.code with
  | none => .error .keyError
  | some sz =>
    let ps := (3 - (m.raw.length % 3)) % 3
    if m.index > 64 ^ sz.ss - 1 then .error .invalidVarIndex
    else if m.ondex.any (fun o => decide (sz.os ≠ 0) && decide (o > 64 ^ sz.os - 1)) then .error .invalidVarIndex
    else match fullOf sz m.index .invalidCodeSize with
      | .error e => .error e
      | .ok fs =>
        if (both sz m).length ≠ sz.cs then .error .invalidCodeSize
        else if sz.cs % 4 + sz.ls ≠ ps then .error .invalidCodeSize
        else match b64ToInt (both sz m) with
          | .error e => .error e
          | .ok i => match toBytes (i <<< (2 * (ps - sz.ls))) (sceil34 sz.cs) with
            | .error e => .error e
            | .ok bcode =>
              let full := bcode ++ (zeros sz.ls ++ m.raw)
              if full.length % 3 ≠ 0 ∨ full.length * 4 / 3 ≠ fs then .error .invalidCodeSize else .ok full

/-- indexing.py:571-582 (and 686-699): the other index from its characters. -/
def readOndex (hard : List Char) (sz : Xizage) (index : Nat) (chars : List Char) : Except Err (Option Nat) :=
  if hard ∈ crtCodes then
    if sz.os = 0 then .ok none
    else match b64ToInt chars with
      | .error e => .error e
      | .ok o => if o ≠ 0 then .error .valueError else .ok none
  else if sz.os = 0 then .ok (some index)
  else match b64ToInt chars with
    | .error e => .error e
    | .ok o => .ok (some o)

/-- indexing.py:607-629, the raw bytes from the characters after the code. -/
def exfilMat (sz : Xizage) (mat : List Char) : Except Err (List Nat) :=
  let ps := sz.cs % 4
  if ps ≠ 0 then
    match decodeB64 (List.replicate ps 'A' ++ mat) with
    | .error e => .error e
    | .ok paw => if ofDigits 256 (paw.take ps) % 2 ^ (2 * ps) ≠ 0 then .error .valueError else .ok (paw.drop ps)
  else
    match decodeB64 mat with
    | .error e => .error e
    | .ok paw => if ofDigits 256 (paw.take sz.ls) ≠ 0 then .error .valueError else .ok (paw.drop sz.ls)

/-- indexing.py:585-637, end of `_exfil`. -/
def exfilRaw (t hard : List Char) (sz : Xizage) (index : Nat) (ondex : Option Nat) : Except Err Ixr :=
  match fullOf sz index .validation with
  | .error e => .error e
  | .ok fs =>
    if t.length < fs then .error .shortage
    else match exfilMat sz ((t.take fs).drop sz.cs) with
      | .error e => .error e
      | .ok raw =>
        if raw.length ≠ ((t.take fs).length - sz.cs) * 3 / 4 then .error .conversion else .ok ⟨hard, index, ondex, raw⟩

/-- indexing.py:555-582, middle of `_exfil`. -/
def exfilSoft (t hard : List Char) (sz : Xizage) : Except Err Ixr :=
  if t.length < sz.cs then .error .shortage
  else match b64ToInt ((t.drop sz.hs).take sz.ms) with
    | .error e => .error e
    | .ok index => match readOndex hard sz index ((t.drop (sz.hs + sz.ms)).take sz.os) with
      | .error e => .error e
      | .ok ondex => exfilRaw t hard sz index ondex

/-- indexing.py:521-637 `_exfil`. -/
def exfil (t : List Char) : Except Err Ixr :=
  match t with
  | [] => .error .shortage
  | first :: _ =>
    match hards first with
    | none =>
      if first = '-' then .error .unexpectedCountCode
      else if first = '_' then .error .unexpectedOpCode
      else .error .unexpectedCode
    | some hs =>
      if t.length < hs then .error .shortage else
      match sizes? (t.take hs) with
      | none => .error .unexpectedCode
      | some sz => exfilSoft t (t.take hs) sz

/-- indexing.py:701-742, end of `_bexfil`. -/
def bexfilRaw (b : List Nat) (hard : List Char) (sz : Xizage) (index : Nat) (ondex : Option Nat) : Except Err Ixr :=
  match fullOf sz index .validation with
  | .error e => .error e
  | .ok fs =>
    let bcs := sceil34 sz.cs
    let bfs := sceil34 fs
    if b.length < bfs then .error .shortage
    else
      let b := b.take bfs
      let ps := sz.cs % 4
      if (if ps ≠ 0 then ofDigits 256 ((b.drop (bcs - 1)).take 1) % 2 ^ (2 * ps) ≠ 0 else ofDigits 256 ((b.drop bcs).take sz.ls) ≠ 0) then
        .error .valueError
      else
        let raw := b.drop (bcs + sz.ls)
        if raw.length + sz.ls + bcs ≠ b.length then .error .conversion else .ok ⟨hard, index, ondex, raw⟩

/-- indexing.py:672-699, middle of `_bexfil`. -/
def bexfilSoft (b : List Nat) (hard : List Char) (sz : Xizage) : Except Err Ixr :=
  if b.length < sceil34 sz.cs then .error .shortage
  else match codeB2ToB64 b sz.cs with
    | .error e => .error e
    | .ok bth => match b64ToInt ((bth.drop sz.hs).take sz.ms) with
      | .error e => .error e
      | .ok index => match readOndex hard sz index ((bth.drop (sz.hs + sz.ms)).take sz.os) with
        | .error e => .error e
        | .ok ondex => bexfilRaw b hard sz index ondex

/-- indexing.py:641-742 `_bexfil`.  The comparison of an int with bytes at 654 and 657 is always false. -/
def bexfil (b : List Nat) : Except Err Ixr :=
  if b = [] then .error .shortage else
  match nabSextets b 1 with
  | .error e => .error e
  | .ok first =>
    match bards first with
    | none => .error .unexpectedCode
    | some hs =>
      if b.length < sceil34 hs then .error .shortage else
      match codeB2ToB64 b hs with
      | .error e => .error e
      | .ok hard =>
        match sizes? hard with
        | none => .error .unexpectedCode
        | some sz => bexfilSoft b hard sz

/-- `Siger(...)` (indexing.py:767-779): an indexer whose code is one of a signature. -/
def siger (r : Except Err Ixr) : Except Err Ixr :=
  match r with
  | .error e => .error e
  | .ok m => if m.code ∉ sigCodes then .error .validation else .ok m

/-- Signature suites of `Signer` (signing.py:165-318). -/
inductive Suite where
  | ed25519 | secp256r1 | secp256k1
  deriving DecidableEq, Repr

/-- Codes of a suite: current list, big current list, both lists, big both lists. -/
def Suite.crt : Suite → List Char
  | .ed25519 => ['B'] | .secp256r1 => ['F'] | .secp256k1 => ['D']
def Suite.bigCrt : Suite → List Char
  | .ed25519 => ['2', 'B'] | .secp256r1 => ['2', 'F'] | .secp256k1 => ['2', 'D']
def Suite.bth : Suite → List Char
  | .ed25519 => ['A'] | .secp256r1 => ['E'] | .secp256k1 => ['C']
def Suite.bigBth : Suite → List Char
  | .ed25519 => ['2', 'A'] | .secp256r1 => ['2', 'E'] | .secp256k1 => ['2', 'C']

/-- `Signer.sign` with an index (signing.py:195-211, 248-264, 302-318), after the signature `sig` was made. -/
def signed (s : Suite) (sig : List Nat) (index : Int) (only : Bool) (ondex : Option Int) : Except Err Ixr :=
  if only then
    siger (make (if index ≤ 63 then s.crt else s.bigCrt) index none sig)
  else
    let ondex := ondex.getD index
    siger (make (if ondex = index ∧ index ≤ 63 then s.bth else s.bigBth) index (some ondex) sig)

end Verif.Idr
