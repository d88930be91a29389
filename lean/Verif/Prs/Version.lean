import Verif.Codec.B64
import Verif.Db.Key

/-!
# Model of version strings (src/keri/kering.py 17-235)

Texts are lists of bytes; `asc` turns characters into bytes and `chars` bytes into characters.
-/

namespace Verif.Prs

open Verif.B64
open Verif.Db (hexChar hexLen hexVal intHex)

abbrev Bytes := List Nat

/-- `str.encode()` of ASCII text. -/
def asc (s : List Char) : Bytes := s.map Char.toNat

/-- `bytes.decode()`.  Simplified: a byte above 127 becomes the character with that number. -/
def chars (b : Bytes) : List Char := b.map Char.ofNat

/-- kering.py:21 `Protocols`. -/
inductive Proto where
  | keri | acdc
  deriving DecidableEq, Repr

/-- kering.py:17 `Kinds`. -/
inductive Kind where
  | json | mgpk | cbor | cesr
  deriving DecidableEq, Repr

def Proto.text : Proto → Bytes
  | .keri => [75, 69, 82, 73]
  | .acdc => [65, 67, 68, 67]

def Kind.text : Kind → Bytes
  | .json => [74, 83, 79, 78]
  | .mgpk => [77, 71, 80, 75]
  | .cbor => [67, 66, 79, 82]
  | .cesr => [67, 69, 83, 82]

/-- `proto in Protocols`. -/
def protoOf (b : Bytes) : Option Proto :=
  if b = Proto.text .keri then some .keri else if b = Proto.text .acdc then some .acdc else none

/-- `kind in Kinds`. -/
def kindOf (b : Bytes) : Option Kind :=
  if b = Kind.text .json then some .json else if b = Kind.text .mgpk then some .mgpk
  else if b = Kind.text .cbor then some .cbor else if b = Kind.text .cesr then some .cesr else none

/-- kering.py:78 `Smellage`. -/
structure Smellage where
  proto : Proto
  pvrsn : Nat × Nat
  kind : Kind
  size : Nat
  gvrsn : Option (Nat × Nat)
  deriving DecidableEq, Repr

/-- `"{:0{w}x}".format(n)`: at least `w` hexadecimal digits. -/
def hexPad (w n : Nat) : Bytes := (toDigits 16 (max w (hexLen n)) n).map hexChar

/-- kering.py:141-178 `versify`. -/
def versify (proto : Proto) (pvrsn : Nat × Nat) (kind : Kind) (size : Nat) (gvrsn : Option (Nat × Nat)) : Except Err Bytes :=
  if pvrsn.1 < 2 then
    if gvrsn ≠ none ∧ gvrsn ≠ some pvrsn then .error .versionError
    else if kind = .cesr then .error .kindError
    else .ok (proto.text ++ hexPad 1 pvrsn.1 ++ hexPad 1 pvrsn.2 ++ kind.text ++ hexPad 6 size ++ [95])
  else if pvrsn.1 = 2 then
    let g := gvrsn.getD pvrsn
    if g.1 ≠ 2 then .error .versionError
    else .ok (proto.text ++ asc (intToB64 pvrsn.1 1) ++ asc (intToB64 pvrsn.2 2) ++ asc (intToB64 g.1 1) ++ asc (intToB64 g.2 2) ++
      kind.text ++ asc (intToB64 size 4) ++ [46])
  else .error .versionError

/-- `[A-Z]` -/
def isUpper (b : Nat) : Bool := 65 ≤ b && b ≤ 90

/-- `[0-9a-f]` -/
def isHex (b : Nat) : Bool := (48 ≤ b && b ≤ 57) || (97 ≤ b && b ≤ 102)

/-- `[0-9A-Za-z_-]` -/
def isB64 (b : Nat) : Bool := (48 ≤ b && b ≤ 57) || (65 ≤ b && b ≤ 90) || (97 ≤ b && b ≤ 122) || b == 95 || b == 45

/-- kering.py:41 `VEREX1` at the start of the bytes. -/
def match1 (b : Bytes) : Bool :=
  decide (17 ≤ b.length) && (b.take 4).all isUpper && ((b.drop 4).take 2).all isHex && ((b.drop 6).take 4).all isUpper &&
    ((b.drop 10).take 6).all isHex && decide ((b.drop 16).take 1 = [95])

/-- kering.py:51-54 `VEREX2` at the start of the bytes. -/
def match2 (b : Bytes) : Bool :=
  decide (19 ≤ b.length) && (b.take 4).all isUpper && ((b.drop 4).take 6).all isB64 && ((b.drop 10).take 4).all isUpper &&
    ((b.drop 14).take 4).all isB64 && decide ((b.drop 18).take 1 = [46])

/-- kering.py:95-112, the fields of a match of `VEREX2`. -/
def rematch2 (b : Bytes) : Except Err Smellage :=
  match protoOf (b.take 4) with
  | none => .error .protocolError
  | some proto => match b64ToInt (chars ((b.drop 4).take 1)), b64ToInt (chars ((b.drop 5).take 2)) with
    | .ok pmaj, .ok pmin =>
      if pmaj ≠ 2 then .error .versionError
      else match b64ToInt (chars ((b.drop 7).take 1)), b64ToInt (chars ((b.drop 8).take 2)) with
        | .ok gmaj, .ok gmin =>
          if gmaj ≠ 2 then .error .versionError
          else match kindOf ((b.drop 10).take 4) with
            | none => .error .kindError
            | some kind => match b64ToInt (chars ((b.drop 14).take 4)) with
              | .error e => .error e
              | .ok size => .ok ⟨proto, (pmaj, pmin), kind, size, some (gmaj, gmin)⟩
        | .error e, _ => .error e
        | _, .error e => .error e
    | .error e, _ => .error e
    | _, .error e => .error e

/-- kering.py:114-133, the fields of a match of `VEREX1`. -/
def rematch1 (b : Bytes) : Except Err Smellage :=
  match protoOf (b.take 4) with
  | none => .error .protocolError
  | some proto => match intHex ((b.drop 4).take 1), intHex ((b.drop 5).take 1) with
    | .ok maj, .ok min =>
      if 1 < maj then .error .versionError
      else match kindOf ((b.drop 6).take 4) with
        | none => .error .kindError
        | some kind =>
          if kind = .cesr then .error .kindError
          else match intHex ((b.drop 10).take 6) with
            | .error e => .error e
            | .ok size => .ok ⟨proto, (maj, min), kind, size, none⟩
    | .error e, _ => .error e
    | _, .error e => .error e

/-- kering.py:57 `Rever.match` and 80-138 `rematch`: `VEREX2` is tried before `VEREX1`. -/
def versionAt (b : Bytes) : Option (Except Err Smellage) :=
  if match2 b then some (rematch2 b) else if match1 b then some (rematch1 b) else none

/-- kering.py:181-210 `deversify`. -/
def deversify (vs : Bytes) : Except Err Smellage := (versionAt vs).getD (.error .versionError)

/-- kering.py:230-235: the first match of the search, when it starts within the first `n` bytes. -/
def search : Nat → Bytes → Except Err Smellage
  | 0, _ => .error .versionError
  | n + 1, b => match versionAt b with
    | some r => r
    | none => search n (b.drop 1)

/-- kering.py:213-235 `smell`; `SMELLSIZE` is 27 and `MAXVSOFFSET` is 8. -/
def smell (raw : Bytes) : Except Err Smellage :=
  if raw.length < 27 then .error .shortage else search 9 raw

end Verif.Prs
