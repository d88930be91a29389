import Verif.Db.Bytes
import Verif.Base.Err

/-! # Ordinal keys and insertion-order suffixes (src/keri/db/dbing.py 105-270) -/

namespace Verif.Db

/-- kering.py:12 `MaxON`. -/
def maxON : Nat := 16 ^ 32 - 1

/-- ASCII lower case hexadecimal digit. -/
def hexChar (d : Nat) : Nat := if d < 10 then 48 + d else 87 + d

/-- Number of hexadecimal digits of `n`. -/
def hexLen (n : Nat) : Nat := if n < 16 then 1 else hexLen (n / 16) + 1
decreasing_by omega

/-- `b"%032x" % n`: at least 32 digits, zero padded. -/
def hex32 (n : Nat) : Bytes := (toDigits 16 (max 32 (hexLen n)) n).map hexChar

/-- Value of a hexadecimal digit, as `int(…, 16)` reads it. -/
def hexVal (c : Nat) : Option Nat :=
  if 48 ≤ c ∧ c ≤ 57 then some (c - 48)
  else if 97 ≤ c ∧ c ≤ 102 then some (c - 87)
  else if 65 ≤ c ∧ c ≤ 70 then some (c - 55)
  else none

/-- `int(text, 16)`. Simplified: signs, a leading `0x`, underscores and surrounding blanks, which Python also reads, are errors
here; `hex32` never produces them. -/
def intHex (t : Bytes) : Except Err Nat :=
  if t = [] then .error .valueError
  else match t.mapM hexVal with
    | none => .error .valueError
    | some ds => .ok (ofDigits 16 ds)

/-- dbing.py:105-117 `onKey`; `sep` is one byte. -/
def onKey (sep : Nat) (top : Bytes) (on : Nat) : Bytes := top ++ sep :: hex32 on

/-- dbing.py:229-247 `suffix`. -/
def suffix (sep : Nat) (key : Bytes) (ion : Nat) : Bytes := key ++ sep :: hex32 ion

/-- `bytes.rsplit(sep, 1)`: the part before and after the last separator, if there is one. -/
def rsplit (sep : Nat) : Bytes → Option (Bytes × Bytes)
  | [] => none
  | c :: cs => match rsplit sep cs with
    | some (a, b) => some (c :: a, b)
    | none => if c = sep then some ([], cs) else none

/-- dbing.py:171-196 `splitKey` and 199-208 `splitOnKey`: ValueError without separator or with a tail that is no number. -/
def splitOnKey (sep : Nat) (key : Bytes) : Except Err (Bytes × Nat) :=
  match rsplit sep key with
  | none => .error .valueError
  | some (top, tail) => match intHex tail with
    | .error x => .error x
    | .ok n => .ok (top, n)

/-- dbing.py:250-270 `unsuffix`: ValueError (not enough values to unpack) without separator. -/
def unsuffix (sep : Nat) (iokey : Bytes) : Except Err (Bytes × Nat) :=
  match rsplit sep iokey with
  | none => .error .valueError
  | some (key, tail) => match intHex tail with
    | .error x => .error x
    | .ok n => .ok (key, n)

/-- The separator is not a hexadecimal digit (it is `.` everywhere). -/
def SepOk (sep : Nat) : Prop := hexVal sep = none

end Verif.Db
