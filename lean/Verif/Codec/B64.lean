import Verif.Base.Digits
import Verif.Base.Err

/-!
# Model of the Base64 helpers in `src/keri/help/helping.py` 256-388

Text is `List Char`, bytes are `List Nat`.  Integers are `Nat`: for a negative argument the `while`
loop of `intToB64` never ends (`-1 // 64 == -1`), such calls are outside the model.
`sceil(x * 3 / 4)` goes through a float in Python; the model uses the exact value (they agree below 2^53).
-/

namespace Verif.B64

/-- helping.py:261-265 `B64ChrByIdx`, the characters in index order. -/
def alphabet : List Char :=
  ['A','B','C','D','E','F','G','H','I','J','K','L','M','N','O','P','Q','R','S','T','U','V','W','X','Y','Z',
   'a','b','c','d','e','f','g','h','i','j','k','l','m','n','o','p','q','r','s','t','u','v','w','x','y','z',
   '0','1','2','3','4','5','6','7','8','9','-','_']

/-- helping.py:261-265 `B64ChrByIdx[i]`; only used with `i < 64`. -/
def chr (i : Nat) : Char := alphabet.getD i 'A'

/-- helping.py:267 `B64IdxByChr`, `none` for a character that is not a key. -/
def idx (c : Char) : Option Nat :=
  let k := alphabet.idxOf c
  if k < 64 then some k else none

/-- helping.py:272-273 `Reb64.match(s)`: every character is in the Base64 alphabet (empty allowed). -/
def reb64 (s : List Char) : Bool := s.all (fun c => (idx c).isSome)

/-- helping.py:283-287, the `while l` loop for `l` nonzero: digits of `i`, at least one. -/
def intDigits (i : Nat) : List Nat :=
  if i / 64 = 0 then [i % 64] else intDigits (i / 64) ++ [i % 64]
termination_by i
decreasing_by omega

/-- helping.py:277-290 `intToB64(i, l)`. -/
def intToB64 (i l : Nat) : List Char :=
  if l = 0 then [] else
    let d := (intDigits i).map chr
    List.replicate (l - d.length) 'A' ++ d

/-- helping.py:308-310, loop of `b64ToInt` over the reversed string, position `e`, accumulator `i`. -/
def b64ToIntLoop : List Char → Nat → Nat → Except Err Nat
  | [], _, i => .ok i
  | c :: cs, e, i =>
    match idx c with
    | none => .error .keyError
    | some d => b64ToIntLoop cs (e + 1) (i ||| (d <<< (e * 6)))

/-- helping.py:301-311 `b64ToInt(s)`. -/
def b64ToInt (s : List Char) : Except Err Nat :=
  if s = [] then .error .valueError else b64ToIntLoop s.reverse 0 0

/-- Python `math.ceil(l * 3 / 4)` as used throughout (`sceil`). -/
def sceil34 (l : Nat) : Nat := (l * 3 + 3) / 4

/-- Python `int.to_bytes(n, 'big')`. -/
def toBytes (i n : Nat) : Except Err (List Nat) :=
  if i < 256 ^ n then .ok (toDigits 256 n i) else .error .overflowError

/-- helping.py:315-334 `codeB64ToB2(s)`. -/
def codeB64ToB2 (s : List Char) : Except Err (List Nat) := do
  let i ← b64ToInt s
  toBytes (i <<< (2 * (s.length % 4))) (sceil34 s.length)

/-- helping.py:337-362 `codeB2ToB64(b, l)` on bytes. -/
def codeB2ToB64 (b : List Nat) (l : Nat) : Except Err (List Char) :=
  let n := sceil34 l
  if n > b.length then .error .valueError else
    .ok (intToB64 (ofDigits 256 (b.take n) >>> (2 * (l % 4))) l)

/-- helping.py:365-388 `nabSextets(b, l)` on bytes. -/
def nabSextets (b : List Nat) (l : Nat) : Except Err (List Nat) :=
  let n := sceil34 l
  if n > b.length then .error .valueError else
    let p := 2 * (l % 4)
    toBytes ((ofDigits 256 (b.take n) >>> p) <<< p) n

end Verif.B64
