import Verif.Codec.Texts

/-!
# Model of `Labeler` (src/keri/core/coring.py 3194-3338): field labels and texts as primitives

Text is its UTF-8 encoding with one character per byte (so every character is below 256).  `str` and `bytes` arguments are not distinguished.
-/

namespace Verif.Mad

open Verif.B64 Verif.Matter

/-- Python's UTF-8 and number syntax, which are not modelled: `utf8 raw` says that `raw.decode()` succeeds, `norm s` is the number read from `s` by
`int` or `float` and printed again, `none` for a ValueError. -/
structure Env where
  utf8 : List Nat → Bool
  norm : List Char → Option (List Char)

/-- coring.py:519-541 `TagDex`, in order of size. -/
def tagDex : List (List Char) :=
  [['0', 'J'], ['0', 'K'], ['X'], ['1', 'A', 'A', 'F'], ['0', 'L'], ['0', 'M'], ['Y'], ['1', 'A', 'A', 'N'], ['0', 'N'], ['0', 'O'], ['Z']]

/-- coring.py:545-581 `LabelDex`. -/
def labelDex : List (List Char) :=
  ['1', 'A', 'A', 'P'] :: tagDex ++ bexDex ++ [['V'], ['W'], ['4', 'B'], ['5', 'B'], ['6', 'B'], ['7', 'A', 'A', 'B'], ['8', 'A', 'A', 'B'], ['9', 'A', 'A', 'B']]

/-- coring.py:2224-2237 `Tagger._codify`. -/
def codify (tag : List Char) : Except Err (List Char) :=
  match tag with
  | [] => .error .invalidSoft
  | _ :: r => match tagDex[r.length]? with
    | none => .error .invalidSoft
    | some c => .ok c

/-- A letter or `_`. -/
def attStart (c : Char) : Bool := (('a' ≤ c && c ≤ 'z') || ('A' ≤ c && c ≤ 'Z')) || c = '_'

/-- A letter, digit or `_`. -/
def attChar (c : Char) : Bool := attStart c || ('0' ≤ c && c ≤ '9')

/-- helping.py:430-433 `Reatt.match(s)`; the final `$` also matches before a newline at the end. -/
def reatt (s : List Char) : Bool :=
  match (if s.getLast? = some '\n' then s.dropLast else s) with
  | [] => false
  | c :: r => attStart c && r.all attChar

/-- coring.py:3244-3254 and 3270-3280: Base64 text too long for a tag. -/
def mkStrB64 (t : List Char) : Except Err Mat :=
  match bextRawify t true with
  | .error e => .error e
  | .ok raw => make (if leadSize t.length = 0 then ['4', 'A'] else if leadSize t.length = 1 then ['5', 'A'] else ['6', 'A']) [] raw none

/-- The bytes of a text. -/
def bytesOf (t : List Char) : List Nat := t.map Char.toNat

/-- `raw.decode()`. -/
def decodeText (env : Env) (raw : List Nat) : Except Err (List Char) :=
  if env.utf8 raw then .ok (raw.map Char.ofNat) else .error .valueError

/-- coring.py:3298-3299, the check after construction. -/
def inLabelDex (r : Except Err Mat) : Except Err Mat :=
  match r with
  | .error e => .error e
  | .ok m => if m.code ∈ labelDex then .ok m else .error .invalidCode

/-- coring.py:3266-3280, Base64 text that is not empty: a tag if it fits, else a Base64 string. -/
def mkB64 (t : List Char) : Except Err Mat :=
  match codify t with
  | .ok code => makeSpecial code t
  | .error _ => mkStrB64 t

/-- coring.py:3232-3254 and 3296-3299 `Labeler(label=…)`.  An empty label is ignored, nothing is then left to construct from. -/
def mkLabel (label : List Char) : Except Err Mat :=
  if label = [] then .error .emptyMaterial
  else if !reatt label then .error .invalidValue
  else inLabelDex (mkB64 label)

/-- coring.py:3256-3299 `Labeler(text=…)`. -/
def mkText (text : List Char) : Except Err Mat :=
  inLabelDex (
    if reb64 text then
      if text = [] then make ['1', 'A', 'A', 'P'] [] [] none else mkB64 text
    else if text.length = 1 then make ['V'] [] (bytesOf text) none
    else if text.length = 2 then make ['W'] [] (bytesOf text) none
    else make ['4', 'B'] [] (bytesOf text) none)

/-- coring.py:3325-3338 `Labeler.text`. -/
def textOf (env : Env) (m : Mat) : Except Err (List Char) :=
  if m.code ∈ tagDex then .ok m.soft
  else if m.code ∈ bexDex then bextOf m true
  else decodeText env m.raw

/-- coring.py:3304-3322 `Labeler.label`. -/
def labelOf (env : Env) (m : Mat) : Except Err (List Char) :=
  match textOf env m with
  | .error e => .error e
  | .ok t => if reatt t then .ok t else .error .invalidValue

/-- `Matter(qb64b=ser, strip=True)`: the primitive at the front and what is left (coring.py:1059-1062). -/
def takeMat (s : List Char) : Except Err (Mat × List Char) :=
  match exfil s with
  | .error e => .error e
  | .ok m => match fullSize m with
    | .error e => .error e
    | .ok n => .ok (m, s.drop n)

/-- `Labeler(qb64b=ser, strip=True)`. -/
def takeLabeler (s : List Char) : Except Err (Mat × List Char) :=
  match takeMat s with
  | .error e => .error e
  | .ok (m, r) => if m.code ∈ labelDex then .ok (m, r) else .error .invalidCode

end Verif.Mad
