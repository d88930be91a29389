import Verif.Thold.Model
import Verif.Codec.Texts

/-!
# Model of the text forms of `Tholder`: `.limen`, `.sith` and their readers (src/keri/core/coring.py 4342-4642)
-/

namespace Verif.Thold

open Verif.Matter (mkBexter bextOf mkNumber numOf infil exfil numDex bexDex)

/-- Digit of a number in base up to sixteen, as printed by Python. -/
def digitChar (d : Nat) : Char := "0123456789abcdef".toList.getD d '0'

/-- Value of a digit; upper case hex digits are understood by `int(s, 16)`. -/
def digitVal (c : Char) : Option Nat :=
  let l := "0123456789abcdefABCDEF".toList
  if c ∈ l then (let i := l.idxOf c; some (if i < 16 then i else i - 6)) else none

/-- Python `str(n)` (`b = 10`) and `f"{n:x}"` (`b = 16`) of a natural number. -/
def natText (b n : Nat) : List Char :=
  if _h : n < b ∨ b < 2 then [digitChar (n % b)] else natText b (n / b) ++ [digitChar (n % b)]
termination_by n
decreasing_by exact Nat.div_lt_self (by omega) (by omega)

/-- Python `int(s, b)`. Simplification: only nonempty digit strings are understood; signs, underscores, surrounding
blanks and base prefixes, which Python also takes, are refused here. -/
def parseNat (b : Nat) (s : List Char) : Option Nat :=
  if s = [] then none else
  s.foldl (fun acc c => match acc, digitVal c with
    | some n, some d => if d < b then some (n * b + d) else none
    | _, _ => none) (some 0)

/-- Python `f"{i}"` of an int. -/
def intText : Int → List Char
  | .ofNat n => natText 10 n
  | .negSucc n => '-' :: natText 10 (n + 1)

/-- coring.py:4389-4395 (`sep = '/'`) and 4603-4608 (`sep = 's'`): text of a weight. `int(f)` truncates. -/
def weightText (sep : Char) (f : Rat) : List Char :=
  if 0 < f ∧ f < 1 then natText 10 f.num.toNat ++ sep :: natText 10 f.den else intText (f.num.tdiv f.den)

/-- coring.py:4617-4642 `weight`. Simplification: integers and ratios of plain digit strings; other spellings that
`int`/`Fraction` take (blanks, signs, underscores, `1.0`, `1e0`) are refused here. -/
def weight (w : List Char) : Except Err Rat :=
  match parseNat 10 w with
  | some n => if (n : Rat) ≤ 1 then .ok n else .error .valueError
  | none =>
    let n := w.takeWhile (· ≠ '/')
    let d := (w.dropWhile (· ≠ '/')).drop 1
    match parseNat 10 n, parseNat 10 d with
    | some n, some d =>
      if d = 0 then .error .zeroDivision
      else if (n : Rat) / d ≤ 1 then .ok ((n : Rat) / d) else .error .valueError
    | _, _ => .error .valueError

/-- Python `sep.join(parts)`. -/
def join (sep : Char) : List (List Char) → List Char
  | [] => []
  | [p] => p
  | p :: ps => p ++ sep :: join sep ps

/-- Python `s.split(sep)` for a one character separator. -/
def splitC (sep : Char) : List Char → List (List Char)
  | [] => [[]]
  | c :: cs =>
    if c = sep then [] :: splitC sep cs else
    match splitC sep cs with
    | [] => [[c]]
    | p :: ps => (c :: p) :: ps

/-- coring.py:4600-4608, text of an element. -/
def eltText (sep : Char) : Elt → List Char
  | .wt w => weightText sep w
  | .grp k ws => join 'k' [weightText sep k, join 'v' (ws.map (weightText sep))]

/-- coring.py:4597-4612 `bext`. -/
def bextOfClauses (cs : List (List Elt)) : List Char :=
  join 'a' (cs.map fun c => join 'c' (c.map (eltText 's')))

/-- coring.py:4373-4376 `.limen`. -/
def limen : Thold → Except Err (List Char)
  | .num n => match mkNumber n none with | .error e => .error e | .ok m => infil m
  | .wtd cs => match mkBexter (bextOfClauses cs) true with | .error e => .error e | .ok m => infil m

/-- Run a fallible conversion over a list, first error wins. -/
def mapE {α β : Type} (f : α → Except Err β) : List α → Except Err (List β)
  | [] => .ok []
  | a :: as => match f a with
    | .error e => .error e
    | .ok b => match mapE f as with | .error e => .error e | .ok bs => .ok (b :: bs)

/-- coring.py:4455-4460, one element: `e.partition("k")`. -/
def readElt (e : List Char) : Except Err Elt :=
  let k := e.takeWhile (· ≠ 'k')
  let s := e.dropWhile (· ≠ 'k')
  match s with
  | [] => match weight k with | .error e => .error e | .ok w => .ok (.wt w)
  | _ :: v => match weight k, mapE weight (splitC 'v' v) with
    | .error e, _ => .error e
    | _, .error e => .error e
    | .ok w, .ok ws => .ok (.grp w ws)

/-- coring.py:4448-4464, the text part of `_processLimen`. -/
def readBext (bext : List Char) : Except Err Thold :=
  let t := bext.map fun c => if c = 's' then '/' else c
  match mapE (fun c => mapE readElt (splitC 'c' c)) (splitC 'a' t) with
  | .error e => .error e
  | .ok cs => make (.wtd cs)

/-- coring.py:4435-4467 `Tholder(limen=…)`. -/
def ofLimen (t : List Char) : Except Err Thold :=
  match exfil t with
  | .error e => .error e
  | .ok m =>
    if m.code ∈ numDex then make (.num (numOf m))
    else if m.code ∈ bexDex then
      match bextOf m true with
      | .error e => .error e
      | .ok b => readBext b
    else .error .invalidCode

/-- An entry of a clause of a `sith` expression: a string, a mapping, or something else. -/
inductive SElt where
  | str (s : List Char)
  | map (entries : List (List Char × List (List Char)))
  | other
  deriving DecidableEq

/-- Entry of the outer sequence: a bare entry or a (non string) sequence of entries. -/
inductive SItem where
  | bare (e : SElt)
  | seq (c : List SElt)
  deriving DecidableEq

/-- `sith` values: int, hex text, or a sequence. JSON text of a sequence (4500-4501) is taken as already decoded. -/
inductive Sith where
  | int (n : Int)
  | hex (s : List Char)
  | seq (items : List SItem)
  deriving DecidableEq

/-- coring.py:4384-4395, one element of the `.sith` property. -/
def sithElt : Elt → SElt
  | .wt w => .str (weightText '/' w)
  | .grp k ws => .map [(weightText '/' k, ws.map (weightText '/'))]

/-- coring.py:4378-4406 `.sith`. -/
def sith : Thold → Sith
  | .num n => .hex (natText 16 n)
  | .wtd cs =>
    match cs.map (fun c => c.map sithElt) with
    | [c] => .seq (c.map .bare)
    | l => .seq (l.map .seq)

/-- coring.py:4527-4537, one entry of a clause; entries that are neither string nor mapping were refused at 4512-4517. -/
def readSElt : SElt → Except Err Elt
  | .str s => match weight s with | .error e => .error e | .ok w => .ok (.wt w)
  | .map [(k, vs)] => match weight k, mapE weight vs with
    | .error e, _ => .error e
    | _, .error e => .error e
    | .ok w, .ok ws => .ok (.grp w ws)
  | .map _ => .error .valueError
  | .other => .error .valueError

/-- coring.py:4508-4510: clauses of the sequence. Items of a mixed sequence that are sequences fail the check at 4514. -/
def clausesOf (items : List SItem) : List (List SElt) :=
  if items.all (fun i => match i with | .seq _ => true | .bare _ => false) then
    items.map (fun i => match i with | .seq c => c | .bare e => [e])
  else [items.map (fun i => match i with | .seq _ => .other | .bare e => e)]

/-- coring.py:4470-4541 `Tholder(sith=…)`; the empty string is refused at 4349-4350. -/
def ofSith : Sith → Except Err Thold
  | .int n => if n < 0 then .error .valueError else make (.num n.toNat)
  | .hex s =>
    if s = [] then .error .emptyMaterial else
    match parseNat 16 s with
    | none => .error .valueError
    | some n => make (.num n)
  | .seq items =>
    if items = [] then .error .valueError else
    if (clausesOf items).any (fun c => c.any (· = .other)) then .error .valueError else
    match mapE (fun c => mapE readSElt c) (clausesOf items) with
    | .error e => .error e
    | .ok cs => make (.wtd cs)

end Verif.Thold
