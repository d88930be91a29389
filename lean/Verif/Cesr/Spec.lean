import Verif.Cesr.Model
import Verif.Ser.Spec
import Verif.Mad.Spec
import Verif.Thold.TextLemmas
import Verif.Codec.PropsTexts

/-!
# What the theorems about native messages say

`FieldOk` lists, label by label, the values as the builders of messages (src/keri/core/eventing.py) write them: primitives in their only spelling, numbers in
hex without leading zeros, thresholds as `Tholder.sith` shows them, dates of 32 characters, seals of the seven known kinds.
-/

namespace Verif.Cesr

open Verif.B64 Verif.Matter
open Verif.Mad (Val Flds TextOk Good getKey digDex)
open Verif.Thold (natText Thold sith Elt WellFormed bextOfClauses)

/-- The text is one primitive, in the spelling that writing it gives. -/
def IsPrim (t : List Char) : Prop := ∃ m, exfil t = .ok m ∧ infil m = .ok t

/-- The same, with a code of the list. -/
def Is (codes : List (List Char)) (t : List Char) : Prop := ∃ m, exfil t = .ok m ∧ infil m = .ok t ∧ m.code ∈ codes

/-- `int(f"{n:x}", 16) == n`. -/
def HexOk (env : Env) : Prop := ∀ n : Nat, env.hex (natText 16 n) = some (n : Int)

/-- A number as text of hex digits, that the largest code of a number can hold. -/
def IsNum (v : Val) : Prop := ∃ n, v = .text (natText 16 n) ∧ n < 256 ^ 17

/-- The seals, with a letter for the kind. -/
inductive SealIs : Char → Val → Prop
  | digest (d) : Is digDex d → SealIs 'Q' (.map [(['d'], .text d)])
  | root (d) : Is digDex d → SealIs 'R' (.map [(['r', 'd'], .text d)])
  | source (s d) : IsNum s → Is digDex d → SealIs 'S' (.map [(['s'], s), (['d'], .text d)])
  | event (i s d) : Is Ser.preDex i → IsNum s → Is digDex d → SealIs 'T' (.map [(['i'], .text i), (['s'], s), (['d'], .text d)])
  | last (i) : Is Ser.preDex i → SealIs 'U' (.map [(['i'], .text i)])
  | back (i d) : Is Ser.preDex i → Is digDex d → SealIs 'V' (.map [(['b', 'i'], .text i), (['d'], .text d)])
  | kind (t d) : Is [['Y'], ['0', 'O']] t → Is digDex d → SealIs 'W' (.map [(['t'], .text t), (['d'], .text d)])

/-- An upper bound of the characters that a seal takes: a number takes at most 24. -/
def width : Val → Nat
  | .map fs => (fs.map fun p => match p.2 with | .text t => max t.length 24 | _ => 0).sum
  | _ => 0

/-- Known seals, with no more than fit a small group (4095 quadlets) of one kind in a row. -/
def SealsOk (es : List Val) : Prop :=
  (∀ e ∈ es, ∃ x, SealIs x e) ∧ ∀ a run b x, es = a ++ run ++ b → (∀ e ∈ run, SealIs x e) → (run.map width).sum ≤ 4 * 4095

/-- The value of the field with label `l` of a message of type `ilk` is one that the native form keeps. -/
structure FieldOk (env : Env) (ilk l : List Char) (v : Val) : Prop where
  type : l = ['t'] → v = .text ilk
  digest : l ∈ [['d'], ['p'], ['x']] → ∃ t, v = .text t ∧ Is digDex t
  nonce : l = ['u'] → ∃ t, v = .text t ∧ Is ([['1', 'A', 'A', 'P'], ['0', 'A'], ['a']] ++ digDex) t
  aid : l ∈ [['i'], ['d', 'i'], ['r', 'i']] → ∃ t, v = .text t ∧ Is Ser.preDex t
  number : l ∈ [['s'], ['b', 't']] → IsNum v
  threshold : l ∈ [['k', 't'], ['n', 't']] →
    IsNum v ∨ ∃ cs, v = sithVal (sith (.wtd cs)) ∧ WellFormed cs ∧ (bextOfClauses cs).length < 4 * (64 ^ 4 - 1)
  prims : l ∈ [['k'], ['n'], ['b'], ['b', 'a'], ['b', 'r']] → ∃ ts : List (List Char), v = .list (ts.map .text) ∧ ∀ t ∈ ts, IsPrim t
  date : l = ['d', 't'] → ∃ t, v = .text t ∧ t.length = 32 ∧ ∀ c ∈ t, c ∈ dtChars
  route : l ∈ [['r'], ['r', 'r']] → ∃ p, v = .text p ∧ TextOk env.toEnv p ∧ '\n' ∉ p ∧ ('/' ∈ p ∨ '-' ∉ p)
  traits : l = ['c'] → ∃ ts : List (List Char), v = .list (ts.map .text) ∧
    ∀ t ∈ ts, t ∈ [['E', 'O'], ['D', 'N', 'D'], ['R', 'B'], ['N', 'B'], ['N', 'R', 'B'], ['D', 'I', 'D']]
  attrs : l = ['a'] → (∃ fs, v = .map fs ∧ Good env.toEnv (.map fs)) ∨ ∃ es, v = .list es ∧ SealsOk es
  query : l = ['q'] → ∃ fs, v = .map fs ∧ Good env.toEnv (.map fs)

/-- All fields of a message of type `ilk` are such, and they are those of the type in order. -/
structure MsgOk (env : Env) (pvrsn : Nat × Nat) (ilk : List Char) (sad : Flds) : Prop where
  type : getKey sad ['t'] = some (.text ilk)
  labels : ∃ fd, Ser.domain .keri pvrsn (some ilk) = some fd ∧ sad.map (·.1) = fd.labels
  fields : ∀ p ∈ sad, FieldOk env ilk p.1 p.2

end Verif.Cesr
