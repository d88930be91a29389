import Verif.Mad.Model

/-!
# What the theorems about field maps say

Read together with `Val` (the values) and the few functions named in the theorems, all of them calls of the API.
-/

namespace Verif.Mad

open Verif.B64 Verif.Matter

/-- The text is exactly one primitive, nothing more. -/
def Complete (t : List Char) : Prop := ∃ m, exfil t = .ok m ∧ fullSize m = .ok t.length

/-- A text that Python can hold: its characters stand for the bytes of valid UTF-8. -/
def TextOk (env : Env) (t : List Char) : Prop := (∀ c ∈ t, c.toNat < 256) ∧ env.utf8 (t.map Char.toNat) = true

/-- A text that is not a primitive spelled with `+` or `/`. -/
def Plain (t : List Char) : Prop := Complete t → '+' ∉ t ∧ '/' ∉ t

/-- The printed form of a number that Python reads back as the same number, without the `+` of a large exponent. -/
def NumOk (env : Env) (dns : List Char) : Prop :=
  env.norm dns = some dns ∧ (∀ c ∈ dns, (idx c).isSome = true ∧ c ≠ 'p' ∨ c = '.') ∧ dns.head? ≠ some 'A'

mutual
/-- Every text in the value is one that Python can hold and plain, every number is as it would be printed, every map has each of its labels once. -/
def Good (env : Env) : Val → Prop
  | .null => True
  | .bool _ => True
  | .num dns => NumOk env dns
  | .text t => TextOk env t ∧ Plain t
  | .list vs => GoodVals env vs
  | .map fs => (fs.map (·.1)).Nodup ∧ GoodFlds env fs

def GoodVals (env : Env) : List Val → Prop
  | [] => True
  | v :: vs => Good env v ∧ GoodVals env vs

def GoodFlds (env : Env) : List (List Char × Val) → Prop
  | [] => True
  | (l, v) :: fs => TextOk env l ∧ Good env v ∧ GoodFlds env fs
end

mutual
/-- Every text in the value that is exactly one primitive is Base64.  (`Matter(qb64=…)` does not check the soft part of a code such as `X` for Base64.) -/
def Based : Val → Prop
  | .text t => Complete t → reb64 t = true
  | .list vs => BasedVals vs
  | .map fs => BasedFlds fs
  | _ => True

def BasedVals : List Val → Prop
  | [] => True
  | v :: vs => Based v ∧ BasedVals vs

def BasedFlds : List (List Char × Val) → Prop
  | [] => True
  | (_, v) :: fs => Based v ∧ BasedFlds fs
end

end Verif.Mad
