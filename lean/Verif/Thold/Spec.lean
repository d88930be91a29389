import Verif.Thold.Model

/-!
# What a threshold means, stated without the loops of the implementation

Key positions are numbered through all clauses left to right: clause `i` starts after the leaves of clauses `0..i-1`,
element `j` of a clause starts after the leaves of elements `0..j-1` of that clause.
-/

namespace Verif.Thold

/-- Leaves of a clause. -/
def clauseLeaves (c : List Elt) : Nat := (c.map Elt.leaves).sum

/-- First key position of clause `i`. -/
def clauseStart (cs : List (List Elt)) (i : Nat) : Nat := ((cs.take i).map clauseLeaves).sum

/-- Offset of element `j` in its clause. -/
def eltStart (c : List Elt) (j : Nat) : Nat := ((c.take j).map Elt.leaves).sum

/-- Weight collected in a group whose members are the positions `off, off+1, …`, given who signed. -/
def groupWeight (S : Nat → Bool) (off : Nat) (ws : List Rat) : Rat :=
  ((List.range ws.length).map fun j => if S (off + j) then ws.getD j 0 else 0).sum

/-- Weight contributed by one element. -/
def eltWeight (S : Nat → Bool) (off : Nat) : Elt → Rat
  | .wt w => if S off then w else 0
  | .grp k ws => if groupWeight S off ws ≥ 1 then k else 0

/-- Weight collected in a clause starting at position `off`. -/
def clauseWeight (S : Nat → Bool) (off : Nat) (c : List Elt) : Rat :=
  ((List.range c.length).map fun j => eltWeight S (off + eltStart c j) (c.getD j (.wt 0))).sum

/-- Every clause collects at least one. -/
def Satisfied (cs : List (List Elt)) (S : Nat → Bool) : Prop :=
  ∀ i, i < cs.length → clauseWeight S (clauseStart cs i) (cs.getD i []) ≥ 1

/-- Number of key positions of a weighted threshold. -/
def totalLeaves (cs : List (List Elt)) : Nat := (cs.map clauseLeaves).sum

/-- All weights of an element are at least zero. -/
def Elt.NonNeg : Elt → Prop
  | .wt w => 0 ≤ w
  | .grp k ws => 0 ≤ k ∧ ∀ w ∈ ws, 0 ≤ w

/-- All weights are at least zero (every weight read from text is, `Tholder.weight` checks 0 ≤ w ≤ 1). -/
def NonNeg (cs : List (List Elt)) : Prop := ∀ c ∈ cs, ∀ e ∈ c, e.NonNeg

end Verif.Thold
