import Verif.Base.Err

/-!
# Model of `Tholder` satisfaction (src/keri/core/coring.py 4229-4720) and `ample` (src/keri/core/eventing.py 71-108)

Weights are rationals (`fractions.Fraction` or `int` in Python).  Positions (indices into the key list) are natural
numbers: `Siger.index` is decoded from Base64 and never negative.
-/

namespace Verif.Thold

/-- Element of a clause: a weight, or a nested group `(key weight, [weights])` (a Python tuple). -/
inductive Elt where
  | wt (w : Rat)
  | grp (k : Rat) (ws : List Rat)
  deriving DecidableEq

/-- A threshold: numeric M or weighted list of clauses (`.thold`). -/
inductive Thold where
  | num (m : Nat)
  | wtd (clauses : List (List Elt))
  deriving DecidableEq

/-- Number of key positions taken by an element, coring.py:4588-4592. -/
def Elt.leaves : Elt → Nat
  | .wt _ => 1
  | .grp _ ws => ws.length

/-- coring.py:4586-4593 `s` accumulated over the clauses (weighted), 4554 (numeric): `.size`. -/
def size : Thold → Nat
  | .num m => m
  | .wtd cs => cs.foldl (fun s c => c.foldl (fun s e => s + e.leaves) s) 0

/-- Top level weight of an element, coring.py:4570-4578. -/
def Elt.top : Elt → Rat
  | .wt w => w
  | .grp k _ => k

/-- Python `sum` of weights. -/
def sumR (ws : List Rat) : Rat := ws.foldl (fun a w => a + w) 0

/-- coring.py:4567-4581, the validity check of `_processWeighted`: nested sums and top level sums reach one. -/
def checkWeighted (cs : List (List Elt)) : Bool :=
  cs.all fun c =>
    (c.all fun e => match e with | .grp _ ws => decide (sumR ws ≥ 1) | .wt _ => true) &&
    decide (sumR (c.map Elt.top) ≥ 1)

/-- coring.py:4423-4432, 4544-4593 `Tholder(thold=…)`: numeric (negative refused, not expressible here) or weighted. -/
def make : Thold → Except Err Thold
  | .num m => .ok (.num m)
  | .wtd cs => if checkWeighted cs then .ok (.wtd cs) else .error .valueError

/-- coring.py:4657-4670 `_satisfy_numeric`. -/
def satisfyNum (m : Nat) (indices : List Nat) : Bool := decide (0 < m ∧ indices.length ≥ m)

/-- coring.py:4697-4701, nested group: sum of the weights signed for, and the advanced offset. -/
def groupLoop (sats : List Bool) : List Rat → Nat → Rat → Rat × Nat
  | [], wio, vw => (vw, wio)
  | w :: ws, wio, vw => groupLoop sats ws (wio + 1) (if sats.getD wio false then vw + w else vw)

/-- coring.py:4694-4708, loop over the elements of a clause. -/
def clauseLoop (sats : List Bool) : List Elt → Nat → Rat → Rat × Nat
  | [], wio, cw => (cw, wio)
  | .grp k ws :: es, wio, cw =>
    let (vw, wio) := groupLoop sats ws wio 0
    clauseLoop sats es wio (if vw ≥ 1 then cw + k else cw)
  | .wt w :: es, wio, cw => clauseLoop sats es (wio + 1) (if sats.getD wio false then cw + w else cw)

/-- coring.py:4692-4712, loop over the clauses. -/
def clausesLoop (sats : List Bool) : List (List Elt) → Nat → Bool
  | [], _ => true
  | c :: cs, wio =>
    let (cw, wio) := clauseLoop sats c wio 0
    if cw < 1 then false else clausesLoop sats cs wio

/-- coring.py:4688-4690 `sats`: `sats[idx] = True` for each index; an index beyond the end raises IndexError, which the
enclosing `except Exception` turns into `False`. -/
def setSats : List Nat → List Bool → Option (List Bool)
  | [], sats => some sats
  | i :: is, sats => if i < sats.length then setSats is (sats.set i true) else none

/-- coring.py:4673-4717 `_satisfy_weighted`.  Sorting and removing duplicates (4687) does not matter for the assignments,
which are idempotent and independent, so the model assigns in the given order. `sats[wio]` is always in range
because `size` counts the same leaves. -/
def satisfyWtd (cs : List (List Elt)) (indices : List Nat) : Bool :=
  if indices = [] then false else
  match setSats indices (List.replicate (size (.wtd cs)) false) with
  | none => false
  | some sats => clausesLoop sats cs 0

/-- coring.py:4645-4654 `satisfy`. -/
def satisfy : Thold → List Nat → Bool
  | .num m, is => satisfyNum m is
  | .wtd cs, is => satisfyWtd cs is

/-- Python `ceil(x / 2)` and `ceil(x / 3)` on small naturals (exact, no float rounding). -/
def ceilDiv (x d : Nat) : Nat := (x + d - 1) / d

/-- eventing.py:91-98 `ample(n)` with `f=None`; `n` non-negative (negatives are clipped to 0 by line 91). -/
def ampleDefault (n : Nat) (weak : Bool) : Nat :=
  let f1 := max 1 ((n - 1) / 3)
  let f2 := max 1 (ceilDiv (n - 1) 3)
  if weak then min n (min (ceilDiv (n + f1 + 1) 2) (ceilDiv (n + f2 + 1) 2))
  else min n (max (n - f1) (ceilDiv (n + f1 + 1) 2))

/-- eventing.py:99-108 `ample(n, f)`. -/
def ampleFault (n f : Nat) (weak : Bool) : Except Err Nat :=
  let m1 := ceilDiv (n + f + 1) 2
  let m2 := n - f
  if m2 < m1 ∧ 0 < n then .error .valueError
  else if weak then .ok (min n (min m1 m2)) else .ok (min n (max m1 m2))

end Verif.Thold
