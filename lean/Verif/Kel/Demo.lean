import Verif.Kel.Spec

/-! # Small concrete histories, used to show that hypotheses of the theorems are met and as counterexamples -/

namespace Verif.Kel.Demo

open Verif.Thold (Thold)
open Verif.Kel

/-- Toy cryptography: the signature of key `k` over `e` is `k * 1000 + e.said`, the digest of key `k` is `k + 500`; identifiers
from 900 on are non-transferable. -/
def env : Env :=
  { verify := fun k s e => decide (s = k * 1000 + e.said), commits := fun k d => decide (d = k + 500),
    transferable := fun p => decide (p < 900), okPre := fun _ => true, okKey := fun _ => true }

/-- A signature of key `k` at position `i` (both lists). -/
def sig (e : Event) (k i : Nat) : Sig := { code := 0, index := i, ondex := some i, raw := k * 1000 + e.said }

/-- Inception of identifier 1 with key 101 and next key 102. -/
def icp : Event :=
  { ilk := .icp, pre := 1, sn := 0, said := 10, prior := 0, keys := [101], kt := .num 1, ndigs := [602], nt := .num 1,
    toad := 0, wits := [], cuts := [], adds := [], estOnly := false, doNotDelegate := false, delpre := none, seals := [],
    anchors := false }

/-- Interaction at 1. -/
def ixn1 : Event := { icp with ilk := .ixn, sn := 1, said := 11, prior := 10, keys := [], ndigs := [] }
/-- Interaction at 2. -/
def ixn2 : Event := { icp with ilk := .ixn, sn := 2, said := 12, prior := 11, keys := [], ndigs := [] }
/-- Rotation at 1 to key 102, next key 103: a recovery when it comes after the interactions. -/
def rot1 : Event := { icp with ilk := .rot, sn := 1, said := 21, prior := 10, keys := [102], ndigs := [603] }
/-- Interaction at 2 after the recovery. -/
def ixn2b : Event := { icp with ilk := .ixn, sn := 2, said := 22, prior := 21, keys := [], ndigs := [] }

/-- Delivery of an event with one signature by key `k`, from a remote source. -/
def recv (e : Event) (k : Nat) : Inp := .event e [sig e k 0] [] none false false

/-- A node without own identifiers. -/
def node : Node := Node.start [] [] (fun _ => none)

/-- Inception, two interactions, recovery, another interaction, out of order and with replays. -/
def hist : List Inp :=
  [recv ixn1 101, recv icp 101, .pass .outOfOrder (fun _ => false), recv ixn2 101, recv ixn1 101, recv rot1 102,
   recv icp 101, recv ixn2b 102]

/-- The events of that history. -/
def U : Event → Prop := fun e => e ∈ [icp, ixn1, ixn2, rot1, ixn2b]

theorem noColl : NoColl U := by
  have h : ∀ x ∈ [icp, ixn1, ixn2, rot1, ixn2b], ∀ y ∈ [icp, ixn1, ixn2, rot1, ixn2b], x.said = y.said → x = y := by
    decide +kernel
  exact fun x y hx hy => h x hx y hy

theorem noDrt : NoDrt U := by
  have h : ∀ x ∈ [icp, ixn1, ixn2, rot1, ixn2b], x.ilk ≠ .drt := by decide +kernel
  exact h

theorem delivers : Delivers U hist := by
  intro i hi e he
  simp only [hist, recv, List.mem_cons, List.not_mem_nil, or_false] at hi
  rcases hi with rfl | rfl | rfl | rfl | rfl | rfl | rfl | rfl <;> simp [Inp.delivers] at he <;> subst he <;> simp [U]

theorem reached : Reached env U (node.run env hist) := ⟨[], [], fun _ => none, hist, delivers, rfl⟩

/-- What the history leads to: five events first seen, the chain being `icp, rot1, ixn2b`. -/
theorem result :
    (node.run env hist).db.fels 1 = [10, 11, 12, 21, 22] ∧
    (node.run env hist).db.kels 1 0 = [10] ∧ (node.run env hist).db.kels 1 1 = [11, 21] ∧
    (node.run env hist).db.kels 1 2 = [12, 22] ∧
    ((node.run env hist).kevers 1).map (fun k => (k.sn, k.lastS, k.keys)) = some (2, 1, [102]) := by
  decide +kernel

end Verif.Kel.Demo
