import Verif.Replay.Props
import Verif.Kel.Demo

/-! # Concrete replays and cleans -/

namespace Verif.Replay.Demo

open Verif.Kel
open Verif.Kel.Demo (env sig icp ixn1 recv)
open Verif.Thold (Thold)

/-! ## A witnessed log that is reproduced -/

/-- Inception with one witness. -/
def icpW : Event := { icp with wits := [900], toad := 1 }
/-- A rotation that replaces the witness. -/
def rotW : Event :=
  { icp with ilk := .rot, sn := 2, said := 32, prior := 11, keys := [102], ndigs := [603], toad := 1, cuts := [900], adds := [901] }

/-- A witness signature. -/
def wig (e : Event) (w : Nat) : Sig := sig e w 0

/-- Inception, interaction and rotation with their witness signatures, the one of the interaction arriving later, out of order. -/
def hist : List Inp :=
  [.event ixn1 [sig ixn1 101 0] [] none false false, .event icpW [sig icpW 101 0] [wig icpW 900] none false false,
   .pass .outOfOrder (fun _ => false), .receipts 1 11 [wig ixn1 900], .pass .partialWigs (fun _ => false),
   .event rotW [sig rotW 102 0] [wig rotW 901] none false false]

def node : Node := (Node.start [7] [] (fun _ => none)).run env hist

def U (e : Event) : Prop := e ∈ [icpW, ixn1, rotW]

theorem noColl : NoColl U := by
  have h : ∀ x ∈ [icpW, ixn1, rotW], ∀ y ∈ [icpW, ixn1, rotW], x.said = y.said → x = y := by decide +kernel
  exact fun x y hx hy => h x hx y hy

theorem reached : Reached env U node := by
  refine ⟨[7], [], fun _ => none, hist, ?_, rfl⟩
  intro i hi e he
  simp only [hist, List.mem_cons, List.not_mem_nil, or_false] at hi
  rcases hi with rfl | rfl | rfl | rfl | rfl | rfl <;> simp [Inp.delivers] at he <;> subst he <;> simp [U]

theorem result : node.db.fels 1 = [10, 11, 32] ∧ node.db.wits 1 10 = [900] ∧ node.db.wits 1 32 = [901] ∧
    node.db.wits 1 11 = [] ∧ node.db.wigs 1 10 = [wig icpW 900] ∧ node.db.wigs 1 11 = [wig ixn1 900] ∧
    node.db.wigs 1 32 = [wig rotW 901] ∧
    (node.kevers 1).map (fun k => (k.sn, k.keys, k.wits, k.delpre)) = some (2, [102], [901], none) := by decide +kernel

theorem backed : Backed env node 1 := by
  have one : ∀ (ws : List Id) (x : Event) (l vs : List Sig) (s : Sig), s ∈ l → SignedBy env ws x s → Good env ws x l vs →
      1 ≤ vs.length := by
    intro ws x l vs s hs hsb hg
    exact List.length_pos_of_mem ((hg.iff s).2 ⟨hs, hsb⟩)
  obtain ⟨_, w1, w2, _, g1, g2, g3, _⟩ := result
  have hev : ∀ x, Accepted node.db 1 x → x ∈ [icpW, ixn1, rotW] := fun x hx => (reached.evtU _ _ _ hx.2).2.2
  intro x a hx ha vs hv
  have hxu := hev x hx
  simp only [List.mem_cons, List.not_mem_nil, or_false] at hxu
  rcases hxu with rfl | rfl | rfl
  · cases ha with
    | est _ =>
      rw [show icpW.said = 10 from rfl, w1, g1] at hv
      exact one _ _ _ _ (wig icpW 900) (by simp) ⟨900, rfl, by decide⟩ hv
    | ixn h => exact absurd h (by decide)
  · cases ha with
    | est h => exact absurd h (by decide)
    | ixn h hp hs hy ha =>
      rename_i y
      have hyu := hev y hy
      simp only [List.mem_cons, List.not_mem_nil, or_false] at hyu
      have hy0 : y = icpW := by
        rcases hyu with rfl | rfl | rfl
        · rfl
        · exact absurd hp (by decide)
        · exact absurd hp (by decide)
      subst hy0
      cases ha with
      | est _ =>
        rw [show icpW.said = 10 from rfl, w1, show ixn1.said = 11 from rfl, g2] at hv
        exact one _ _ _ _ (wig ixn1 900) (by simp) ⟨900, rfl, by decide⟩ hv
      | ixn h => exact absurd h (by decide)
  · cases ha with
    | est _ =>
      rw [show rotW.said = 32 from rfl, w2, g3] at hv
      exact one _ _ _ _ (wig rotW 901) (by simp) ⟨901, rfl, by decide⟩ hv
    | ixn h => exact absurd h (by decide)

theorem notDelegated : NotDelegated node 1 := by
  intro k hk
  have := result.2.2.2.2.2.2.2
  rw [hk] at this
  simp only [Option.map_some, Option.some.injEq, Prod.mk.injEq] at this
  exact this.2.2.2

theorem allCover : AllCover node 1 := by
  intro x hx _
  have hxu : x ∈ [icpW, ixn1, rotW] := (reached.evtU _ _ _ hx.2).2.2
  simp only [List.mem_cons, List.not_mem_nil, or_false] at hxu
  rcases hxu with rfl | rfl | rfl <;> exact ⟨fun _ h => (by cases h), fun _ h => (by cases h)⟩

/-- The hypotheses of `c174_replay_partial` are met by a log with a rotation and a change of witnesses, sent to an empty node. -/
example : Agree (replay env (Node.start [8] [] (fun _ => none)) (clonePre node.db 1 0)) node 1 := by
  refine (c174_replay_partial noColl reached ⟨[8], [], fun _ => none, [], fun i hi => by simp at hi, rfl⟩ 1
    ⟨rfl, fun _ => rfl⟩ ⟨by decide, by decide, ?_⟩ (by rw [result.1]; decide) notDelegated allCover backed).1
  intro d w hw
  have g := good3_reached noColl reached
  have hd : d ∈ node.db.fels 1 := Decidable.byContradiction fun h => by rw [g.wit.none _ _ h] at hw; exact absurd hw (by simp)
  rw [result.1] at hd
  obtain ⟨_, w1, w2, w3, _⟩ := result
  simp only [List.mem_cons, List.not_mem_nil, or_false] at hd
  rcases hd with rfl | rfl | rfl
  · rw [w1] at hw; simp at hw; subst hw; decide
  · rw [w3] at hw; simp at hw
  · rw [w2] at hw; simp at hw; subst hw; decide

/-- What that replay is: three messages, and what the receiving node ends with. -/
example : (clonePre node.db 1 0).map (fun x => (x.e.said, x.wigs)) =
      [(10, [wig icpW 900]), (11, [wig ixn1 900]), (32, [wig rotW 901])] ∧
    (replay env (Node.start [8] [] (fun _ => none)) (clonePre node.db 1 0)).db.fels 1 = [10, 11, 32] ∧
    (clonePre node.db 1 2).map (fun x => x.e.said) = [32] := by decide +kernel

/-! ## What fails -/

/-- The own identifier's events, accepted at once because they are local. -/
def own (e : Event) (k : Nat) (ws : List Sig) : Inp := .event e [sig e k 0] ws none false true

/-- The owner's node: a witnessed inception, an interaction whose receipt has not come. -/
def pending : Node := (Node.start [1] [] (fun _ => none)).run env [own icpW 101 [wig icpW 900], own ixn1 101 []]
/-- The owner's node: not even the inception is witnessed. -/
def bare : Node := (Node.start [1] [] (fun _ => none)).run env [own icpW 101 []]
/-- Another interaction at 1. -/
def ixnOther : Event := { ixn1 with said := 99 }

/-- A delegated inception of identifier 1 by identifier 2. -/
def dip : Event := { icp with ilk := .dip, said := 60, delpre := some 2 }
/-- The delegator. -/
def boss : Event := { icp with pre := 2, said := 70 }
/-- Its approval. -/
def grant : Event := { icp with ilk := .ixn, pre := 2, sn := 1, said := 71, prior := 70, keys := [], ndigs := [], seals := [⟨1, 0, 60⟩] }
/-- A node that accepted both. -/
def both : Node := (Node.start [] [] (fun _ => none)).run env
  [recv boss 101, recv grant 101, .event dip [sig dip 101 0] [] (some (1, 71)) false false]

/-- Two keys but one weight. -/
def icpT : Event := { icp with keys := [101, 102], kt := .wtd [[.wt 1]] }
/-- A node that got a signature of the first key, then one of the second. -/
def twice : Node := (Node.start [] [] (fun _ => none)).run env
  [.event icpT [sig icpT 101 0] [] none false false, .event icpT [sig icpT 102 1] [] none false false]

/-- **C174, the conditions are needed.** Replays that the receiving node does not take: a log of an owner that lacks witness
signatures ends early; a delegated identifier is not accepted where the delegator's log has not been replayed before; a valid
signature that arrived late, by a key beyond the last weight, makes the whole log unacceptable to others. -/
theorem c174_counterexamples :
    (pending.db.fels 1 = [10, 11] ∧ (replay env (Node.start [] [] (fun _ => none)) (clonePre pending.db 1 0)).db.fels 1 = [10]) ∧
    (both.db.fels 1 = [60] ∧ (replay env (Node.start [] [] (fun _ => none)) (clonePre both.db 1 0)).db.fels 1 = []) ∧
    (twice.db.fels 1 = [10] ∧ (replay env (Node.start [] [] (fun _ => none)) (clonePre twice.db 1 0)).db.fels 1 = []) := by
  decide +kernel

/-- **C175, what a clean loses.** (1) An own event without enough receipts disappears: the owner's key state goes back to
the event before, the identifier is still its own, and it will accept another event at the same position. (2) When even the
inception lacks receipts the log is empty, yet the key state is taken over without verification and the identifier stays its own. (3) A
delegated identifier that sorts before its delegator loses its log. -/
theorem c175_counterexamples :
    (pending.db.fels 1 = [10, 11] ∧ (pending.kevers 1).map Kever.sn = some 1 ∧
      (clean env pending.db [1] [⟨1, none⟩]).db.fels 1 = [10] ∧
      ((clean env pending.db [1] [⟨1, none⟩]).kevers 1).map Kever.sn = some 0 ∧
      (clean env pending.db [1] [⟨1, none⟩]).prefixes = [1] ∧
      (((clean env pending.db [1] [⟨1, none⟩]).step env (own ixnOther 101 [])).db.kels 1 1 = [99] ∧
        pending.db.kels 1 1 = [11])) ∧
    (bare.db.fels 1 = [10] ∧ (clean env bare.db [1] [⟨1, none⟩]).db.fels 1 = [] ∧
      (clean env bare.db [1] [⟨1, none⟩]).db.kels 1 0 = [] ∧
      ((clean env bare.db [1] [⟨1, none⟩]).kevers 1).map (fun k => (k.sn, k.keys)) = some (0, [101]) ∧
      (clean env bare.db [1] [⟨1, none⟩]).prefixes = [1]) ∧
    (both.db.fels 1 = [60] ∧ (clean env both.db [1, 2] []).db.fels 1 = [] ∧ (clean env both.db [1, 2] []).db.fels 2 = [70, 71] ∧
      (clean env both.db [2, 1] []).db.fels 1 = [60]) := by
  decide +kernel

/-- A clean of a node with two identifiers that loses nothing. -/
example : (clean env node.db [1] [⟨1, some 7⟩]).db.fels 1 = [10, 11, 32] ∧
    ((clean env node.db [1] [⟨1, some 7⟩]).kevers 1).map (fun k => (k.sn, k.keys, k.wits)) = some (2, [102], [901]) ∧
    (clean env node.db [1] [⟨1, some 7⟩]).prefixes = [1] ∧ (clean env node.db [1] [⟨1, some 7⟩]).groups = [1] := by
  decide +kernel

/-- The hypotheses of `c175_kept_partial` are met. -/
example : ∀ p, Agree (clean env node.db [1] [⟨1, none⟩]) node p := by
  refine (c175_kept_partial noColl reached [1] [⟨1, none⟩] (by decide) ?_ ?_ ?_).1
  · intro p hp
    have g := good3_reached noColl reached
    cases hk : node.kevers p with
    | none => exact absurd hk hp
    | some k =>
      have h := (g.key p k hk).acc
      have hu : k.serder ∈ [icpW, ixn1, rotW] := (g.inv.evt _ _ _ h.2).2.2
      have hpre := (g.inv.evt _ _ _ h.2).1
      simp only [List.mem_cons, List.not_mem_nil, or_false] at hu
      rw [← hpre]
      rcases hu with hu | hu | hu <;> rw [hu] <;> decide
  · intro p hp
    simp only [List.mem_cons, List.not_mem_nil, or_false] at hp
    subst hp
    exact ⟨by rw [result.1]; decide, notDelegated, allCover, backed⟩
  · intro h hh
    simp only [List.mem_cons, List.not_mem_nil, or_false] at hh
    subst hh
    intro h0
    have := result.2.2.2.2.2.2.2
    rw [h0] at this
    exact absurd this (by simp)

end Verif.Replay.Demo
