import Verif.TelRep.PropsBacked
import Verif.Tel.Demo

/-! # Queries for logs, concretely: hypotheses met, and what does not arrive (C232, C233) -/

namespace Verif.TelRep.Demo

open Verif.Kel Verif.Tel Verif.Tel.DemoTel

/-- The sender, and the key events a receiver has. -/
def S : TNode := t0.run env1 hist
def N : Node := (t0.run env1 (kel1 7)).node

theorem plain : Plain env1 S.reg 1000 2000 vcpA where
  log := by decide +kernel
  stored := by decide +kernel
  ilk := rfl
  nb := rfl
  baks := rfl
  toad := rfl
  ne := by decide
  ok := ⟨rfl, rfl⟩
  of := by
    intro on d e hm he
    have hl : S.reg.tels 2000 = [(0, 2001), (1, 2003)] := by decide +kernel
    have h1 : S.reg.tvts 2000 2001 = some issA := by decide +kernel
    have h2 : S.reg.tvts 2000 2003 = some revA := by decide +kernel
    rw [hl] at hm
    simp only [List.mem_cons, Prod.mk.injEq, List.not_mem_nil, or_false] at hm
    rcases hm with ⟨_, rfl⟩ | ⟨_, rfl⟩
    · rw [h1] at he; cases he; rfl
    · rw [h2] at he; cases he; rfl

theorem sealsK : Seals env1 N S.reg 1 1000 := by
  intro on d e hm he
  have hl : S.reg.tels 1000 = [(0, 1000)] := by decide +kernel
  have h1 : S.reg.tvts 1000 1000 = some vcpA := by decide +kernel
  rw [hl] at hm
  simp only [List.mem_cons, Prod.mk.injEq, List.not_mem_nil, or_false] at hm
  obtain ⟨_, rfl⟩ := hm
  rw [h1] at he
  cases he
  exact ⟨1, 11, by decide +kernel, Demo.ixn1, 11, by decide +kernel, by decide +kernel, rfl, by decide +kernel⟩

theorem sealsP : Seals env1 N S.reg 1 2000 := by
  intro on d e hm he
  have hl : S.reg.tels 2000 = [(0, 2001), (1, 2003)] := by decide +kernel
  have h1 : S.reg.tvts 2000 2001 = some issA := by decide +kernel
  have h2 : S.reg.tvts 2000 2003 = some revA := by decide +kernel
  rw [hl] at hm
  simp only [List.mem_cons, Prod.mk.injEq, List.not_mem_nil, or_false] at hm
  rcases hm with ⟨_, rfl⟩ | ⟨_, rfl⟩
  · rw [h1] at he
    cases he
    exact ⟨2, 12, by decide +kernel, Demo.ixn2, 12, by decide +kernel, by decide +kernel, rfl, by decide +kernel⟩
  · rw [h2] at he
    cases he
    exact ⟨3, 13, by decide +kernel, a3, 13, by decide +kernel, by decide +kernel, rfl, by decide +kernel⟩

/-- Hypotheses of `c232_answered`, `c232_replayed_partial` and `c233_registry`. -/
example : TReached env1 U V S ∧ NoColl U ∧ NoCollT V ∧ SelfAddressing V ∧ ∃ tv, (S.reg.fetch 1000).2 = some tv := ⟨reached, noColl, noCollT, selfAddressing, _, rfl⟩

/-- What is sent, and what becomes of it. -/
example : (tels S.reg 1000 (some 2000)).toOption = some (some [⟨vcpA, some (1, 11), []⟩, ⟨issA, some (2, 12), []⟩, ⟨revA, some (3, 13), []⟩]) ∧
    (replay env1 N Reger.empty [⟨vcpA, some (1, 11), []⟩, ⟨issA, some (2, 12), []⟩, ⟨revA, some (3, 13), []⟩]).tels 2000 = [(0, 2001), (1, 2003)] ∧
    (tels S.reg 5 none).toOption = some none ∧ (tsn S.reg 1000 none).1.length = 1 := by decide +kernel

/-! ## With backers -/

/-- Credential 2200 of registry 1200, revoked. -/
def brvC : TEvt := { base with ilk := .brv, pre := 2200, sn := 1, said := 2203, prior := 2201, raI := 1200, raD := 1200 }
def env4 : TEnv := tenv [(11, vcpC), (12, bisC), (13, brvC)]
def hist4 : List TInp :=
  kel1 7 ++ [tell vcpC 1 11 [bsig vcpC 801 0, bsig vcpC 802 1], tell bisC 2 12 [bsig bisC 801 0, bsig bisC 802 1], tell brvC 3 13 [bsig brvC 802 1, bsig brvC 801 0]]
def V4 : TEvt → Prop := fun e => e ∈ [vcpC, bisC, brvC]
def B : TNode := t0.run env4 hist4

theorem noCollT4 : NoCollT V4 := by
  have h : ∀ x ∈ [vcpC, bisC, brvC], ∀ y ∈ [vcpC, bisC, brvC], x.said = y.said → x = y := by decide +kernel
  exact fun x y hx hy => h x hx y hy

theorem selfAddressing4 : SelfAddressing V4 := by
  have h : ∀ x ∈ [vcpC, bisC, brvC], x.ilk = .vcp → x.pre = x.said := by decide +kernel
  exact h

theorem delivers4 : TDelivers U V4 hist4 := by
  have h1 : hist4.all (fun i => match i.event with | some e => decide (e ∈ keyEvents) | none => true) = true := by decide +kernel
  have h2 : hist4.all (fun i => match i.tevent with | some e => decide (e ∈ [vcpC, bisC, brvC]) | none => true) = true := by decide +kernel
  rw [List.all_eq_true] at h1 h2
  constructor
  · intro i hi e he
    have := h1 i hi
    rw [he] at this
    show e ∈ keyEvents
    exact of_decide_eq_true this
  · intro i hi e he
    have := h2 i hi
    rw [he] at this
    show e ∈ [vcpC, bisC, brvC]
    exact of_decide_eq_true this

theorem reached4 : TReached env4 U V4 B := ⟨[], [], fun _ => none, hist4, delivers4, rfl⟩

theorem entries4 {on d : Nat} {e : TEvt} (hm : (on, d) ∈ B.reg.tels 2200) (he : B.reg.tvts 2200 d = some e) : (d = 2201 ∧ e = bisC) ∨ (d = 2203 ∧ e = brvC) := by
  have hl : B.reg.tels 2200 = [(0, 2201), (1, 2203)] := by decide +kernel
  have h1 : B.reg.tvts 2200 2201 = some bisC := by decide +kernel
  have h2 : B.reg.tvts 2200 2203 = some brvC := by decide +kernel
  rw [hl] at hm
  simp only [List.mem_cons, Prod.mk.injEq, List.not_mem_nil, or_false] at hm
  rcases hm with ⟨_, rfl⟩ | ⟨_, rfl⟩
  · rw [h1] at he; cases he; exact .inl ⟨rfl, rfl⟩
  · rw [h2] at he; cases he; exact .inr ⟨rfl, rfl⟩

theorem entry4 {on d : Nat} {e : TEvt} (hm : (on, d) ∈ B.reg.tels 1200) (he : B.reg.tvts 1200 d = some e) : d = 1200 ∧ e = vcpC := by
  have hl : B.reg.tels 1200 = [(0, 1200)] := by decide +kernel
  have h1 : B.reg.tvts 1200 1200 = some vcpC := by decide +kernel
  rw [hl] at hm
  simp only [List.mem_cons, Prod.mk.injEq, List.not_mem_nil, or_false] at hm
  obtain ⟨_, rfl⟩ := hm
  rw [h1] at he
  cases he
  exact ⟨rfl, rfl⟩

theorem plain4 : PlainB env4 B.reg 1200 2200 vcpC where
  log := by decide +kernel
  stored := by decide +kernel
  ilk := rfl
  nb := rfl
  baks := by decide +kernel
  toad := by decide
  ne := by decide
  ok := ⟨rfl, rfl⟩
  of := by
    intro on d e hm he
    rcases entries4 hm he with ⟨_, rfl⟩ | ⟨_, rfl⟩ <;> exact ⟨rfl, rfl⟩

/-- Hypotheses of `c232_replayed_backed_partial`. -/
example : Seals env4 B.node B.reg 1 1200 ∧ Seals env4 B.node B.reg 1 2200 ∧ Backed env4 B.reg vcpC 1200 ∧ Backed env4 B.reg vcpC 2200 ∧ ∃ tv, (B.reg.fetch 1200).2 = some tv := by
  refine ⟨fun on d e hm he => ?_, fun on d e hm he => ?_, fun on d e hm he => ?_, fun on d e hm he => ?_, _, rfl⟩
  · obtain ⟨rfl, rfl⟩ := entry4 hm he
    exact ⟨1, 11, by decide +kernel, Demo.ixn1, 11, by decide +kernel, by decide +kernel, rfl, by decide +kernel⟩
  · rcases entries4 hm he with ⟨rfl, rfl⟩ | ⟨rfl, rfl⟩
    · exact ⟨2, 12, by decide +kernel, Demo.ixn2, 12, by decide +kernel, by decide +kernel, rfl, by decide +kernel⟩
    · exact ⟨3, 13, by decide +kernel, a3, 13, by decide +kernel, by decide +kernel, rfl, by decide +kernel⟩
  · obtain ⟨rfl, rfl⟩ := entry4 hm he
    decide +kernel
  · rcases entries4 hm he with ⟨rfl, rfl⟩ | ⟨rfl, rfl⟩ <;> decide +kernel

/-- Hypotheses of `c232_missing`. -/
example : (0, 7) ∈ ({ Reger.empty with tels := fun _ => [(0, 7)] } : Reger).tels 1 ∧ ({ Reger.empty with tels := fun _ => [(0, 7)] } : Reger).tvts 1 7 = none := by decide

/-- The logs a receiver has that gets the answer. -/
def gets (env : TEnv) (n : Node) (r : Reger) (ri vci : Id) : Option (List (Nat × Dig) × List (Nat × Dig)) :=
  match tels r ri (some vci) with
  | .ok (some ms) => some ((replay env n Reger.empty ms).tels ri, (replay env n Reger.empty ms).tels vci)
  | _ => none

/-- **C232 fails when a wrong source seal is stored.** The history of `c60_wrong_seal_reported`: the sender has the issuance in its log, and sends it with the source seal that is wrong. A receiver
that has all key events does not accept it. -/
theorem c232_wrong_seal_sent :
    let env := tenv [(11, vcpA), (12, issA)]
    let t := t0.run env (kel1 3 ++ [tell vcpA 1 11, tell issA 9 90, tell issA 2 12])
    t.reg.tels 2000 = [(0, 2001)] ∧ gets env t.node t.reg 1000 2000 = some ([(0, 1000)], []) := by decide +kernel

/-- **C232 fails for own registries with backers.** The controller of the registry needs no signatures of its backers, and sends the inception without them. -/
theorem c232_unbacked_sent :
    let t := t0.run env1 (kel1 7 ++ [.own [1200], .tel false true vcpC (some (4, 14)) []])
    t.reg.tels 1200 = [(0, 1200)] ∧ gets env1 t.node t.reg 1200 5 = some ([], []) := by decide +kernel

/-- **C232 fails for credentials of two registries.** Credential 2000 was issued in one registry and revoked in another: a receiver of the answer for the first registry does not learn of the
revocation, which the sender reports. -/
theorem c232_foreign_revocation_lost :
    (t0.run env2 steal).reg.tels 2000 = [(0, 2001), (1, 2002)] ∧ gets env2 (t0.run env2 steal).node (t0.run env2 steal).reg 1000 2000 = some ([(0, 1000)], [(0, 2001)]) := by
  decide +kernel

/-- What `c233_credential_never` is about: a credential that is known. -/
theorem c233_known_credential :
    (tsn S.reg 1000 (some 2000)).2 = false ∧ ((S.reg.fetch 1000).2.map fun t => (S.reg.vcState t 2000).toOption.map (·.map (·.ilk))) = some (some (some .rev)) := by decide +kernel

end Verif.TelRep.Demo
