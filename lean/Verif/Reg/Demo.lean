import Verif.Reg.PropsRot
import Verif.Tel.Demo

/-! # Registries of identifier 1: hypotheses met, and what fails (C224–C227) -/

namespace Verif.Reg.Demo

open Verif.Kel Verif.Tel Verif.Reg
open Verif.Tel.DemoTel (t0 tenv kel1 U noColl a3)

/-- Registry 1000 without backers, registry 1200 with backers 801 and 802. -/
def vcpA : TEvt := { blank with ilk := .vcp, pre := 1000, said := 1000, issuer := 1, noBackers := true }
def vcpC : TEvt := { blank with ilk := .vcp, pre := 1200, said := 1200, issuer := 1, baks := [801, 802], toad := 2 }
/-- Credential 2000 of the first. -/
def iss : TEvt := issuance 1000 2001 2000
def rev : TEvt := revocation 1000 2003 2000 2001
/-- Rotation of the second, and a credential of it. -/
def rot : TEvt := { blank with ilk := .vrt, pre := 1200, sn := 1, said := 1201, prior := 1200, toad := 1, cuts := [801] }
def bis : TEvt := { blank with ilk := .bis, pre := 2200, said := 2201, issuer := 1200, raI := 1200, raD := 1200 }
def telEvents : List TEvt := [vcpA, vcpC, iss, rev, rot, bis]
def V : TEvt → Prop := fun e => e ∈ telEvents

/-- Key event digest and what it seals. -/
def env : TEnv := tenv [(11, vcpA), (12, iss), (13, rev), (14, vcpC), (15, rot), (16, bis)]

theorem noCollT : NoCollT V := by
  have h : ∀ x ∈ telEvents, ∀ y ∈ telEvents, x.said = y.said → x = y := by decide +kernel
  exact fun x y hx hy => h x hx y hy

theorem selfAddressing : SelfAddressing V := by
  have h : ∀ x ∈ telEvents, x.ilk = .vcp → x.pre = x.said := by decide +kernel
  exact h

def start : World := World.start t0 [1]

/-- Key events `i` to `j`. -/
def keys (i j : Nat) : List Inp := (((kel1 j).drop i)).map .node
def pass : Inp := .node (.passA true true)

/-- Both registries made, sealed and known; key events up to number 4. -/
def upA : List Inp := keys 0 2 ++ [.makeNew 7 1 1000 true none [], .anchor 1000 1000 (1, 11), pass]
def upC : List Inp := keys 0 5 ++ [.makeNew 8 1 1200 false (some 2) [801, 802], .anchor 1200 1200 (4, 14), pass]

/-- Whether a history fits, computed. -/
def fits : World → List Inp → Bool
  | _, [] => true
  | w, i :: is => (match i.made w with | some e => decide (e ∈ telEvents) | none => true) &&
      (match i with | .node j => (match j.event with | some e => decide (e ∈ DemoTel.keyEvents) | none => true) | _ => true) && fits (w.step env i) is

theorem fits_of : ∀ (h : List Inp) (w : World), fits w h = true → Fits env U V w h := by
  intro h
  induction h with
  | nil => intro w _; trivial
  | cons i is ih =>
    intro w hf
    simp only [fits, Bool.and_eq_true] at hf
    obtain ⟨⟨h1, h2⟩, h3⟩ := hf
    refine ⟨?_, ?_, ih _ h3⟩
    · intro e he
      rw [he] at h1
      show e ∈ telEvents
      exact of_decide_eq_true h1
    · intro j hj e he
      subst hj
      dsimp only at h2
      rw [he] at h2
      show e ∈ DemoTel.keyEvents
      exact of_decide_eq_true h2

theorem reachedA : Reached env U V (start.run env upA) := ⟨[], [], fun _ => none, [1], upA, fits_of _ _ (by decide +kernel), rfl⟩
theorem reachedC : Reached env U V (start.run env upC) := ⟨[], [], fun _ => none, [1], upC, fits_of _ _ (by decide +kernel), rfl⟩

/-- Hypotheses of `c224_found_partial` and `c224_name_taken`. -/
example : (start.run env (keys 0 2)).rec? 7 = none ∧ ((start.run env (keys 0 2)).make env false 7 1 vcpA).2 = .ok () := by decide +kernel
example : (start.run env upA).rec? 7 = some (1000, 1) ∧ vcpC.pre ≠ 1000 ∧ (∀ x ∈ (start.run env upA).recs, x.2.1 ≠ vcpC.pre) ∧
    ((start.run env upA).make env false 7 1 vcpC).2 = .ok () := by decide +kernel
/-- The registry made under the name of another is held, and gone after a restart. -/
theorem c224_second_lost :
    ((start.run env upA).step env (.make false 7 1 vcpC)).regs 1200 = some ⟨7, 1, false⟩ ∧
    ((start.run env upA).step env (.make false 7 1 vcpC)).byName 7 = some (1000, ⟨7, 1, false⟩) ∧
    (((start.run env upA).step env (.make false 7 1 vcpC)).step env .restart).regs 1200 = none := by decide +kernel
/-- Hypothesis of `c224_unknown` and `c224_identifier_gone`. -/
example : ∀ i ∈ upA, i.name? ≠ some 9 := by decide +kernel
example : (7, 1000, 1) ∈ (start.run env upA).recs ∧ 1 ∉ [2] := by decide +kernel

/-- Hypotheses of `c225_issued`. -/
example : ∃ t, ((start.run env upA).t.reg.fetch 1000).2 = some t ∧ t.noBackers = true ∧ env.kel.okPre 2000 = true ∧ (start.run env upA).t.reg.tels 2000 = [] ∧
    V (issuance 1000 2001 2000) := ⟨_, rfl, rfl, rfl, rfl, by show _ ∈ telEvents; decide +kernel⟩

/-- Issued, sealed. -/
def issuedA : List Inp := upA ++ [.ask false 1000 2001 (.issue 2000), .anchor 2000 2001 (2, 12)] ++ keys 2 3 ++ [pass]
theorem reachedI : Reached env U V (start.run env issuedA) := ⟨[], [], fun _ => none, [1], issuedA, fits_of _ _ (by decide +kernel), rfl⟩

/-- Hypotheses of `c225_revoked`, and what the history leads to. -/
example : (start.run env issuedA).t.reg.tels 2000 = [(0, 2001)] ∧ (start.run env issuedA).t.reg.tvts 2000 2001 = some iss ∧
    ((start.run env issuedA).t.reg.fetch 1000).2.map (·.noBackers) = some true ∧ V (revocation 1000 2003 2000 2001) :=
  ⟨by decide +kernel, by decide +kernel, by decide +kernel, by show _ ∈ telEvents; decide +kernel⟩

/-- Hypotheses of `c225_sealed_partial`, for the issuance. -/
example : ((start.run env upA).ask env false 1000 2001 (.issue 2000)).2 = .ok iss ∧ Registered env (start.run env upA).t.node (start.run env upA).t.reg 1000 vcpA ∧
    (∀ x ∈ (start.run env upA).t.reg.taes, x.1 ≠ iss.pre) ∧ (start.run env upA).t.reg.ancs iss.pre iss.said = none ∧
    SealAt env ((((start.run env upA).ask env false 1000 2001 (.issue 2000)).1.anchor iss.pre iss.said (2, 12)).run env
      ([Demo.recv Demo.ixn2 101].map fun i => .node (.kel i))).t.node vcpA.issuer 2 12 iss := by
  refine ⟨by decide +kernel, ?_, by decide +kernel, by decide +kernel, ?_⟩
  · obtain ⟨v, h1, h2⟩ := ((reachedA.ok noColl noCollT).tev 1000 _ (show (start.run env upA).t.reg.tevers 1000 = some _ from rfl)).inc
    have hv := ((reachedA.ok noColl noCollT).tvt _ _ _ h1.stored)
    have h : ∀ x ∈ telEvents, x.ilk = .vcp → x.pre = 1000 → x = vcpA := by decide +kernel
    rw [← h v hv.2.2 h1.ilk h1.pre]
    exact h1
  · exact ⟨Demo.ixn2, 12, by decide +kernel, rfl, rfl, by decide +kernel⟩

/-- Hypotheses of `c225_not_again` and `c225_not_unissued`. -/
example : (start.run env issuedA).t.reg.tels 2000 ≠ [] := by decide +kernel
example : ∀ x ∈ (start.run env upA).t.reg.tels 2000, x.1 ≠ 0 := by decide +kernel

/-- Hypotheses of `c226_rotated` and `c226_issued`; the rotation asked for is made. -/
example : ∃ t, ((start.run env upC).t.reg.fetch 1200).2 = some t ∧ t.noBackers = false ∧ t.isLocal = true ∧ t.baks = [801, 802] :=
  ⟨_, rfl, rfl, rfl, rfl⟩
example : build (start.run env upC).t.reg false 1200 1201 (.rotate (some 1) [801] []) = .ok rot ∧
    build (start.run env upC).t.reg false 1200 2201 (.issue 2200) = .ok bis := by decide +kernel
/-- One that cannot be made: the cut is not a backer. -/
example : build (start.run env upC).t.reg false 1200 1201 (.rotate (some 1) [803] []) = .error .value := by decide +kernel

/-- The last hypothesis of `c226_accepted_partial`, once key event 5 has come. -/
example : SealAt env (start.run env (upC ++ keys 5 6)).t.node 1 5 15 rot := ⟨DemoTel.a5, 15, by decide +kernel, rfl, rfl, by decide +kernel⟩

/-- Rotated and sealed. -/
def rotated : List Inp := [.ask false 1200 1201 (.rotate (some 1) [801] []), .anchor 1200 1201 (5, 15)] ++ keys 5 6 ++ [pass]

/-- **C226, fails.** The rotation that is accepted without signatures of backers is short of them when there was a restart before, and is not looked at again. -/
theorem c226_backers_after_restart :
    (start.run env (upC ++ rotated)).t.reg.tels 1200 = [(0, 1200), (1, 1201)] ∧
    (start.run env (upC ++ [.restart] ++ rotated)).t.reg.tels 1200 = [(0, 1200)] ∧
    (start.run env (upC ++ [.restart] ++ rotated)).t.reg.taes = [] ∧
    (start.run env (upC ++ [.restart] ++ rotated)).t.reg.twes = [(1200, 1, 1201)] := by decide +kernel

/-- **C226, fails.** After a rotation and a restart the registry makes a rotation of the same number again, with the backers of its inception. -/
theorem c226_number_again :
    (build (start.run env (upC ++ rotated)).t.reg false 1200 1202 (.rotate (some 1) [802] [803])).toOption.map (fun e => (e.sn, e.prior)) = some (2, 1201) ∧
    (build (start.run env (upC ++ rotated ++ [.restart])).t.reg false 1200 1202 (.rotate (some 1) [802] [803])).toOption.map (fun e => (e.sn, e.prior)) = some (1, 1200) := by
  decide +kernel

/-- **C227.** The revocation that a registry of the one class makes is refused by the other, until a restart. -/
theorem c227_until_restart :
    ((start.run env issuedA).ask env true 1000 2003 (.revoke 2000)).2 = .error .validation ∧
    ((start.run env issuedA).ask env false 1000 2003 (.revoke 2000)).2 = .ok rev := by decide +kernel

/-- A registry that is made, as `c226_incepted` has it. -/
example : (World.makeNew env start 9 1 1900 false (some 1) [801]).2 = .ok () := by decide +kernel

end Verif.Reg.Demo
