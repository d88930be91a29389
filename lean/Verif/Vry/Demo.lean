import Verif.Vry.PropsCred
import Verif.Vry.PropsWait
import Verif.Tel.Demo

/-! # Concrete credentials: hypotheses met, and what the code lets through (C63–C69) -/

namespace Verif.Vry.DemoVry

open Verif.Kel Verif.Tel Verif.Vry
open Verif.Tel.DemoTel (vcpA issA revA vcpB base tenv tell kel1 kel2 a3)

/-- Credential 2000 of identifier 1 in registry 1000, issued to identifier 2. -/
def far : Cred := { said := 2000, regid := 1000, issuer := 1, issuee := some 2, schema := 7000, edges := some [] }
/-- Credential 2100 of identifier 2 in registry 1100, issued to 3 on the strength of the first. -/
def near : Cred :=
  { said := 2100, regid := 1100, issuer := 2, issuee := some 3, schema := 7000, edges := some [{ n := some 2000, ops := [.i2i], schema := some 7001 }] }
/-- Issuance of the second credential. -/
def issN : TEvt := { base with ilk := .iss, pre := 2100, said := 2110, ri := 1100 }

def keyEvents : List Event := DemoTel.keyEvents
def telEvents : List TEvt := [vcpA, issA, revA, vcpB, issN]
def U : Event → Prop := fun e => e ∈ keyEvents
def V : TEvt → Prop := fun e => e ∈ telEvents
def W : Cred → Anchor → Prop := fun c _ => c = far ∨ c = near

theorem noColl : NoColl U := DemoTel.noColl
theorem noCollT : NoCollT V := by
  have h : ∀ x ∈ telEvents, ∀ y ∈ telEvents, x.said = y.said → x = y := by decide +kernel
  exact fun x y hx hy => h x hx y hy
theorem selfAddressing : SelfAddressing V := by
  have h : ∀ x ∈ telEvents, x.ilk = .vcp → x.pre = x.said := by decide +kernel
  exact h
theorem noCollC : NoCollC W := by
  rintro x y _ _ (rfl | rfl) (rfl | rfl) h <;> first | rfl | exact absurd h (by decide)

/-- Everything is valid against schemas 7000 and 7001. -/
def venv (l : List (Nat × TEvt)) : VEnv := { tel := tenv l, fits := fun k _ => decide (k = 7000 ∨ k = 7001) }

def env1 : VEnv := venv [(11, vcpA), (12, issA), (13, revA), (51, vcpB), (52, issN)]
/-- Nothing is too old. -/
def never : Dig → Bool := fun _ => false
def v0 : VNode := VNode.start [] [] (fun _ => none)

/-- A history: the dependent credential comes first and has to wait for its registry, then for its schema, then for the first credential, then for the
schema of its edge. -/
def hist1 : List VInp :=
  [.cred never near (2, 1, 51)] ++ (kel1 3 ++ kel2).map .tel ++ [.tel (tell vcpA 1 11), .tel (tell issA 2 12), .tel (tell vcpB 1 51), .tel (tell issN 2 52),
    .pass never never, .schema 7000, .pass never never, .cred never far (1, 1, 11), .pass never never]
def hist2 : List VInp := hist1 ++ [.schema 7001]
def hist3 : List VInp := hist2 ++ [.pass never never]

theorem result1 : (v0.run env1 hist1).s.saved = [2000] ∧ (v0.run env1 hist1).s.mse = [2100] := by decide +kernel
theorem result2 : (v0.run env1 hist3).s.saved = [2000, 2100] ∧ (v0.run env1 hist3).s.mse = [] ∧ (v0.run env1 hist3).s.mce = [] ∧
    (v0.run env1 hist3).s.mre = [] ∧ (v0.run env1 hist3).s.subjs 2 = [2000] ∧ (v0.run env1 hist3).s.issus 2 = [2100] := by decide +kernel

/-- Whether all events of a history are in the lists. -/
def inLists (h : List VInp) : Bool :=
  (h.filterMap VInp.inner).all (fun i => (match i.event with | some e => decide (e ∈ keyEvents) | none => true) &&
    (match i.tevent with | some e => decide (e ∈ telEvents) | none => true)) &&
  h.all (fun i => match i.cred? with | some (c, _) => decide (c = far ∨ c = near) | none => true)

theorem delivers_of {h : List VInp} (hh : inLists h = true) : VDelivers U V W h := by
  simp only [inLists, List.all_eq_true, Bool.and_eq_true] at hh
  obtain ⟨h1, h2⟩ := hh
  refine ⟨⟨fun i hi e he => ?_, fun i hi e he => ?_⟩, fun i hi c a hc => ?_⟩
  · have := (h1 i hi).1
    rw [he] at this
    show e ∈ keyEvents
    exact of_decide_eq_true this
  · have := (h1 i hi).2
    rw [he] at this
    show e ∈ telEvents
    exact of_decide_eq_true this
  · have := h2 i hi
    rw [hc] at this
    show c = far ∨ c = near
    exact of_decide_eq_true this

theorem reached2 : VReached env1 U V W (v0.run env1 hist2) := ⟨[], [], fun _ => none, hist2, delivers_of (by decide +kernel), rfl⟩
theorem reached3 : VReached env1 U V W (v0.run env1 hist3) := ⟨[], [], fun _ => none, hist3, delivers_of (by decide +kernel), rfl⟩

theorem far_saved : Saved (v0.run env1 hist3).s far := ⟨by decide +kernel, by decide +kernel⟩
theorem near_saved : Saved (v0.run env1 hist3).s near := ⟨by decide +kernel, by decide +kernel⟩

/-- Hypotheses of `c63_saved`, `c63_kept`, `c64_ranked`: two saved credentials, one pointing at the other. -/
example : Points (v0.run env1 hist3).s far near := ⟨near_saved, far_saved, _, _, rfl, List.mem_singleton.2 rfl, rfl⟩

/-- The hypotheses of `c67_saved` hold of the dependent credential once all it needs has arrived. -/
theorem near_acceptable : Acceptable env1 never (v0.run env1 hist2).t.reg (v0.run env1 hist2).s near := by
  rw [← c63_accepted_iff noColl noCollT noCollC reached2 never near (2, 1, 51)]
  have h : ((v0.run env1 hist2).process env1 never near (2, 1, 51)).2.toOption = some () := by decide +kernel
  generalize ((v0.run env1 hist2).process env1 never near (2, 1, 51)).2 = o at h
  cases o with
  | error _ => simp [Except.toOption] at h
  | ok => rfl
example : Waiting (v0.run env1 hist2).s near.said ∧ (v0.run env1 hist2).s.creds near.said = some near :=
  ⟨.inr (.inr (by decide +kernel)), by decide +kernel⟩

/-- The hypotheses of `c65_issued_partial` hold of the first credential. -/
example : Registered env1.tel (v0.run env1 hist3).t.node (v0.run env1 hist3).t.reg far.regid vcpA ∧ vcpA.issuer = far.issuer := by
  refine ⟨⟨rfl, rfl, by decide +kernel, ⟨Demo.ixn1, ?_, by decide +kernel⟩⟩, rfl⟩
  exact ⟨by decide +kernel, by decide +kernel⟩
example : ∀ e, V e → e.pre = far.said → e.regk = some far.regid := by
  have h : ∀ x ∈ telEvents, x.pre = far.said → x.regk = some far.regid := by decide +kernel
  exact h

/-! ## C65: who issued -/

/-- Registry 1100 belongs to identifier 2; the credential names identifier 1 as its issuer. -/
def forged : Cred := { said := 2100, regid := 1100, issuer := 1, issuee := some 3, schema := 7000, edges := some [] }

def forgery (c : Cred) : List VInp :=
  (kel1 2 ++ kel2).map .tel ++ [.schema 7000, .tel (tell vcpA 1 11), .tel (tell vcpB 1 51), .tel (tell issN 2 52), .cred never c (2, 2, 52)]

/-- **C65 fails.** A credential is saved, and listed under identifier 1 as its issuer, although it was issued in a registry of identifier 2 and
identifier 1 sealed nothing but its own registry: the issuer named by the credential is not compared with the one the registry belongs to
(vdr/verifying.py:120-145). -/
theorem c65_foreign_registry :
    (v0.run env1 (forgery forged)).s.saved = [2100] ∧ (v0.run env1 (forgery forged)).s.issus 1 = [2100] ∧
    ((v0.run env1 (forgery forged)).t.reg.tevers 1100).map (fun t => t.pre) = some 2 ∧
    (v0.run env1 (forgery forged)).t.node.db.fels 1 = [10, 11] := by decide +kernel

/-- The credential even names the registry of identifier 1. -/
def forged' : Cred := { forged with regid := 1000 }

/-- **C65 fails, with the right registry.** The credential names identifier 1 and the registry of identifier 1. Its log holds an issuance of a registry of
identifier 2 only: the status of a credential does not depend on the registry asked (vdr/eventing.py:1144-1192). -/
theorem c65_foreign_event :
    (v0.run env1 (forgery forged')).s.saved = [2100] ∧ (v0.run env1 (forgery forged')).s.issus 1 = [2100] ∧
    ((v0.run env1 (forgery forged')).t.reg.tevers 1000).map (fun t => t.pre) = some 1 ∧
    (v0.run env1 (forgery forged')).t.reg.tels 2100 = [(0, 2110)] ∧ issN.regk = some 1100 := by decide +kernel

/-! ## C66: revoked credentials -/

/-- The first credential is issued and revoked, then delivered. -/
def revoked : List VInp :=
  (kel1 4 ++ kel2).map .tel ++ [.schema 7000, .schema 7001, .tel (tell vcpA 1 11), .tel (tell issA 2 12), .tel (tell revA 3 13), .tel (tell vcpB 1 51),
    .tel (tell issN 2 52), .cred never far (1, 1, 11)]

/-- **C66 fails.** A credential revoked long ago is saved (vdr/verifying.py:142-145). -/
theorem c66_revoked_accepted :
    (v0.run env1 revoked).t.reg.tels 2000 = [(0, 2001), (1, 2003)] ∧ (v0.run env1 revoked).s.saved = [2000] := by decide +kernel

/-- Hypotheses of `c66_revoked_edge_partial`. -/
example : VReached env1 U V W (v0.run env1 revoked) := ⟨[], [], fun _ => none, revoked, delivers_of (by decide +kernel), rfl⟩
example : (v0.run env1 revoked).s.creds far.said = some far ∧ ¬ Saved (v0.run env1 revoked).s near :=
  ⟨by decide +kernel, fun h => absurd h.listed (by decide +kernel)⟩
example : InLog (v0.run env1 revoked).t.reg far.said 1 revA ∧ revA.ilk.revoked = true := ⟨⟨by decide +kernel, by decide +kernel⟩, rfl⟩

/-- And the dependent credential is refused and not kept waiting. -/
theorem revoked_edge : (v0.run env1 (revoked ++ [.cred never near (2, 2, 52)])).s.saved = [2000] ∧
    (v0.run env1 (revoked ++ [.cred never near (2, 2, 52)])).s.mce = [] := by decide +kernel

/-! ## C69: anchors -/

/-- **C69 fails.** The saved credential is delivered again with an anchor that names an event that does not exist; it replaces the one that was
stored. -/
theorem c69_anchor_replaced :
    (v0.run env1 hist3).s.cancs 2000 = some (1, 1, 11) ∧
    (v0.run env1 (hist3 ++ [.cred never far (9, 9, 999)])).s.cancs 2000 = some (9, 9, 999) := by decide +kernel

/-! ## C67: waiting credentials -/

/-- The hypotheses of `c67_not_lost` and `c67_arrival` hold of the first credential before anything is known. -/
example : Hopeful env1 v0.t.reg v0.s far := by
  refine ⟨by decide, ?_, [], rfl, by simp⟩
  intro tv h
  exact absurd h (by simp [v0, VNode.start, TNode.start, Reger.empty, Reger.fetch])

end Verif.Vry.DemoVry
