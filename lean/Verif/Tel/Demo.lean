import Verif.Tel.PropsWait
import Verif.Kel.Demo

/-! # Concrete registries: hypotheses met, and what the code lets through (C55–C62) -/

namespace Verif.Tel.DemoTel

open Verif.Kel Verif.Tel

/-- Interactions of identifier 1 after `Demo.ixn1` (number 1, digest 11) and `Demo.ixn2` (number 2, digest 12). -/
def a3 : Event := { Demo.ixn1 with sn := 3, said := 13, prior := 12 }
def a4 : Event := { Demo.ixn1 with sn := 4, said := 14, prior := 13 }
def a5 : Event := { Demo.ixn1 with sn := 5, said := 15, prior := 14 }
def a6 : Event := { Demo.ixn1 with sn := 6, said := 16, prior := 15 }
/-- Identifier 2, with key 201. -/
def b0 : Event := { Demo.icp with pre := 2, said := 50, keys := [201], ndigs := [702] }
def b1 : Event := { Demo.ixn1 with pre := 2, sn := 1, said := 51, prior := 50 }
def b2 : Event := { Demo.ixn1 with pre := 2, sn := 2, said := 52, prior := 51 }

/-- A transaction event with everything unused left empty. -/
def base : TEvt :=
  { ilk := .vcp, pre := 0, sn := 0, said := 0, prior := 0, issuer := 0, baks := [], toad := 0, noBackers := true, cuts := [], adds := [], ri := 0,
    raI := 0, raD := 0 }

/-- Registry 1000 of identifier 1, registry 1100 of identifier 2, both without backers. -/
def vcpA : TEvt := { base with pre := 1000, said := 1000, issuer := 1 }
def vcpB : TEvt := { base with pre := 1100, said := 1100, issuer := 2 }
/-- Credential 2000, issued and revoked in registry 1000. -/
def issA : TEvt := { base with ilk := .iss, pre := 2000, said := 2001, ri := 1000 }
def revA : TEvt := { base with ilk := .rev, pre := 2000, sn := 1, said := 2003, prior := 2001, ri := 1000 }
/-- The same credential, revoked and issued in registry 1100. -/
def revB : TEvt := { base with ilk := .rev, pre := 2000, sn := 1, said := 2002, prior := 2001, ri := 1100 }
def issB : TEvt := { base with ilk := .iss, pre := 2000, said := 2101, ri := 1100 }
/-- Registry 1200 of identifier 1 with backers 801 and 802, both needed. -/
def vcpC : TEvt := { base with pre := 1200, said := 1200, issuer := 1, baks := [801, 802], toad := 2, noBackers := false }
/-- Rotations of that registry: two at number 1, one that follows the second of them. -/
def vrt1 : TEvt := { base with ilk := .vrt, pre := 1200, sn := 1, said := 1201, prior := 1200, cuts := [801], toad := 1, noBackers := false }
def vrt1' : TEvt := { base with ilk := .vrt, pre := 1200, sn := 1, said := 1211, prior := 1200, cuts := [802], toad := 1, noBackers := false }
def vrt2 : TEvt := { base with ilk := .vrt, pre := 1200, sn := 2, said := 1212, prior := 1211, adds := [803], toad := 1, noBackers := false }
/-- Never sealed, never accepted, without backers. -/
def vrtX : TEvt := { base with ilk := .vrt, pre := 1200, sn := 7, said := 1299, prior := 1200, noBackers := false }
/-- Credential 2200 of registry 1200, once with reference to the inception and once to the event never accepted. -/
def bisC : TEvt := { base with ilk := .bis, pre := 2200, said := 2201, raI := 1200, raD := 1200 }
def bisX : TEvt := { base with ilk := .bis, pre := 2200, said := 2202, raI := 1200, raD := 1299 }
/-- An issuance in registry 1000 of a credential that has the identifier of registry 1200. -/
def squat : TEvt := { base with ilk := .iss, pre := 1200, said := 1290, ri := 1000 }

/-- Seals: key event digest and the transaction event sealed. -/
def sealOf (l : List (Nat × TEvt)) (e : Event) : Anc :=
  match l.find? (fun x => decide (x.1 = e.said)) with
  | some x => .one x.2.pre x.2.sn x.2.said
  | none => if e.said = 99 then .odd else .notOne

/-- Toy cryptography with the seals `l`; backer `w` signs `e` with `w * 10000 + e.said`. -/
def tenv (l : List (Nat × TEvt)) : TEnv :=
  { kel := Demo.env, anc := sealOf l, bverify := fun w s e => decide (s = w * 10000 + e.said) }

/-- Delivery of a transaction event from elsewhere with the source seal (s, d). -/
def tell (e : TEvt) (s d : Nat) (bs : List Sig := []) : TInp := .tel false false e (some (s, d)) bs

/-- Backer signature. -/
def bsig (e : TEvt) (w i : Nat) : Sig := { code := 0, index := i, ondex := some i, raw := w * 10000 + e.said }

/-- Key events of identifiers 1 and 2. -/
def kel1 (n : Nat) : List TInp := ([Demo.icp, Demo.ixn1, Demo.ixn2, a3, a4, a5, a6].take n).map (fun e => .kel (Demo.recv e 101))
def kel2 : List TInp := [b0, b1, b2].map (fun e => .kel (Demo.recv e 201))

/-- A node without own identifiers. -/
def t0 : TNode := TNode.start [] [] (fun _ => none)

/-! ## An ordinary history -/

/-- The events of the ordinary history. -/
def keyEvents : List Event := [Demo.icp, Demo.ixn1, Demo.ixn2, a3, a4, a5, a6, b0, b1, b2]
def telEvents : List TEvt := [vcpA, issA, revA, vcpB, vcpC, vrt1]
def U : Event → Prop := fun e => e ∈ keyEvents
def V : TEvt → Prop := fun e => e ∈ telEvents

theorem noColl : NoColl U := by
  have h : ∀ x ∈ keyEvents, ∀ y ∈ keyEvents, x.said = y.said → x = y := by decide +kernel
  exact fun x y hx hy => h x hx y hy

theorem noCollT : NoCollT V := by
  have h : ∀ x ∈ telEvents, ∀ y ∈ telEvents, x.said = y.said → x = y := by decide +kernel
  exact fun x y hx hy => h x hx y hy

theorem selfAddressing : SelfAddressing V := by
  have h : ∀ x ∈ telEvents, x.ilk = .vcp → x.pre = x.said := by decide +kernel
  exact h

theorem noSquat : NoSquat V := by
  have h : ∀ x ∈ telEvents, ∀ y ∈ telEvents, x.ilk = .vcp → y.pre = x.pre → y.ilk = .vcp ∨ y.ilk = .vrt := by decide +kernel
  exact fun x y hx hy => h x hx y hy

/-- Seals of the ordinary history. -/
def env1 : TEnv := tenv [(11, vcpA), (12, issA), (13, revA), (14, vcpC), (15, vrt1), (51, vcpB)]

/-- Registry 1000 with a credential issued and revoked, the issuance arriving before its seal; registry 1200 with a rotation. -/
def hist : List TInp :=
  kel1 2 ++ [tell vcpA 1 11, tell issA 2 12] ++ (kel1 7).drop 2 ++ [.passA false false, tell revA 3 13,
    tell vcpC 4 14 [bsig vcpC 801 0, bsig vcpC 802 1], tell vrt1 5 15 [bsig vrt1 802 0]]

/-- Whether all events of a history are in the lists. -/
def inLists (h : List TInp) : Bool :=
  h.all (fun i => (match i.event with | some e => decide (e ∈ keyEvents) | none => true) &&
    (match i.tevent with | some e => decide (e ∈ telEvents) | none => true))

theorem delivers_of {h : List TInp} (hh : inLists h = true) : TDelivers U V h := by
  simp only [inLists, List.all_eq_true, Bool.and_eq_true] at hh
  constructor
  · intro i hi e he
    have := (hh i hi).1
    rw [he] at this
    show e ∈ keyEvents
    exact of_decide_eq_true this
  · intro i hi e he
    have := (hh i hi).2
    rw [he] at this
    show e ∈ telEvents
    exact of_decide_eq_true this

theorem delivers : TDelivers U V hist := delivers_of (by decide +kernel)

theorem reached : TReached env1 U V (t0.run env1 hist) := ⟨[], [], fun _ => none, hist, delivers, rfl⟩

/-- What it leads to. -/
theorem result :
    (t0.run env1 hist).reg.tels 1000 = [(0, 1000)] ∧ (t0.run env1 hist).reg.tels 2000 = [(0, 2001), (1, 2003)] ∧
    (t0.run env1 hist).reg.tels 1200 = [(0, 1200), (1, 1201)] ∧
    ((t0.run env1 hist).reg.tevers 1200).map (fun t => (t.sn, t.toad, t.baks)) = some (1, 1, [802]) ∧
    (t0.run env1 hist).reg.taes = [] := by decide +kernel

/-- Hypotheses of `c55_entries_sealed`, `c58_gapless`, `c58_kinds`, `c56_revoked_forever` and `c56_reported`. -/
example : (1, 2003) ∈ (t0.run env1 hist).reg.tels 2000 := by decide +kernel
theorem revA_in : InLog (t0.run env1 hist).reg 2000 1 revA := ⟨by decide +kernel, by decide +kernel⟩
example : revA.ilk.revoked = true := rfl
example : ∀ e, V e → e.pre = 2000 → e.ilk ≠ .vcp ∧ e.ilk ≠ .vrt := by
  have h : ∀ x ∈ telEvents, x.pre = 2000 → x.ilk ≠ .vcp ∧ x.ilk ≠ .vrt := by decide +kernel
  exact h
example : ∃ tv s, (t0.run env1 hist).reg.tevers 1000 = some tv ∧ (t0.run env1 hist).reg.vcState tv 2000 = .ok (some s) ∧ s.ilk = .rev := by
  refine ⟨_, _, rfl, rfl, rfl⟩

theorem registered : Registered env1 (t0.run env1 hist).node (t0.run env1 hist).reg 1000 vcpA :=
  ⟨rfl, rfl, by decide +kernel, Demo.ixn1, ⟨by decide +kernel, by decide +kernel⟩, by decide +kernel⟩

/-- Hypotheses of `c55_one_issuer` and `c57_one_issuer_partial`. -/
example : ∀ e, V e → e.pre = 2000 → e.regk = some 1000 := by
  have h : ∀ x ∈ telEvents, x.pre = 2000 → x.regk = some 1000 := by decide +kernel
  exact h
example : (t0.run env1 hist).reg.tels 2000 ≠ [] := by decide +kernel

/-- Hypotheses of `c55_unsealed_refused`: without a seal the revocation stays out. -/
example : V revA ∧ revA.regk = some 1000 := ⟨by simp [V, telEvents], rfl⟩

/-- Hypotheses of `c58_registry_chain_partial`, `c59_back_to_inception`, `c59_unrotated_partial`, `c59_backerless`. -/
example : ∀ i ∈ hist, i ≠ TInp.restart := by
  intro i hi h
  subst h
  simp [hist, kel1, tell] at hi
example : ((t0.run env1 hist).reg.fetch 1000).2.map (fun t => (t.noBackers, t.ilk)) = some (true, .vcp) := by decide +kernel
example : ((t0.run env1 hist).reg.fetch 1200).2.map (fun t => (t.noBackers, t.ilk)) = some (false, .vrt) := by decide +kernel

/-- Hypotheses of `c61_backed_partial`: accepted events of the three kinds. -/
example : ((t0.run env1 (kel1 7)).reg.processEvent env1 (t0.run env1 (kel1 7)).node false false vcpC (some (4, 14))
    [bsig vcpC 801 0, bsig vcpC 802 1]).2 = .ok () := rfl

/-- Hypotheses of `c62_source` and `c62_own_partial`: registry 1000 is own, the inception of 1100 arrives. -/
def own1 : List TInp := kel1 2 ++ [.own [1000], .tel false true vcpA (some (1, 11)) []]
example : 1000 ∈ (t0.run env1 own1).reg.registries ∧ (t0.run env1 own1).reg.tels 1000 = [(0, 1000)] := by decide +kernel
example : ∀ i ∈ kel2 ++ [tell vcpB 1 51, .passA false false, .restart], i.foreign 1000 = true := by decide +kernel
example : (t0.run env1 (own1 ++ (kel2 ++ [tell vcpB 1 51, .passA false false, .restart]))).reg.tels 1100 = [(0, 1100)] := by decide +kernel

/-- Hypotheses of `c60_waits` and `c60_accepted_partial`: the state before the pass. -/
def before : List TInp := kel1 2 ++ [tell vcpA 1 11, tell issA 2 12] ++ [.kel (Demo.recv Demo.ixn2 101)]
theorem next_before : Next env1 (t0.run env1 before).reg false false 1000 issA :=
  ⟨rfl, .inl ⟨rfl, rfl⟩, rfl, .inr (by decide +kernel), ⟨newTever false vcpA, rfl, rfl⟩, by decide +kernel⟩
example : (t0.run env1 before).reg.tvts 2000 2001 = some issA ∧ (t0.run env1 before).reg.ancs 2000 2001 = some (2, 12) ∧
    (t0.run env1 before).reg.taes = [(2000, 0, 2001)] ∧ (t0.run env1 before).reg.tels 2000 = [] := by decide +kernel
example : SealAt env1 (t0.run env1 before).node 1 2 12 issA := ⟨Demo.ixn2, 12, by decide +kernel, by decide +kernel, rfl, by decide +kernel⟩
example : Next env1 (t0.run env1 (kel1 2 ++ [tell vcpA 1 11])).reg false false 1000 issA ∧
    ∀ tv, ((t0.run env1 (kel1 2 ++ [tell vcpA 1 11])).reg.fetch 1000).2 = some tv →
      (t0.run env1 (kel1 2 ++ [tell vcpA 1 11])).node.db.kels tv.pre 2 = [] := by
  refine ⟨⟨rfl, .inl ⟨rfl, rfl⟩, rfl, .inr (by decide +kernel), ⟨newTever false vcpA, rfl, rfl⟩, by decide +kernel⟩, ?_⟩
  intro tv htv
  have : ((t0.run env1 (kel1 2 ++ [tell vcpA 1 11])).reg.fetch 1000).2 = some (newTever false vcpA) := rfl
  rw [this] at htv
  injection htv with htv
  subst htv
  decide +kernel

/-! ## What the code lets through -/

/-- Seals of the foreign registry. -/
def env2 : TEnv := tenv [(11, vcpA), (12, issA), (51, vcpB), (52, revB)]

/-- Identifier 1 issues a credential in its registry; identifier 2, which controls another registry, revokes it. -/
def steal : List TInp := kel1 3 ++ kel2 ++ [tell vcpA 1 11, tell issA 2 12, tell vcpB 1 51, tell revB 2 52]

/-- **C57 fails.** A credential is revoked by the controller of a registry it was not issued in: registry 1000 of identifier 1 reports
credential 2000 as revoked although identifier 1 sealed no revocation. -/
theorem c57_foreign_revocation :
    (t0.run env2 steal).reg.tels 2000 = [(0, 2001), (1, 2002)] ∧ issA.regk = some 1000 ∧ revB.regk = some 1100 ∧
    (((t0.run env2 steal).reg.tevers 1000).map (fun t => (t.pre, ((t0.run env2 steal).reg.vcState t 2000).toOption.map (·.map (·.ilk))))) =
      some (1, some (some .rev)) ∧
    (t0.run env2 steal).node.db.fels 1 = [10, 11, 12] ∧
    (∀ e ∈ [Demo.icp, Demo.ixn1, Demo.ixn2], env2.anc e ≠ .one revB.pre revB.sn revB.said) := by decide +kernel

/-- **C57 fails, issuance.** Whoever enters an issuance first keeps the credential: identifier 2 issues credential 2000 in its own
registry, and the issuance by identifier 1 is then refused. -/
theorem c57_foreign_issuance :
    let env := tenv [(11, vcpA), (12, issA), (51, vcpB), (52, issB)]
    let h := kel1 3 ++ kel2 ++ [tell vcpA 1 11, tell vcpB 1 51, tell issB 2 52]
    (t0.run env h).reg.tels 2000 = [(0, 2101)] ∧ (t0.run env (h ++ [tell issA 2 12])).reg.tels 2000 = [(0, 2101)] := by decide +kernel

/-- **C62 fails for credentials.** The same revocation of a credential issued in one of the node's own registries, delivered from
elsewhere outside lax mode. -/
theorem c62_own_credential_revoked :
    let h := kel1 3 ++ kel2 ++ [.own [1000], .tel false true vcpA (some (1, 11)) [], .tel false true issA (some (2, 12)) [], tell vcpB 1 51, tell revB 2 52]
    (t0.run env2 h).reg.tels 2000 = [(0, 2001), (1, 2002)] ∧ (t0.run env2 h).reg.registries = [1000] := by decide +kernel

/-- **C55, superseded seals.** Identifier 1 recovers with a rotation at number 1, which takes back the interactions at 1 and 2. An issuance
sealed in the interaction at 2 and delivered afterwards is accepted. -/
theorem c55_superseded_seal :
    let env := tenv [(11, vcpA), (12, issA)]
    let h := kel1 3 ++ [tell vcpA 1 11, .kel (Demo.recv Demo.rot1 102), tell issA 2 12]
    (t0.run env h).reg.tels 2000 = [(0, 2001)] ∧ ((t0.run env h).node.kevers 1).map (fun k => (k.sn, k.serder.said)) = some (1, 21) := by decide +kernel

/-- Seals of rotations. -/
def env3 : TEnv := tenv [(11, vcpC), (12, vrt1), (13, vrt1'), (14, vrt2), (15, bisC), (16, bisX)]

/-- Inception and rotation of registry 1200. -/
def rotated : List TInp :=
  kel1 7 ++ [tell vcpC 1 11 [bsig vcpC 801 0, bsig vcpC 802 1], tell vrt1 2 12 [bsig vrt1 802 0]]

/-- **C59 fails for rotated registries.** After a restart the registry is back at its inception. -/
theorem c59_rotation_forgotten :
    ((t0.run env3 rotated).reg.fetch 1200).2.map (fun t => (t.sn, t.toad, t.baks)) = some (1, 1, [802]) ∧
    ((t0.run env3 (rotated ++ [.restart])).reg.fetch 1200).2.map (fun t => (t.sn, t.toad, t.baks)) = some (0, 2, [801, 802]) := by
  decide +kernel

/-- **C58 fails after a restart.** A second rotation at number 1 is accepted, and one that follows it is entered in the log, after an
entry that is not its prior event. -/
theorem c58_forked_after_restart :
    let h := rotated ++ [.restart, tell vrt1' 3 13 [bsig vrt1' 801 0], tell vrt2 4 14 [bsig vrt2 801 0]]
    (t0.run env3 h).reg.tels 1200 = [(0, 1200), (1, 1201), (2, 1212)] ∧ vrt2.prior = 1211 ∧
    ((t0.run env3 h).reg.tevers 1200).map (fun t => (t.sn, t.serder.said, t.baks)) = some (2, 1212, [801, 803]) := by decide +kernel

/-- **C58 fails with credential events for the identifier of a registry.** The issuance takes number 0 of the log of registry 1200, whose
inception is accepted and yet not in the log; the rotation follows an entry that is not its prior event. -/
theorem c58_squatted :
    let env := tenv [(11, vcpA), (12, squat), (13, vcpC), (14, vrt1)]
    let h := kel1 7 ++ [tell vcpA 1 11, tell squat 2 12, tell vcpC 3 13 [bsig vcpC 801 0, bsig vcpC 802 1], tell vrt1 4 14 [bsig vrt1 802 0]]
    (t0.run env h).reg.tels 1200 = [(0, 1290), (1, 1201)] ∧ vrt1.prior = 1200 ∧ ((t0.run env h).reg.tevers 1200).map (·.sn) = some 1 := by
  decide +kernel

/-- **C60 fails when the wrong source seal came first.** The issuance is delivered with a wrong source seal and then with the right one,
both before the key event with its seal. Passes after that event find the wrong source seal only. -/
theorem c60_wrong_seal_sticks :
    let env := tenv [(11, vcpA), (12, issA)]
    let h := kel1 2 ++ [tell vcpA 1 11, tell issA 9 90, tell issA 2 12] ++ (kel1 3).drop 2 ++ [.passA false false, .passA false false]
    (t0.run env h).reg.tels 2000 = [] ∧ (t0.run env h).reg.ancs 2000 2001 = some (9, 90) ∧ (t0.run env h).reg.taes = [(2000, 0, 2001)] ∧
    verifyAnchor env (t0.run env h).node 1 issA (some (2, 12)) = .ok true := by
  refine ⟨by decide +kernel, by decide +kernel, by decide +kernel, rfl⟩

/-- **The source seal kept is not the one that was checked.** The same, with the right source seal delivered again in the end: the event is
accepted, and its registry reports the wrong source seal. -/
theorem c60_wrong_seal_reported :
    let env := tenv [(11, vcpA), (12, issA)]
    let h := kel1 3 ++ [tell vcpA 1 11, tell issA 9 90, tell issA 2 12]
    (t0.run env h).reg.tels 2000 = [(0, 2001)] ∧
    ((t0.run env h).reg.tevers 1000).map (fun t => ((t0.run env h).reg.vcState t 2000).toOption.map (·.map (·.anchor))) = some (some (some (9, 90))) := by
  decide +kernel

/-- A key event of identifier 2 whose only anchor lacks a field. -/
def b2odd : Event := { b2 with said := 99 }

/-- **C60 fails with other entries at the same number.** The issuance in registry 1000 waits for its seal; so does one for the same
credential in registry 1100, until its controller anchors something without the fields of a seal. The exception that follows removes
both. -/
theorem c60_sibling_dropped :
    let env := tenv [(11, vcpA), (12, issA), (51, vcpB)]
    let h := kel1 2 ++ [b0, b1].map (fun e => .kel (Demo.recv e 201)) ++ [tell vcpA 1 11, tell vcpB 1 51, tell issA 2 12, tell issB 2 99]
    (t0.run env h).reg.taes.length = 2 ∧
    (t0.run env (h ++ [.kel (Demo.recv b2odd 201), .passA false false])).reg.taes = [] ∧
    (t0.run env (h ++ [.kel (Demo.recv b2odd 201), .passA false false] ++ (kel1 3).drop 2 ++ [.passA false false])).reg.tels 2000 = [] := by
  decide +kernel

/-- **C60 fails for events short of backer signatures.** The signatures of the two backers arrive one after the other; the event is put
aside twice and no pass looks at it again. -/
theorem c60_backers_never :
    let h := kel1 7 ++ [tell vcpC 1 11 [bsig vcpC 801 0], tell vcpC 1 11 [bsig vcpC 802 1], .passA false false, .passO false false]
    (t0.run env3 h).reg.tels 1200 = [] ∧ (t0.run env3 h).reg.twes = [(1200, 0, 1200)] := by decide +kernel

/-- **C60 fails for own registries.** A pass in the mode for events from elsewhere throws out an event of an own registry that waits for
its seal. -/
theorem c60_own_dropped :
    let env := tenv [(11, vcpA), (12, issA)]
    let h := kel1 2 ++ [.own [1000], .tel false true vcpA (some (1, 11)) [], .tel false true issA (some (2, 12)) []]
    (t0.run env h).reg.taes = [(2000, 0, 2001)] ∧ (t0.run env (h ++ [.passA false false])).reg.taes = [] := by decide +kernel

/-- **C61 fails for repeated signatures.** Two signatures of one backer that differ in their code only meet a threshold of two. -/
theorem c61_one_backer_twice :
    (t0.run env3 (kel1 7 ++ [tell vcpC 1 11 [bsig vcpC 801 0, { bsig vcpC 801 0 with code := 1 }]])).reg.tels 1200 = [(0, 1200)] ∧
    vcpC.toad = 2 := by decide +kernel

/-- **C61 fails for credential events that refer to an event never accepted.** An issuance that refers to the inception of its registry
needs both backers. With reference to a rotation that was put aside unsealed and without checks it is accepted without any. -/
theorem c61_backers_bypassed :
    let h := kel1 7 ++ [tell vcpC 1 11 [bsig vcpC 801 0, bsig vcpC 802 1]]
    (t0.run env3 (h ++ [tell bisC 5 15])).reg.tels 2200 = [] ∧
    (t0.run env3 (h ++ [tell vrtX 6 60, tell bisX 6 16])).reg.tels 2200 = [(0, 2202)] ∧
    (t0.run env3 (h ++ [tell vrtX 6 60, tell bisX 6 16])).reg.tels 1200 = [(0, 1200)] := by decide +kernel

end Verif.Tel.DemoTel
