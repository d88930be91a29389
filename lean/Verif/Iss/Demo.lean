import Verif.Iss.PropsSeal
import Verif.Vry.Demo

/-!
# Issuing: concrete cases that meet the hypotheses, and failures of C154–C159
-/

namespace Verif.Iss.DemoIss

open Verif.Kel (Id Dig Event)
open Verif.Tel (TEvt TInp InLog)
open Verif.Tel.DemoTel (vcpA issA revA base kel1 a3)
open Verif.Vry (VInp VEnv VNode Cred Anchor VDelivers)
open Verif.Vry.DemoVry (far env1 never v0 U V W noColl noCollT noCollC selfAddressing inLists delivers_of)
open Verif.Grp (Num)

def World.run (env : VEnv) (w : World) (l : List Inp) : World := l.foldl (World.step env) w

theorem hist_run {env : VEnv} {G : World → Inp → Prop} {w : World} (l : List Inp) (h : ∀ i ∈ l, ∀ w, G w i) : Hist env G w (World.run env w l) := by
  induction l generalizing w with
  | nil => exact .nil
  | cons i l ih => exact (Hist.step i .nil (h i (by simp) w)).trans (ih fun j hj => h j (by simp [hj]))

/-- Whether an input is within the lists of `Verif.Vry.DemoVry`. -/
def listed : Inp → Bool
  | .node i => inLists [i]
  | .issue _ c _ => decide (c = far)
  | .crashIssue c _ => decide (c = far)
  | _ => true

theorem delivered {l : List Inp} (h : l.all listed = true) : ∀ i ∈ l, ∀ w, Delivered U V W w i := by
  intro i hi w
  have := List.all_eq_true.1 h i hi
  cases i <;> simp only [listed, Delivered] at this ⊢
  · exact delivers_of this
  · exact .inl (of_decide_eq_true this)
  · exact .inl (of_decide_eq_true this)

/-- Own events come without a seal. -/
def own (e : TEvt) : Inp := .node (.tel (.tel true true e none []))
/-- Key event number `n` of identifier 1. -/
def kel (n : Nat) : List Inp := ((kel1 (n + 1)).drop n).map fun i => .node (.tel i)
/-- The pass over events that wait for their seals. -/
def passA : Inp := .node (.tel (.passA true true))

def habs : Id → Option Bool := fun p => if p = 1 then some false else none
/-- Identifier 1 as a group. -/
def habsG : Id → Option Bool := fun p => if p = 1 then some true else none
def w0 : World := World.start v0 habs
def g0 : World := World.start v0 habsG

/-- The calls for registry 1000 and credential 2000 of identifier 1. -/
def askReg : Ask := ⟨.incept, 1000, 1000, 0, 1000, (1, 1, 11)⟩
def askIss : Ask := ⟨.issue, 1000, 2000, 0, 2001, (1, 2, 12)⟩
def askRev : Ask := ⟨.revoke, 1000, 2000, 1, 2003, (1, 3, 13)⟩

/-- Registry made, sealed and called for. -/
def making : List Inp := [.node (.tel (.own [1000])), .registry 1000 1, .node (.schema 7000)] ++ kel 0 ++ [own vcpA] ++ kel 1 ++ [.ask askReg]
def made : List Inp := making ++ [passA, .registrar, .published]
/-- Credential issued, called for, and reported. -/
def issuing : List Inp := made ++ [own issA] ++ kel 2
def issued : List Inp := issuing ++ [.ask askIss, passA, .issue never far (2000, 0, 2001), .registrar, .published]
/-- Its revocation, sealed and in its log, before and after a pass of the Registrar. -/
def revoking : List Inp := issued ++ [.credentialer, own revA] ++ kel 3 ++ [.ask askRev, passA]
def revoked : List Inp := revoking ++ [.registrar]

/-- What these lead to. -/
theorem ordinary : complete (World.run env1 w0 made) 1000 0 = true ∧ complete (World.run env1 w0 issued) 2000 0 = true ∧
    credComplete (World.run env1 w0 issued) 2000 = false ∧ credComplete (World.run env1 w0 (issued ++ [.credentialer])) 2000 = true ∧
    (World.run env1 w0 revoked).v.t.reg.tels 2000 = [(0, 2001), (1, 2003)] := by decide +kernel

theorem reached {l : List Inp} (h : l.all listed = true) : Reached env1 U V W (World.run env1 w0 l) := ⟨[], [], fun _ => none, habs, hist_run l (delivered h)⟩

/-- Hypotheses of `c153_logged`, `c153_sent`, `c153_asked`, `c157_issued`. -/
example : Reached env1 U V W (World.run env1 w0 (issued ++ [.credentialer])) := reached (by decide +kernel)
example : ((World.run env1 w0 issued).pmsgs ++ (World.run env1 w0 issued).pcues).map (fun m => (m.pre, m.said, m.evts)) = [(1, 1000, [(0, 1000)]), (1, 2000, [(0, 2001)])] := by decide +kernel
example : ∃ e k v, InLog (World.run env1 w0 issued).v.t.reg 2000 0 e ∧ e.pre = 2000 ∧ e.sn = 0 ∧ e.regk = some k ∧
    Verif.Tel.Registered env1.tel (World.run env1 w0 issued).v.t.node (World.run env1 w0 issued).v.t.reg k v ∧ Verif.Tel.Sealed env1.tel (World.run env1 w0 issued).v.t.node v.issuer e :=
  c153_logged noColl noCollT noCollC (reached (l := issued) (by decide +kernel)) ordinary.2.1

/-! ## C154 -/

/-- The call was entered. -/
theorem asked : (ask (World.run env1 w0 issuing) askIss).2 = none := by decide +kernel

example : askIss.For 2000 0 := ⟨rfl, .inr ⟨by decide, rfl⟩⟩
/-- Hypotheses of `c154_kept_partial`: the process is stopped and goes on. -/
example : Hist env1 Calm ((World.run env1 w0 issuing).step env1 (.ask askIss)) (World.run env1 ((World.run env1 w0 issuing).step env1 (.ask askIss)) [.restart, passA, .crashAsk askReg 1, .credentialer]) :=
  hist_run _ (by intro i hi w; simp only [List.mem_cons, List.not_mem_nil, or_false] at hi; rcases hi with rfl | rfl | rfl | rfl <;> trivial)
/-- A pass of the Registrar is calm when no group waits. -/
example : Calm (World.run env1 w0 issuing) .registrar := by
  have : (World.run env1 w0 issuing).tmse = [] := by decide +kernel
  intro x hx
  rw [this] at hx
  cases hx

/-- Nothing waits anywhere. -/
def empty (w : World) : Bool := decide (w.tpwe = [] ∧ w.tmse = [] ∧ w.tede = [])

/-- **C154 fails.** The process is stopped between the two writes that move the issuance from waiting for receipts to waiting to be sent (credentialing.py:799-801), or between those that move it
from there to what is complete (839-849): the event is in its log, nothing waits, it is not entered as complete, and passes do not change that. -/
theorem c154_crash_lost :
    (let w := World.run env1 w0 (issuing ++ [.ask askIss, passA, .crashRegistrar 1, passA, .registrar, .registrar]);
      empty w = true ∧ (w.ctel 2000 0).isSome = false ∧ w.v.t.reg.tels 2000 = [(0, 2001)]) ∧
    (let w := World.run env1 w0 (issuing ++ [.ask askIss, passA, .crashRegistrar 3, passA, .registrar, .registrar]);
      empty w = true ∧ (w.ctel 2000 0).isSome = false ∧ w.v.t.reg.tels 2000 = [(0, 2001)]) := by decide +kernel

/-- A group: the registry is called for, with the key event 11 of number 1. -/
def gmaking : List Inp := [.node (.tel (.own [1000])), .registry 1000 1] ++ kel 0 ++ [own vcpA] ++ kel 1 ++ [.ask askReg]
theorem gasked : (World.run env1 g0 gmaking).tmse = [(((1000, 0), 1000), (1, number 1, 11))] := by decide +kernel

/-- **C154 fails, groups.** Likewise between the removal from what waits for the group and the entry for sending (824-825). -/
theorem c154_crash_lost_group :
    (let w := World.run env1 g0 (gmaking ++ [.counseled 1 (number 1) 11, .crashRegistrar 2, passA, .registrar, .registrar]);
      empty w = true ∧ (w.ctel 1000 0).isSome = false ∧ w.v.t.reg.tels 1000 = [(0, 1000)]) ∧
    (let w := World.run env1 g0 (gmaking ++ [.counseled 1 (number 1) 11, .registrar, passA, .registrar, .published]); complete w 1000 0 = true) := by decide +kernel

/-- **C154, what the group drops.** When the group completed another event with that number the request is dropped. -/
theorem c154_group_dropped :
    let w := World.run env1 g0 (gmaking ++ [.counseled 1 (number 1) 99, .registrar]); empty w = true ∧ (w.ctel 1000 0).isSome = false := by decide +kernel

/-! ## C155 -/

/-- Hypotheses of `c155_done`: an event in its log whose controller has no witnesses. -/
theorem noWits : ((World.run env1 w0 (issuing ++ [.ask askIss, passA])).v.t.node.kevers 1).map (·.wits) = some [] := by decide +kernel
example : (registrar (World.run env1 w0 (issuing ++ [.ask askIss, passA]))).2 = none ∧ Ready (World.run env1 w0 (issuing ++ [.ask askIss, passA])) (2000, 0) 1 ∧
    ((World.run env1 w0 (issuing ++ [.ask askIss, passA])).habs 1).isSome = true ∧ Verif.Tel.telGet ((World.run env1 w0 (issuing ++ [.ask askIss, passA])).v.t.reg.tels 2000) 0 = some 2001 := by
  refine ⟨by decide +kernel, .inl ⟨number 2, 12, by decide +kernel, ?_⟩, by decide +kernel, by decide +kernel⟩
  obtain ⟨k, hk, hw⟩ := Option.map_eq_some_iff.1 noWits
  exact ⟨k, hk, .inl hw⟩
/-- And one of a group. -/
example : Ready (World.run env1 g0 (gmaking ++ [.counseled 1 (number 1) 11])) (1000, 0) 1 := .inr (.inl ⟨1000, number 1, 11, by decide +kernel, by decide +kernel⟩)

/-- Identifier 4 with witness 901, and its registry 1300. -/
def wic : Event := { Kel.Demo.icp with pre := 4, said := 70, keys := [401], wits := [901], toad := 1 }
def vcpD : TEvt := { base with pre := 1300, said := 1300, issuer := 4 }
def wn0 : World := World.start v0 fun p => if p = 4 then some false else none
def witnessed : List Inp := [.node (.tel (.own [1300])), .registry 1300 4, .node (.tel (.kel (.event wic [Kel.Demo.sig wic 401 0] [Kel.Demo.sig wic 901 0] none false false))),
  own vcpD, .ask ⟨.incept, 1300, 1300, 0, 1300, (4, 0, 70)⟩]
def w4 : World := World.run env1 wn0 witnessed

theorem w4_state : w4.tpwe = [((1300, 0), (4, number 0, 70))] ∧ w4.tmse = [] ∧ w4.tede = [] ∧ w4.ctel 1300 0 = none ∧ w4.rmsgs = [(4, 0)] ∧
    (w4.v.t.node.db.wigs 4 70).length = 1 ∧ (w4.v.t.node.kevers 4).map (·.wits) = some [901] := by decide +kernel

/-- Without a restart the Receiptor does its work and the event goes on. -/
theorem w4_goes_on : (World.run env1 w4 [.receipted, .registrar]).tede = [((1300, 0), (4, number 0, 70))] := by decide +kernel

/-- Hypotheses of `c155_restart_waits`, with passes after the restart. -/
example : Hist env1 (Idle 4) (w4.step env1 .restart) (World.run env1 (w4.step env1 .restart) [.receipted, .registrar]) := by
  have hw : ∀ w : World, (w.v.t.node.kevers 4).map (·.wits) = some [901] → ∃ k, w.v.t.node.kevers 4 = some k ∧ k.wits ≠ [] := by
    intro w h
    obtain ⟨k, hk, hw⟩ := Option.map_eq_some_iff.1 h
    exact ⟨k, hk, by rw [hw]; simp⟩
  refine .step .registrar (.step .receipted .nil ⟨fun a h => h, hw _ (by decide +kernel)⟩) ⟨fun a h => h, hw _ (by decide +kernel)⟩
example : ∀ x ∈ w4.tpwe, x.1 = (1300, 0) → x.2.1 = 4 := by rw [w4_state.1]; simp
/-- **C155 fails.** All receipts are there; after the restart the event waits. -/
theorem c155_stuck : (World.run env1 w4 [.restart, .receipted, .registrar, .receipted, .registrar]).tpwe = [((1300, 0), (4, number 0, 70))] := by decide +kernel

/-- Hypotheses of `c155_restart_unreported` and `c158_restart_never`: reported as complete before. -/
theorem nothing_pending {w : World} (h : empty w = true) (k : Slot) : ¬ Pending w k := by
  simp only [empty, decide_eq_true_eq] at h
  unfold Pending
  rw [h.1, h.2.1, h.2.2]
  simp
example : (∀ sn, ¬ Pending (World.run env1 w0 issued) (2000, sn)) ∧ (World.run env1 w0 issued).ccrd 2000 = none :=
  ⟨fun sn => nothing_pending (by decide +kernel) _, by decide +kernel⟩
example : Hist env1 (NotFor 2000) ((World.run env1 w0 issued).step env1 .restart) (World.run env1 ((World.run env1 w0 issued).step env1 .restart) [.registrar, .published, .credentialer]) :=
  hist_run _ (by intro i hi w a ha; simp only [List.mem_cons, List.not_mem_nil, or_false] at hi; rcases hi with rfl | rfl | rfl <;> cases ha)
/-- **C158 fails.** The issuance was entered as complete, sent, and reported so, the credential is accepted; after a restart the credential waits. -/
theorem c158_stuck : (let w := World.run env1 w0 (issued ++ [.restart, .registrar, .published, .credentialer]);
    complete w 2000 0 = false ∧ credComplete w 2000 = false ∧ w.cmse.map (·.1) = [(2000, 0)] ∧ w.v.s.saved = [2000] ∧ (w.ctel 2000 0).isSome = true) := by decide +kernel

/-! ## C156 -/

/-- Hypotheses of `c156_sent_partial`. -/
example : Hist env1 (Only 2000 0) w0 (World.run env1 w0 issued) :=
  hist_run _ (by
    intro i hi w a ha hp
    have : issued.all (fun i => match i with | .ask b => decide (b.pre = 2000 → b.call = .incept ∨ b.sn = 0) | .crashAsk b _ => decide (b.pre = 2000 → b.call = .incept ∨ b.sn = 0) | _ => true) = true := by decide +kernel
    have := List.all_eq_true.1 this i hi
    cases i <;> simp only [Inp.asks] at ha <;> subst ha <;>
      (have h := of_decide_eq_true this hp; refine ⟨hp, ?_⟩; rcases Classical.em (Ask.call _ = .incept) with hc | hc
       · exact .inl ⟨hc, rfl⟩
       · exact .inr ⟨hc, ((h.resolve_left hc).symm)⟩))

/-- **C156 fails.** The revocation is reported as complete although nothing with it was sent: what was sent was the issuance (agenting.py:663-676, credentialing.py:723-738). -/
theorem c156_revocation_early : complete (World.run env1 w0 revoked) 2000 1 = true ∧
    ((World.run env1 w0 revoked).pcues.filter fun m => decide (m.said = 2000)).map (·.evts) = [[(0, 2001)]] ∧
    (World.run env1 w0 revoked).pmsgs.map (·.evts) = [[(1, 2003)]] := by decide +kernel

/-! ## C158 -/

/-- Hypotheses of `c158_kept_partial` and `c158_completes`. -/
example : ((2000, 0), far) ∈ (World.run env1 w0 issued).cmse ∧ complete (World.run env1 w0 issued) 2000 0 = true ∧ 2000 ∈ (World.run env1 w0 issued).v.s.saved := by decide +kernel

/-- **C158 fails.** The process is stopped between the two writes of a pass of the Credentialer (984-987): the credential no longer waits and is never reported as issued. -/
theorem c158_crash_lost : (let w := World.run env1 w0 (issued ++ [.crashCredentialer 1, .registrar, .published, .credentialer]);
    w.cmse = [] ∧ credComplete w 2000 = false ∧ w.v.s.saved = [2000]) := by decide +kernel

/-! ## C159 -/

/-- Before the call for the issuance: the event waits, without a seal, and the last key event seals it. -/
def w5 : World := World.run env1 w0 issuing

theorem w5_regs : w5.v.t.reg.taes = [(2000, 0, 2001)] := by decide +kernel
theorem w5_waits : Waits env1 w5 1000 issA vcpA true true where
  next := ⟨rfl, .inl ⟨rfl, rfl⟩, rfl, .inl rfl, by
      have h : (w5.v.t.reg.fetch 1000).2.map (·.noBackers) = some true := by decide +kernel
      obtain ⟨t, ht, hb⟩ := Option.map_eq_some_iff.1 h
      exact ⟨t, ht, hb⟩, by decide +kernel⟩
  reg := ⟨rfl, rfl, by decide +kernel, Kel.Demo.ixn1, ⟨by decide +kernel, by decide +kernel⟩, by decide +kernel⟩
  stored := by decide +kernel
  unsealed := by decide +kernel
  waits := by rw [w5_regs]; simp [issA, base]
  alone := by rw [w5_regs]; simp [issA, base]
/-- Hypotheses of `c159_accepted_partial`. -/
example : InLog ((w5.step env1 (.ask askIss)).step env1 passA).v.t.reg 2000 0 issA := by
  have h : (w5.v.t.node.kevers 1).map (fun k => (k.sn, k.serder.said)) = some (2, 12) := by decide +kernel
  obtain ⟨k, hk, he⟩ := Option.map_eq_some_iff.1 h
  obtain ⟨h1, h2⟩ := Prod.mk.inj he
  refine c159_accepted_partial noColl noCollT noCollC selfAddressing (reached (by decide +kernel)) (a := askIss) (v := vcpA) (kv := k) w5_waits (by decide +kernel) (by decide +kernel) hk
    ⟨rfl, rfl⟩ ?_
  rw [h1, h2]
  exact ⟨Kel.Demo.ixn2, 12, by decide +kernel, by decide +kernel, rfl, by decide +kernel⟩

/-- **C159 fails.** One more key event is logged between the one with the seal and the call: the source seal entered points at it (credentialing.py:632-634), and the event never enters its log,
however often the call is repeated; the key event given with the call is not used. -/
theorem c159_other_event : (let w := World.run env1 w0 (issuing ++ kel 3 ++ [.ask askIss, passA, .registrar, passA, .ask askIss, passA, .registrar]);
    w.v.t.reg.ancs 2000 2001 = some (3, 13) ∧ w.v.t.reg.tels 2000 = [] ∧ askIss.anc = (1, 2, 12)) := by decide +kernel

/-- Hypotheses of `c159_group`: the same registry, of a group. -/
def gissuing : List Inp := gmaking ++ [.counseled 1 (number 1) 11, .registrar, passA, own issA] ++ kel 2 ++ kel 3 ++ [.ask askIss, .counseled 1 (number 2) 12]
def g5 : World := World.run env1 g0 gissuing
theorem g5_regs : g5.v.t.reg.taes = [(2000, 0, 2001)] ∧ g5.tmse = [(((2000, 0), 2001), (1, number 2, 12))] := by decide +kernel
theorem g5_waits : Waits env1 g5 1000 issA vcpA true true where
  next := ⟨rfl, .inl ⟨rfl, rfl⟩, rfl, .inl rfl, by
      have h : (g5.v.t.reg.fetch 1000).2.map (·.noBackers) = some true := by decide +kernel
      obtain ⟨t, ht, hb⟩ := Option.map_eq_some_iff.1 h
      exact ⟨t, ht, hb⟩, by decide +kernel⟩
  reg := ⟨rfl, rfl, by decide +kernel, Kel.Demo.ixn1, ⟨by decide +kernel, by decide +kernel⟩, by decide +kernel⟩
  stored := by decide +kernel
  unsealed := by decide +kernel
  waits := by rw [g5_regs.1]; simp [issA, base]
  alone := by rw [g5_regs.1]; simp [issA, base]
/-- Here the key event with the seal is not the last one. -/
example : InLog ((g5.step env1 .registrar).step env1 passA).v.t.reg 2000 0 issA :=
  c159_group (w := g5) noColl noCollT noCollC selfAddressing ⟨[], [], fun _ => none, habsG, hist_run gissuing (delivered (by decide +kernel))⟩ (v := vcpA) (s := (2000, 0)) (n := number 2) (d := 12)
    g5_waits rfl (by rw [g5_regs.2]; simp [issA, vcpA, base]) (by rw [g5_regs.2]; simp [vcpA, base]) (by decide +kernel) (by decide +kernel)
    ⟨Kel.Demo.ixn2, 12, by decide +kernel, by decide +kernel, rfl, by decide +kernel⟩

end Verif.Iss.DemoIss
