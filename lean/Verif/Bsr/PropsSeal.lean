import Verif.Bsr.Frame

/-!
# C163: what is accepted was sealed in a key event log
-/

namespace Verif.Bsr

open Verif.Kel (Id Dig Node Seal)

theorem sealed_of {nd : Node} {hab : Id} {e : REvt} {c : Nat × Dig} (h : verifyAnchor nd hab e c = true) : Sealed nd hab e.seal := by
  unfold verifyAnchor at h
  split at h
  · cases h
  · rename_i d hd
    split at h
    · cases h
    · rename_i a ha
      simp only [Bool.and_eq_true, decide_eq_true_eq] at h
      exact ⟨c.1, d, a, hd, ha, h.2, h.1.2⟩

/-- Stored anchors belong to events with `Q`. -/
def AncAll (Q : REvt → Prop) (s : Store) : Prop := ∀ d, (s.ancs d).isSome = true → ∃ e, s.evts d = some e ∧ Q e

theorem ancAll_good {V : REvt → Prop} (hnc : NoColl V) {J : REvt → Nat × Dig → Prop} {Q : REvt → Prop} (hQ : ∀ e c, J e c → Q e) {s : Store} (hi : SInv V s)
    {l : List Wr} (hg : Good V J s l) (ha : AncAll Q s) : AncAll Q (s.applyAll l) := by
  induction l generalizing s with
  | nil => exact ha
  | cons w l ih =>
    have hx := ext_apply hnc hi hg.1
    refine ih (inv_apply hnc hi hg.1) hg.2 fun d hd => ?_
    have old : (s.ancs d).isSome = true → ∃ e, (s.apply w).evts d = some e ∧ Q e := fun h =>
      let ⟨e, h1, h2⟩ := ha d h; ⟨e, hx.evts _ _ h1, h2⟩
    cases w with
    | anc d' c =>
      simp only [Store.apply, put] at hd
      split at hd
      · rename_i hdd; subst hdd
        obtain ⟨e, h1, h2⟩ := hg.1
        exact ⟨e, h1, hQ e c h2⟩
      · exact old hd
    | tel k n d' =>
      refine old ?_
      simp only [Store.apply] at hd
      split at hd <;> exact hd
    | _ => exact old hd

/-- The moment when the log of a habitat that may act for the registry had the seal. -/
def Moment (env : Kel.Env) (G : World → Inp → Prop) (w0 : World) (P : Id → Dig → Prop) (w : World) (e : REvt) : Prop :=
  ∃ hab, P hab e.regk ∧ Was env G w0 w (fun w1 => Sealed w1.nd hab e.seal)

theorem moment_step {env : Kel.Env} {G : World → Inp → Prop} {w0 : World} {P : Id → Dig → Prop} {w : World} {e : REvt} (i : Inp) (g : G w i)
    (h : Moment env G w0 P w e) : Moment env G w0 P (w.step env i) e := by
  obtain ⟨hab, h1, w1, h2, h3, h4⟩ := h
  exact ⟨hab, h1, w1, h2, .step i h3 g, h4⟩

theorem moment_hist {env : Kel.Env} {V : REvt → Prop} {P : Id → Dig → Prop} (hnc : NoColl V) (hrip : ∀ e, V e → e.ilk = .rip → P e.iss e.said)
    {G : World → Inp → Prop} (hG : ∀ w i, G w i → ∀ c, i.calls = some c → Lic V P w c) {nd : Node} {habs : List Id} {w : World}
    (h : Hist env G (World.start nd habs) w) : WInv V P w ∧ AncAll (Moment env G (World.start nd habs) P w) w.s := by
  induction h with
  | nil => exact ⟨⟨sinv_empty V, fun _ h => by cases h⟩, fun d hd => by cases hd⟩
  | @step w i hh g ih =>
    obtain ⟨hw, ha⟩ := ih
    have hst := step_inv (env := env) hnc hrip hw (hG w i g)
    refine ⟨hst.1, ?_⟩
    have ha' : AncAll (Moment env G (World.start nd habs) P (w.step env i)) w.s := fun d hd =>
      let ⟨e, h1, h2⟩ := ha d hd; ⟨e, h1, moment_step i g h2⟩
    have hJ : ∀ e c, AnchP w.nd P e c → Moment env G (World.start nd habs) P (w.step env i) e := fun e c ⟨hab, h1, h2⟩ =>
      ⟨hab, h1, w, hh, .step i .nil g, sealed_of h2⟩
    cases i with
    | kel i => exact ha'
    | config h => exact ha'
    | call c => exact ancAll_good hnc hJ hw.s ((call_blk hnc hw.s hw.o (hG w _ g c rfl)).1.good hnc hw.s) ha'
    | crash c m => exact ancAll_good hnc hJ hw.s (good_take ((call_blk hnc hw.s hw.o (hG w _ g c rfl)).1.good hnc hw.s) m) ha'
    | reopen =>
      have hs : (w.step env .reopen).s = w.s := by
        show ((w.down.load w.s.records).getD w.down).s = w.s
        cases h : w.down.load w.s.records with
        | none => rfl
        | some w' => exact (load_inv (w := w.down) hrip _ hw.s (fun _ h => by cases h) h).1
      intro d hd
      rw [hs] at hd ⊢; exact ha' d hd

theorem seal_of {V : REvt → Prop} {s : Store} (hi : SInv V s) {k : Dig} {n : Nat} {e : REvt} (h : Accepted s k n e) :
    e.regk = k ∧ e.seal = ⟨k, n, e.said⟩ ∧ (s.ancs e.said).isSome = true := by
  obtain ⟨x, hx, hs, ha, _⟩ := hi.tel _ _ _ h.1
  rw [h.2] at hx; cases hx
  refine ⟨hs.regk, ?_, ha⟩
  unfold REvt.seal; rw [hs.regk, hs.num]

/-- The issuer of a registry. -/
def Own (V : REvt → Prop) (hab : Id) (k : Dig) : Prop := ∀ r, V r → r.ilk = .rip → r.said = k → r.iss = hab

theorem lic_own {V : REvt → Prop} (hnc : NoColl V) {w : World} {i : Inp} (h : Within V w i) (hr : Rightly V w i) (c : Call) (hc : i.calls = some c) :
    Lic V (Own V) w c := by
  refine ⟨fun e he => h c e hc he, fun e hv hk r hr' hrk hs => by rw [hnc r e hr' hv hs], ?_, ?_, ?_⟩
  · intro hab k hck r hv hk hs; exact hr.1 hab k (by rw [hc, hck]) r hv hk hs
  · intro hd e o hce ho hn hk; exact absurd (hr.2.1 hd e o (by rw [hc, hce]) ho hn) hk
  · intro hd d num dig o e hce ho hn he hk; exact absurd (hr.2.2 hd d num dig o e (by rw [hc, hce]) ho hn he) hk

/-- C163. When objects act for registries of their own habitat only, every accepted event of a registry has, at some moment of the history, been sealed
with its registry, number and digest in the key event log of the issuer that the inception names: in an event that was the last at its number and
fully witnessed. -/
theorem c163_sealed_partial {env : Kel.Env} {V : REvt → Prop} (hnc : NoColl V) {nd : Node} {habs : List Id} {w : World}
    (h : Hist env (fun w i => Within V w i ∧ Rightly V w i) (World.start nd habs) w) (k : Dig) (n : Nat) (e : REvt) (ha : Accepted w.s k n e) :
    ∃ r, Accepted w.s k 0 r ∧ r.ilk = .rip ∧
      Was env (fun w i => Within V w i ∧ Rightly V w i) (World.start nd habs) w (fun w1 => Sealed w1.nd r.iss ⟨k, n, e.said⟩) := by
  have hm := moment_hist (P := Own V) hnc (fun e hv hk r hr' hrk hs => by rw [hnc r e hr' hv hs]) (fun w i g c hc => lic_own hnc g.1 g.2 c hc) h
  have hi := hm.1.s
  obtain ⟨hk, hs, hanc⟩ := seal_of hi ha
  obtain ⟨x, hx, hab, hP, hwas⟩ := hm.2 _ hanc
  rw [ha.2] at hx; cases hx
  have h0 := gapless hi (k := k) (n := n) (by rw [ha.1]; rfl) 0 (by omega)
  cases ht : w.s.tels k 0 with
  | none => rw [ht] at h0; cases h0
  | some d =>
    obtain ⟨r, hr, hsl, _⟩ := hi.tel _ _ _ ht
    have hd := hi.evt _ _ hr
    have hrip : r.ilk = .rip := by rcases hsl.kind with h | h
                                   · exact h.1
                                   · exact absurd rfl h.2
    have hrk : r.said = k := by have := hsl.regk; unfold REvt.regk at this; rw [if_pos hrip] at this; exact this
    refine ⟨r, ⟨by rw [ht, hd.1], by rw [hd.1]; exact hr⟩, hrip, ?_⟩
    rw [hP r hd.2 hrip (by rw [hrk, hk]), ← hs]
    exact hwas

/-- C163. Without that proviso there was still a moment at which the log of some habitat had the seal. -/
theorem c163_some {env : Kel.Env} {V : REvt → Prop} (hnc : NoColl V) {nd : Node} {habs : List Id} {w : World}
    (h : Hist env (Within V) (World.start nd habs) w) (k : Dig) (n : Nat) (e : REvt) (ha : Accepted w.s k n e) :
    ∃ hab, Was env (Within V) (World.start nd habs) w (fun w1 => Sealed w1.nd hab ⟨k, n, e.said⟩) := by
  have hm := moment_hist (P := PTrue) hnc (fun _ _ _ => trivial) (fun w i g c hc => lic_true g c hc) h
  obtain ⟨_, hs, hanc⟩ := seal_of hm.1.s ha
  obtain ⟨x, hx, hab, _, hwas⟩ := hm.2 _ hanc
  rw [ha.2] at hx; cases hx
  exact ⟨hab, by rw [← hs]; exact hwas⟩

end Verif.Bsr
