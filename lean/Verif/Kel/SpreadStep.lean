import Verif.Kel.SpreadInv

/-! # Delivery of a log in pieces: one input, one pass -/

namespace Verif.Kel

open Verif.Thold (Thold)

section

variable {env : Env} {ps gs : List Id} {md : Id → Option Id} {l : Bool} {p : Id} {L : List Msg}

/-- The keys and witnesses in force after an acceptance. -/
theorem at_eq (hv : ValidLog env (Node.start ps gs md) l p L) (j : Nat) (hj : j < L.length) {k1 : Kever} {v : Verified}
    {w : List Id} (g : AccN L[j].e k1 v w (inOrder env (Node.start ps gs md) l L j)
      (inOrder env (Node.start ps gs md) l L (j + 1))) :
    keysAt env (Node.start ps gs md) l p L j = k1.keys ∧ witsAt env (Node.start ps gs md) l p L j = k1.wits := by
  unfold keysAt witsAt
  rw [g.kevers, hv.pre]
  simp [upd]

/-- A message not yet accepted, with part of its signatures: it is accepted, or waits in an escrow with them. -/
theorem SInv.proc (hnc : NoColl (Msg.events L)) (hv : ValidLog env (Node.start ps gs md) l p L) (hm : l = true ∨ p ∉ gs)
    {n : Node} {j : Nat} (h : SInv env ps gs md l p L n j) (i : Nat) (hi : i < L.length) (hij : j ≤ i) (ss ws : List Sig)
    (hss : ∀ s, s ∈ ss → s ∈ L[i].ss) (hws : ∀ s, s ∈ ws → s ∈ L[i].ws)
    (hver : ∃ s, s ∈ ss ∧ Verifies env (keysAt env (Node.start ps gs md) l p L i) L[i].e s) (c : Option Couple)
    (eager : Bool) :
    (i = j ∧ SInv env ps gs md l p L (n.processEvent env L[i].e ss ws c eager l).1 (j + 1)) ∨
    (SInv env ps gs md l p L (n.processEvent env L[i].e ss ws c eager l).1 j ∧
      (i = j → ¬ Complete env ps gs md l p L i hi ss ws) ∧
      ∃ kd, Waits kd ∧ (n.processEvent env L[i].e ss ws c eager l).2 = .error kd.keep ∧
        entry p L i hi ∈ (n.processEvent env L[i].e ss ws c eager l).1.db.entries kd ∧
        (∀ s, s ∈ ss → Verifies env (keysAt env (Node.start ps gs md) l p L i) L[i].e s →
          s ∈ (n.processEvent env L[i].e ss ws c eager l).1.db.sigs p L[i].e.said) ∧
        ∀ s, s ∈ ws → Verifies env (witsAt env (Node.start ps gs md) l p L i) L[i].e s →
          s ∈ (n.processEvent env L[i].e ss ws c eager l).1.db.wigs p L[i].e.said) := by
  have hr' := reached_proc (l := l) h.reached i hi ss ws c eager
  have hok := enters_okPre (hv.ent i hi)
  by_cases hlt : j < i
  · -- out of order
    have hproc : n.processEvent env L[i].e ss ws c eager l =
        ({ n with db := n.db.escrowOO L[i].e ss ws c l }, .error .outOfOrder) := by
      have hic : ¬ (L[i].e.ilk = .icp ∨ L[i].e.ilk = .dip) := by
        rintro (h' | h')
        · exact not_icp hv i hi (by omega) h'
        · exact hv.dip i hi h'
      unfold Node.processEvent
      rw [if_neg (by simp [hok]), hv.pre, h.logs.2.2.2.2]
      rcases inOrder_kever hv j h.jle with ⟨_, hk⟩ | ⟨k, hk, hsn⟩
      · rw [hk]; simp only; rw [if_neg hic]
      · rw [hk]; simp only; rw [if_neg hic, if_pos (by rw [hv.sn]; omega)]
    rw [hproc] at hr' ⊢
    obtain ⟨q1, q2, q3⟩ := h.esc hnc hv i hi hij (frame_escrowOO L[i].e n.db ss ws c l)
      (same_escrowOO L[i].e n.db ss ws c l) (esced_OO L[i].e ss ws c l n.db) hr' hss hws hver
    refine .inr ⟨q1, fun hh => by omega, .outOfOrder, .inl rfl, rfl, ?_, fun s hs _ => q2 s hs, fun s hs _ => q3 s hs⟩
    show _ ∈ escAdd _ _
    rw [entry_eq hv i hi, mem_escAdd]; exact .inl rfl
  · have hij' : i = j := by omega
    subst hij'
    obtain ⟨k1, v, w, hk1, g, ha⟩ := enters_acc (inOrder_reached i).evtU.ok (hv.ent i hi)
    obtain ⟨a1, a2⟩ := at_eq hv i hi g
    obtain ⟨c1, c2, c3⟩ := inOrder_cfg (env := env) (ps := ps) (gs := gs) (md := md) (l := l) (L := L) i h.jle
    obtain ⟨l1, l2, l3, l4, l5⟩ := h.logs
    have hcfg : SameCfg (inOrder env (Node.start ps gs md) l L i) n :=
      ⟨l5, by rw [h.prefixes, c1], by rw [h.groups, c2], by rw [h.mid, c3]⟩
    have hb : Below L[i].e (inOrder env (Node.start ps gs md) l L i).db n.db := ⟨fun s _ => by rw [l1], h.mono⟩
    have hm' : l = true ∨ L[i].e.pre ∉ (inOrder env (Node.start ps gs md) l L i).groups := by rw [hv.pre, c2]; exact hm
    rw [a1] at hver
    rcases proc_sub (ws' := ws) (couple' := c) (eager' := eager) hcfg hb hm' (hv.dip i hi) (hv.drt i hi) hok hver ha with
      ⟨v', ha'⟩ | ⟨hnot, cp, hp⟩
    · -- accepted
      left
      refine ⟨rfl, ?_⟩
      obtain ⟨_, _, db, k, cp, l', hs, _, hpr⟩ := ha'.planned hok
      have hacc := Acc.of_same hs (acc_log { n with db := db } k { k1 with fn := (n.db.fels L[i].e.pre).length } L[i].e v' w cp l')
      have hlogs : LogsEq (inOrder env (Node.start ps gs md) l L (i + 1)) (n.processEvent env L[i].e ss ws c eager l).1 := by
        rcases prefix_proc hv h.jle h.reached.evtU.ok h.logs i hi ss ws c eager l with h' | ⟨_, h'⟩
        · exfalso
          have h1 : (n.processEvent env L[i].e ss ws c eager l).1.db.fels = n.db.fels := by rw [h'.2.1, ← l2]
          rw [hpr] at h1
          simp only at h1
          rw [hacc.fels] at h1
          have := congrFun h1 L[i].e.pre
          simp [upd] at this
        · exact h'
      obtain ⟨m1, m2, m3, m4⟩ := evts_mono h.reached L[i].e ss ws c eager l
      refine h.rest hnc hv i hi (frame_process env n L[i].e ss ws c eager l) (by omega) (by omega) (by omega) hr' hlogs m2 m3 m4 ?_
      intro q d x hx
      rcases g.db.only _ _ _ hx with h' | ⟨h1, h2, h3⟩
      · exact m1 _ _ _ (h.mono _ _ _ h')
      · subst h1 h2 h3
        obtain ⟨y, hy⟩ := hacc.stored
        have hy' : (n.processEvent env L[i].e ss ws c eager l).1.db.evts L[i].e.pre L[i].e.said = some y := by
          rw [hpr]; exact hy
        have := hr'.evtU _ _ _ hy'
        rw [hy', hnc y L[i].e this.2.2 ⟨L[i], List.getElem_mem hi, rfl⟩ this.2.1]
    · -- waits for signatures
      have hncomp : ¬ Complete env ps gs md l p L i hi ss ws := by
        rintro ⟨q1, q2⟩
        rw [a1] at q1
        rw [a2] at q2
        exact hnot ⟨fun s => ⟨fun ⟨x, y⟩ => ⟨q1 s x y, y⟩, fun ⟨x, y⟩ => ⟨hss s x, y⟩⟩,
          fun s => ⟨fun ⟨x, y⟩ => ⟨q2 s x y, y⟩, fun ⟨x, y⟩ => ⟨hws s x, y⟩⟩⟩
      have hss' : ∀ s, s ∈ verifySigs env L[i].e ss k1.keys → s ∈ L[i].ss := fun s hs => hss s (mem_verifySigs_iff.1 hs).1
      have hws' : ∀ s, s ∈ verifySigs env L[i].e ws k1.wits → s ∈ L[i].ws := fun s hs => hws s (mem_verifySigs_iff.1 hs).1
      have hver' : ∃ s, s ∈ verifySigs env L[i].e ss k1.keys ∧
          Verifies env (keysAt env (Node.start ps gs md) l p L i) L[i].e s := by
        obtain ⟨s, x, y⟩ := hver
        exact ⟨s, mem_verifySigs_iff.2 ⟨x, y⟩, by rw [a1]; exact y⟩
      right
      rcases hp with hp | hp
      · rw [hp] at hr' ⊢
        obtain ⟨q1, q2, q3⟩ := h.esc hnc hv i hi hij (frame_escrowPS L[i].e n.db _ _ cp l)
          (same_escrowPS L[i].e n.db _ _ cp l) (esced_PS L[i].e _ _ cp l n.db) hr' hss' hws' hver'
        refine ⟨q1, fun _ => hncomp, .partialSigs, .inr (.inl rfl), rfl, ?_, ?_, ?_⟩
        · show _ ∈ escAdd _ _
          rw [entry_eq hv i hi, mem_escAdd]; exact .inl rfl
        · intro s hs hvs; rw [a1] at hvs; exact q2 s (mem_verifySigs_iff.2 ⟨hs, hvs⟩)
        · intro s hs hvs; rw [a2] at hvs; exact q3 s (mem_verifySigs_iff.2 ⟨hs, hvs⟩)
      · rw [hp] at hr' ⊢
        obtain ⟨q1, q2, q3⟩ := h.esc hnc hv i hi hij (frame_escrowPW L[i].e n.db _ _ cp l)
          (same_escrowPW L[i].e n.db _ _ cp l) (esced_PW L[i].e _ _ cp l n.db) hr' hss' hws' hver'
        refine ⟨q1, fun _ => hncomp, .partialWigs, .inr (.inr rfl), rfl, ?_, ?_, ?_⟩
        · show _ ∈ escAdd _ _
          rw [entry_eq hv i hi, mem_escAdd]; exact .inl rfl
        · intro s hs hvs; rw [a1] at hvs; exact q2 s (mem_verifySigs_iff.2 ⟨hs, hvs⟩)
        · intro s hs hvs; rw [a2] at hvs; exact q3 s (mem_verifySigs_iff.2 ⟨hs, hvs⟩)

/-- The node without an entry of an escrow. -/
def Node.dropped (n : Node) (kind : Esc) (x : Id × Nat × Dig) (ok : Bool) : Node :=
  { n with db := Esc.cleanUde (n.db.remEntry x kind) x.1 x.2.2 ok kind }

theorem dropped_db (n : Node) (kind : Esc) (x : Id × Nat × Dig) (ok : Bool) :
    (n.dropped kind x ok).db.sigs = n.db.sigs ∧ (n.dropped kind x ok).db.wigs = n.db.wigs ∧
    (n.dropped kind x ok).db.evts = n.db.evts ∧ (n.dropped kind x ok).db.esrs = n.db.esrs ∧
    (n.dropped kind x ok).db.kels = n.db.kels ∧ (n.dropped kind x ok).db.fels = n.db.fels ∧
    (n.dropped kind x ok).db.fons = n.db.fons ∧ (n.dropped kind x ok).db.states = n.db.states := by
  unfold Node.dropped
  cases kind <;> cases ok <;> exact ⟨rfl, rfl, rfl, rfl, rfl, rfl, rfl, rfl⟩

theorem dropped_entries (n : Node) (kind : Esc) (x : Id × Nat × Dig) (ok : Bool) (kd : Esc) (y : Id × Nat × Dig) :
    y ∈ (n.dropped kind x ok).db.entries kd ↔ y ∈ n.db.entries kd ∧ ¬ (kd = kind ∧ y = x) := by
  unfold Node.dropped
  cases kind <;> cases ok <;> cases kd <;>
    simp [Esc.cleanUde, Db.remEntry, Db.entries]

theorem SInv.drop {n : Node} {j : Nat} (h : SInv env ps gs md l p L n j) (kind : Esc) (x : Id × Nat × Dig) (ok : Bool)
    (hr : Reached env (Msg.events L) (n.dropped kind x ok)) : SInv env ps gs md l p L (n.dropped kind x ok) j := by
  obtain ⟨d1, d2, d3, d4, d5, d6, d7, d8⟩ := dropped_db n kind x ok
  refine ⟨h.jle, hr, LogsEq.trans h.logs ⟨d5, d6, d7, d8, rfl⟩, h.prefixes, h.groups, h.mid, ?_, ?_, ?_, ?_⟩
  · rw [d3]; exact h.mono
  · rw [d1, d2, d4]; exact h.sub
  · rw [d1, d3, d4]; exact h.held
  · rw [d1]
    rintro i hi hji ⟨kd, hkd, hx⟩
    exact h.inesc i hi hji ⟨kd, hkd, ((dropped_entries n kind x ok kd _).1 hx).1⟩

/-- What one entry of an escrow pass does. -/
theorem escStep_any (env : Env) (n : Node) (kind : Esc) (x : Id × Nat × Dig) :
    (∃ ok, n.escStep env kind (fun _ => false) x = n.dropped kind x ok ∧
      (n.db.esrs x.1 x.2.2 = none ∨ n.db.evts x.1 x.2.2 = none ∨ n.db.sigs x.1 x.2.2 = [])) ∨
    (kind = .delegable ∧ n.escStep env kind (fun _ => false) x = n) ∨
    ∃ l e c eager, n.db.esrs x.1 x.2.2 = some l ∧ n.db.evts x.1 x.2.2 = some e ∧ n.db.sigs x.1 x.2.2 ≠ [] ∧
      ((n.escStep env kind (fun _ => false) x =
          (n.processEvent env e (n.db.sigs x.1 x.2.2) (n.db.wigs x.1 x.2.2) c eager l).1 ∧
        (n.processEvent env e (n.db.sigs x.1 x.2.2) (n.db.wigs x.1 x.2.2) c eager l).2 = .error kind.keep) ∨
       (∃ ok, n.escStep env kind (fun _ => false) x =
          (n.processEvent env e (n.db.sigs x.1 x.2.2) (n.db.wigs x.1 x.2.2) c eager l).1.dropped kind x ok ∧
        (n.processEvent env e (n.db.sigs x.1 x.2.2) (n.db.wigs x.1 x.2.2) c eager l).2 ≠ .error kind.keep)) := by
  obtain ⟨pre, sn, d⟩ := x
  unfold Node.escStep
  simp only [Bool.false_eq_true, if_false]
  split
  · rename_i h; exact .inl ⟨false, rfl, .inl h⟩
  · rename_i l hl
    split
    · rename_i h; exact .inl ⟨false, rfl, .inr (.inl h)⟩
    · rename_i e he
      split
      · rename_i h; exact .inl ⟨false, rfl, .inr (.inr h)⟩
      · rename_i hs
        split
        · rename_i hk; exact .inr (.inl ⟨hk.1, rfl⟩)
        · refine .inr (.inr ⟨l, e, (kind.couple n.db pre d).1, (kind.couple n.db pre d).2, hl, he, hs, ?_⟩)
          split
          · rename_i n' hn'
            rw [hn']; exact .inr ⟨true, rfl, by simp⟩
          · rename_i n' x hn'
            rw [hn']
            by_cases hx : x = kind.keep
            · rw [if_pos hx]; subst hx; exact .inl ⟨rfl, rfl⟩
            · rw [if_neg hx]; exact .inr ⟨false, rfl, by simpa using hx⟩

theorem keep_inj {a b : Esc} (h : a.keep = b.keep) : a = b := by cases a <;> cases b <;> simp_all [Esc.keep]

/-- Entries of waiting messages that stay. -/
structure Stays (p : Id) (L : List Msg) (n n' : Node) (j' : Nat) : Prop where
  inesc : ∀ i (hi : i < L.length), j' ≤ i → InEsc p L n i hi → InEsc p L n' i hi
  sigs : ∀ q d s, s ∈ n.db.sigs q d → s ∈ n'.db.sigs q d
  wigs : ∀ q d s, s ∈ n.db.wigs q d → s ∈ n'.db.wigs q d

theorem Stays.refl (n : Node) (j : Nat) : Stays p L n n j := ⟨fun _ _ _ h => h, fun _ _ _ h => h, fun _ _ _ h => h⟩

theorem Stays.trans {a b c : Node} {j j' : Nat} (h : Stays p L a b j) (g : Stays p L b c j') (hj : j ≤ j') :
    Stays p L a c j' :=
  ⟨fun i hi hle hx => g.inesc i hi hle (h.inesc i hi (by omega) hx), fun q d s hs => g.sigs q d s (h.sigs q d s hs),
   fun q d s hs => g.wigs q d s (h.wigs q d s hs)⟩

theorem steps_sigs {U : Event → Prop} {a b : Node} (hu : EvtU U a) (g : Steps env U a b) :
    (∀ q d s, s ∈ a.db.sigs q d → s ∈ b.db.sigs q d) ∧ ∀ q d s, s ∈ a.db.wigs q d → s ∈ b.db.wigs q d := by
  induction g with
  | refl => exact ⟨fun _ _ _ h => h, fun _ _ _ h => h⟩
  | tail hs g ih =>
    have hu' := hu.steps hs
    cases g with
    | core g => exact ⟨fun q d s h => by rw [g.sigs]; exact ih.1 q d s h, fun q d s h => g.wigs q d s (ih.2 q d s h)⟩
    | event e ss ws c eager l' he =>
      rcases processEvent_cases env _ e ss ws c eager l' hu'.ok with g | ⟨_, _, _, _, _, g, _⟩
      · exact ⟨fun q d s h => g.db.sigs q d s (ih.1 q d s h), fun q d s h => g.db.wigs q d s (ih.2 q d s h)⟩
      · exact ⟨fun q d s h => g.db.sigs q d s (ih.1 q d s h), fun q d s h => g.db.wigs q d s (ih.2 q d s h)⟩

/-- One entry of an escrow pass. -/
theorem SInv.step (hnc : NoColl (Msg.events L)) (hv : ValidLog env (Node.start ps gs md) l p L) (hm : l = true ∨ p ∉ gs)
    {n : Node} {j : Nat} (h : SInv env ps gs md l p L n j) (kind : Esc) (x : Id × Nat × Dig) :
    ∃ j', j ≤ j' ∧ SInv env ps gs md l p L (n.escStep env kind (fun _ => false) x) j' ∧
      Stays p L n (n.escStep env kind (fun _ => false) x) j' ∧
      (∀ kd y, Waits kd → y ∈ n.db.entries kd → ¬ (kd = kind ∧ y = x) →
        y ∈ (n.escStep env kind (fun _ => false) x).db.entries kd) ∧
      (∀ hj : j < L.length, Waits kind → x = entry p L j hj → x ∈ n.db.entries kind →
        Complete env ps gs md l p L j hj (n.db.sigs p L[j].e.said) (n.db.wigs p L[j].e.said) → j + 1 ≤ j') := by
  have hr' : Reached env (Msg.events L) (n.escStep env kind (fun _ => false) x) :=
    h.reached.run (h' := [.retry kind (fun _ => false) x])
      (fun j hj x hx => by simp at hj; subst hj; simp [Inp.delivers] at hx)
  obtain ⟨t1, t2⟩ := steps_sigs h.reached.evtU
    (escStep_steps env (Msg.events L) kind (fun _ => false) n x h.reached.evtU)
  have hcases := escStep_any env n kind x
  generalize n.escStep env kind (fun _ => false) x = r at *
  -- a waiting entry is not dropped for want of anything
  have hfound : ∀ i (hi : i < L.length), j ≤ i → InEsc p L n i hi → x = entry p L i hi →
      n.db.esrs x.1 x.2.2 = some l ∧ n.db.evts x.1 x.2.2 = some L[i].e ∧ n.db.sigs x.1 x.2.2 ≠ [] := by
    intro i hi hji hin hx
    subst hx
    have h1 := h.inesc i hi hji hin
    obtain ⟨h2, h3, _⟩ := h.held i hi hji h1
    exact ⟨h3, h2, h1⟩
  rcases hcases with ⟨ok, hr, hno⟩ | ⟨hk, hr⟩ | ⟨l', e, c, eager, hl', he, hs, hr⟩
  · -- dropped
    subst hr
    refine ⟨j, Nat.le_refl _, h.drop kind x ok hr', ⟨?_, t1, t2⟩, ?_, ?_⟩
    · rintro i hi hji hin
      obtain ⟨kd, hkd, hx⟩ := id hin
      refine ⟨kd, hkd, (dropped_entries n kind x ok kd _).2 ⟨hx, ?_⟩⟩
      rintro ⟨_, heq⟩
      obtain ⟨f1, f2, f3⟩ := hfound i hi hji hin heq.symm
      rcases hno with hno | hno | hno
      · rw [f1] at hno; exact absurd hno (by simp)
      · rw [f2] at hno; exact absurd hno (by simp)
      · exact f3 hno
    · intro kd y _ hy hne
      exact (dropped_entries n kind x ok kd _).2 ⟨hy, hne⟩
    · intro hj hw hx hin _
      obtain ⟨f1, f2, f3⟩ := hfound j hj (Nat.le_refl _) ⟨kind, hw, by rw [← hx]; exact hin⟩ hx
      rcases hno with hno | hno | hno
      · rw [f1] at hno; exact absurd hno (by simp)
      · rw [f2] at hno; exact absurd hno (by simp)
      · exact absurd hno f3
  · -- delegable without approval
    subst hr
    refine ⟨j, Nat.le_refl _, h, Stays.refl _ j, fun _ _ _ hy _ => hy, ?_⟩
    intro _ hw _ _ _
    subst hk
    rcases hw with hw | hw | hw <;> cases hw
  · -- processed again
    obtain ⟨hxp, hxd, m, hmL, hme⟩ := h.reached.evtU _ _ _ he
    obtain ⟨i, hi, rfl⟩ := List.getElem_of_mem hmL
    subst hme
    have hx1 : x.1 = p := by rw [← hxp, hv.pre]
    have hx2 : x.2.2 = L[i].e.said := hxd.symm
    rw [hx1, hx2] at hl' he hs hr
    -- entries after processing
    have hents : ∀ kd y, Waits kd → y ∈ n.db.entries kd →
        y ∈ (n.processEvent env L[i].e (n.db.sigs p L[i].e.said) (n.db.wigs p L[i].e.said) c eager l').1.db.entries kd :=
      fun kd y hkd hy => (frame_entries (frame_process env n L[i].e _ _ c eager l') hkd y).1 hy
    have hkeep : ∀ kd y, Waits kd → y ∈ n.db.entries kd → ¬ (kd = kind ∧ y = x) → y ∈ r.db.entries kd := by
      intro kd y hkd hy hne
      rcases hr with ⟨hr, _⟩ | ⟨ok, hr, _⟩
      · rw [hr]; exact hents kd y hkd hy
      · rw [hr]; exact (dropped_entries _ kind x ok kd _).2 ⟨hents kd y hkd hy, hne⟩
    -- the entry determines the message
    have hxi : ∀ i' (hi' : i' < L.length), x = entry p L i' hi' → i' = i := by
      intro i' hi' hx
      rw [hx] at hx2
      exact said_inj hnc hv hi' hi hx2
    by_cases hij : i < j
    · have hp := h.replay hnc hv i hi hij (n.db.sigs p L[i].e.said) (n.db.wigs p L[i].e.said) c eager l'
      refine ⟨j, Nat.le_refl _, ?_, ⟨?_, t1, t2⟩, hkeep, ?_⟩
      · rcases hr with ⟨hr, _⟩ | ⟨ok, hr, _⟩
        · rw [hr]; exact hp
        · rw [hr] at hr' ⊢; exact hp.drop kind x ok hr'
      · rintro i' hi' hji' ⟨kd, hkd, hin⟩
        refine ⟨kd, hkd, hkeep kd _ hkd hin ?_⟩
        rintro ⟨_, heq⟩
        have := hxi i' hi' heq.symm
        omega
      · intro hj _ hx _ _
        have := hxi j hj hx
        omega
    · have hll : l' = l := (h.sub i hi (by omega)).2.2 l' hl'
      subst hll
      obtain ⟨_, _, hver⟩ := h.held i hi (by omega) hs
      obtain ⟨hsub1, hsub2, _⟩ := h.sub i hi (by omega)
      rcases h.proc hnc hv hm i hi (by omega) (n.db.sigs p L[i].e.said) (n.db.wigs p L[i].e.said) hsub1 hsub2 hver c eager with
        ⟨hij', hacc⟩ | ⟨hinv, hcomp, kd0, hw0, he0, hin0, _, _⟩
      · subst hij'
        refine ⟨i + 1, by omega, ?_, ⟨?_, t1, t2⟩, hkeep, fun _ _ _ _ _ => Nat.le_refl _⟩
        · rcases hr with ⟨hr, _⟩ | ⟨ok, hr, _⟩
          · rw [hr]; exact hacc
          · rw [hr] at hr' ⊢; exact hacc.drop kind x ok hr'
        · rintro i' hi' hji' ⟨kd, hkd, hin⟩
          refine ⟨kd, hkd, hkeep kd _ hkd hin ?_⟩
          rintro ⟨_, heq⟩
          have := hxi i' hi' heq.symm
          omega
      · refine ⟨j, Nat.le_refl _, ?_, ⟨?_, t1, t2⟩, hkeep, ?_⟩
        · rcases hr with ⟨hr, _⟩ | ⟨ok, hr, _⟩
          · rw [hr]; exact hinv
          · rw [hr] at hr' ⊢; exact hinv.drop kind x ok hr'
        · rintro i' hi' hji' ⟨kd, hkd, hin⟩
          by_cases hii : i' = i
          · subst hii
            refine ⟨kd0, hw0, ?_⟩
            rcases hr with ⟨hr, _⟩ | ⟨ok, hr, hne⟩
            · rw [hr]; exact hin0
            · rw [hr]
              refine (dropped_entries _ kind x ok kd0 _).2 ⟨hin0, ?_⟩
              rintro ⟨hk, _⟩
              subst hk
              exact hne he0
          · refine ⟨kd, hkd, hkeep kd _ hkd hin ?_⟩
            rintro ⟨_, heq⟩
            exact hii (hxi i' hi' heq.symm)
        · intro hj _ hx _ hc
          have := hxi j hj hx
          subst this
          exact absurd hc (hcomp rfl)

/-- One pass over any of the escrows. -/
theorem SInv.pass (hnc : NoColl (Msg.events L)) (hv : ValidLog env (Node.start ps gs md) l p L) (hm : l = true ∨ p ∉ gs)
    (kind : Esc) (xs : List (Id × Nat × Dig)) : ∀ {n : Node} {j : Nat}, SInv env ps gs md l p L n j →
    ∃ j', j ≤ j' ∧ SInv env ps gs md l p L (xs.foldl (fun n x => n.escStep env kind (fun _ => false) x) n) j' ∧
      Stays p L n (xs.foldl (fun n x => n.escStep env kind (fun _ => false) x) n) j' ∧
      (∀ kd y, Waits kd → y ∈ n.db.entries kd → kd ≠ kind →
        y ∈ (xs.foldl (fun n x => n.escStep env kind (fun _ => false) x) n).db.entries kd) ∧
      (∀ hj : j < L.length, Waits kind → entry p L j hj ∈ xs → entry p L j hj ∈ n.db.entries kind →
        Complete env ps gs md l p L j hj (n.db.sigs p L[j].e.said) (n.db.wigs p L[j].e.said) → j + 1 ≤ j') := by
  induction xs with
  | nil =>
    intro n j h
    exact ⟨j, Nat.le_refl _, h, Stays.refl _ j, fun _ _ _ hy _ => hy, fun _ _ hx => absurd hx (by simp)⟩
  | cons x xs ih =>
    intro n j h
    rw [List.foldl_cons]
    obtain ⟨j1, a1, a2, a3, a4, a5⟩ := h.step hnc hv hm kind x
    obtain ⟨j2, b1, b2, b3, b4, b5⟩ := ih a2
    refine ⟨j2, by omega, b2, a3.trans b3 b1, fun kd y hkd hy hne => b4 kd y hkd (a4 kd y hkd hy (fun hh => hne hh.1)) hne, ?_⟩
    intro hj hw hx hin hc
    by_cases hj1 : j + 1 ≤ j1
    · omega
    · have : j1 = j := by omega
      subst this
      have hxne : x ≠ entry p L j1 hj := by
        intro hx'
        have := a5 hj hw hx' (by rw [hx']; exact hin) hc
        omega
      have hx' : entry p L j1 hj ∈ xs := (List.mem_cons.1 hx).resolve_left (fun h => hxne h.symm)
      exact b5 hj hw hx' (a4 kind _ hw hin (fun hh => hxne hh.2.symm))
        ⟨fun s h1 h2 => a3.sigs _ _ s (hc.1 s h1 h2), fun s h1 h2 => a3.wigs _ _ s (hc.2 s h1 h2)⟩

end

end Verif.Kel
