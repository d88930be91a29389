import Verif.Kel.CrashLemmas
import Verif.Kel.PropsLog
import Verif.Kel.PropsSig

/-! # C32: crashes between the writes of an acceptance -/

namespace Verif.Kel

open Verif.Thold (Thold)

/-- Performing all writes is what `processEvent` does, whatever `i ≥ 10` is. -/
theorem crash_all {env : Env} {U : Event → Prop} (hnc : NoColl U) {n n' : Node} (h : Reached env U n) {e : Event}
    {ss ws : List Sig} {couple : Option Couple} {eager isLocal : Bool} (hen : Enters env n e ss ws couple eager isLocal n')
    (i : Nat) (hi : 10 ≤ i) : n.crashAt env e ss ws couple eager isLocal i = n' := by
  obtain ⟨k1, v, w, hp, g, ha⟩ := enters_acc h.evtU.ok hen
  obtain ⟨ha, hk1, db, k, c, l, hs, hw, hpr⟩ := ha.planned (enters_okPre hen)
  obtain ⟨rfl, _⟩ := hen
  have hinv := h.inv hnc
  unfold Node.crashAt
  rw [hw]
  simp only
  rw [List.take_of_length_le (by simp [Node.logWrites]; omega), hpr]
  have hst := (acc_log { n with db := db } k k1 e v w c l).states
  simp only at hst
  rw [hs.states, hinv.states, hk1] at hst
  unfold Node.restart
  rw [List.foldl_append]
  show (⟨_, (Db.pinState (Node.logEvent { n with db := db } k e v.sigs v.wigs w true c l) k1).states, _, _, _⟩ : Node) = _
  rw [hst]
  rfl

/-- The state after a crash, by the number of writes done. -/
theorem crash_mid {env : Env} {n n' : Node} {U : Event → Prop} (hnc : NoColl U) (h : Reached env U n) {e : Event}
    {ss ws : List Sig} {couple : Option Couple} {eager isLocal : Bool} (hen : Enters env n e ss ws couple eager isLocal n') :
    ∃ k1 v w, Accepts env n e ss ws couple eager isLocal k1 v w ∧ k1.pre = e.pre ∧ AccN e k1 v w n n' ∧ v.sigs ≠ [] ∧
      ∀ i, Mid e k1 v i n.db (n.crashAt env e ss ws couple eager isLocal i).db ∧
        (i < 10 → SameCfg n (n.crashAt env e ss ws couple eager isLocal i)) := by
  obtain ⟨k1, v, w, hp, g, ha⟩ := enters_acc h.evtU.ok hen
  obtain ⟨_, _, db, k, c, l, hs, hw, hpr⟩ := ha.planned (enters_okPre hen)
  refine ⟨k1, v, w, ha, hp, g, ?_, ?_⟩
  · obtain ⟨_, _, _, _, _, hv⟩ := accepts_valid ha; exact hv.some
  · intro i
    have hm := Mid.of_same hs (mid_writes { n with db := db } k k1 e v w c l i)
    unfold Node.crashAt
    rw [hw]
    simp only
    refine ⟨hm, fun hi => ⟨?_, rfl, rfl, rfl⟩⟩
    show (List.foldl _ _ _ : Db).states = _
    rw [hm.states, if_pos hi, (h.inv hnc).states]

/-- **C32, first half.** After a crash between any two writes of an acceptance, every event listed in a key event log has its
body stored under the right number, and at least one signature. -/
theorem c32_stored {env : Env} {U : Event → Prop} (hnc : NoColl U) {n n' : Node} (h : Reached env U n) {e : Event} (he : U e)
    {ss ws : List Sig} {couple : Option Couple} {eager isLocal : Bool} (hen : Enters env n e ss ws couple eager isLocal n')
    (i : Nat) (p : Id) (s : Nat) (d : Dig) (hd : d ∈ (n.crashAt env e ss ws couple eager isLocal i).db.kels p s) :
    ∃ x, (n.crashAt env e ss ws couple eager isLocal i).db.evts p d = some x ∧ x.sn = s ∧ x.said = d ∧
      (n.crashAt env e ss ws couple eager isLocal i).db.sigs p d ≠ [] := by
  obtain ⟨k1, v, w, ha, hk1, g, hv, hm⟩ := crash_mid hnc h hen
  obtain ⟨hm, _⟩ := hm i
  generalize n.crashAt env e ss ws couple eager isLocal i = c at *
  have old : d ∈ n.db.kels p s → ∃ x, c.db.evts p d = some x ∧ x.sn = s ∧ x.said = d ∧ c.db.sigs p d ≠ [] := by
    intro hd
    obtain ⟨h1, x, h2, h3⟩ := ((h.inv hnc).mem p d s).1 hd
    obtain ⟨_, h4, _⟩ := h.evtU p d x h2
    subst h4
    obtain ⟨a, vs, _, _, hne, _, hs, _⟩ := c19_signing_threshold hnc h p x ⟨h1, h2⟩
    refine ⟨x, hm.mono _ _ _ h2, h3, rfl, ?_⟩
    match vs, hne, hs with
    | t :: vs, _, hs => exact List.ne_nil_of_mem (hm.sigs _ _ t (hs t (by simp)).1)
  rw [hm.kels] at hd
  split at hd
  · exact old hd
  · rename_i hi
    unfold upd2 at hd
    split at hd
    · rename_i hp
      rw [mem_ioAdd] at hd
      rcases hd with hd | rfl
      · rw [← hp.1, ← hp.2] at hd; exact old hd
      · obtain ⟨rfl, rfl⟩ := hp
        obtain ⟨x, hx⟩ := hm.stored (by omega)
        have hxe : x = e := by
          rcases hm.only _ _ _ hx with h' | ⟨_, _, h'⟩
          · obtain ⟨_, h2, h3⟩ := h.evtU _ _ _ h'; exact hnc x e h3 he h2
          · exact h'
        subst hxe
        refine ⟨x, hx, rfl, rfl, ?_⟩
        match hl : v.sigs, hv with
        | t :: _, _ => exact List.ne_nil_of_mem (hm.sigsIn (by omega) t (by rw [hl]; simp))
    · exact old hd

/-- The key state without its first-seen number. -/
def Kever.noFn (k : Kever) : Kever := { k with fn := 0 }

/-- **C32, second half, for events without delegator.** Wherever the crash hits, processing the same message again after the
restart is accepted or recognised, and ends with the key event logs, the stored events and (apart from the first-seen number)
the key states of the run without crash; with exactly the same logs and key states when the crash hits before the first-seen
log is written or after the key state is.

Missing: delegated events; and equality of the first-seen logs at the remaining crash points, which is false
(`c32_first_seen_twice`). -/
theorem c32_reprocess_partial {env : Env} {U : Event → Prop} (hnc : NoColl U) (hnd : NoDrt U) {n n' : Node}
    (h : Reached env U n) {e : Event} (he : U e) (hi1 : e.ilk ≠ .dip) {ss ws : List Sig} {couple : Option Couple}
    {eager isLocal : Bool} (hen : Enters env n e ss ws couple eager isLocal n') (i : Nat) (m : Node)
    (hm : m = ((n.crashAt env e ss ws couple eager isLocal i).processEvent env e ss ws couple eager isLocal).1) :
    m.db.kels = n'.db.kels ∧ m.db.evts = n'.db.evts ∧
    (∀ p, (m.kevers p).map Kever.noFn = (n'.kevers p).map Kever.noFn) ∧
    (∀ p, (m.db.states p).map Kever.noFn = (n'.db.states p).map Kever.noFn) ∧
    (i ≤ 6 ∨ 10 ≤ i → LogsEq n' m) := by
  have hinv := h.inv hnc
  by_cases h10 : 10 ≤ i
  · rw [crash_all hnc h hen i h10] at hm
    obtain ⟨k1, v, w, ha, hk1, g, hv, _⟩ := crash_mid hnc h hen
    have hr' : Reached env U n' := by
      obtain ⟨rfl, _⟩ := hen
      exact h.run (h' := [.event e ss ws couple eager isLocal])
        (fun j hj x hx => by simp at hj; subst hj; simp [Inp.delivers] at hx; subst hx; exact he)
    have hfel : e.said ∈ n'.db.fels e.pre := by rw [g.db.fels]; simp [upd]
    have hl := c27_replay_partial hnc hnd hr' e he hfel ss ws couple eager isLocal
    rw [← hm] at hl
    obtain ⟨l1, l2, l3, l4, l5⟩ := hl
    refine ⟨l1, ?_, fun p => by rw [l5], fun p => by rw [l4], fun _ => ⟨l1, l2, l3, l4, l5⟩⟩
    have hev := acc_evt hnc hinv.evt he g
    funext p d
    rcases processEvent_cases env n' e ss ws couple eager isLocal hr'.evtU.ok with g' | ⟨_, k1', v', w', _, g', _⟩
    · rw [← hm] at g'
      match hx : n'.db.evts p d with
      | some x => exact g'.db.mono _ _ _ hx
      | none =>
        match hy : m.db.evts p d with
        | none => rfl
        | some y =>
          rcases g'.db.only _ _ _ hy with h' | ⟨h1, h2, h3⟩
          · rw [hx] at h'; exact absurd h' (by simp)
          · rw [h1, h2, hev] at hx; exact absurd hx (by simp)
    · rw [← hm] at g'
      have := g'.db.fels
      rw [l2] at this
      have := congrFun this e.pre
      simp [upd] at this
  · have h10 : i < 10 := by omega
    obtain ⟨k1, v, w, ha, hk1, g, hv, hmid⟩ := crash_mid hnc h hen
    obtain ⟨hmid, hcfg⟩ := hmid i
    have hcfg := hcfg h10
    generalize n.crashAt env e ss ws couple eager isLocal i = c at *
    have hb : Below e n.db c.db := by
      refine ⟨fun s hs => ?_, hmid.mono⟩
      rw [hmid.kels]
      split
      · rfl
      · simp [upd2]; omega
    have ha' := ha.congr hcfg hb hi1 (hnd e he) rfl rfl couple eager
    obtain ⟨_, _, db, k, cp, l, hs, hw, hpr⟩ := ha'.planned (enters_okPre hen)
    rw [← hm] at hpr
    have hacc : Acc e { k1 with fn := (c.db.fels e.pre).length } v w c.db m.db := by
      rw [hpr]
      exact Acc.of_same hs (acc_log { c with db := db } k _ e v w cp l)
    have hmk : m.kevers = upd n.kevers e.pre (some { k1 with fn := (c.db.fels e.pre).length }) := by
      rw [hpr, hcfg.kevers]
    have hkels : m.db.kels = n'.db.kels := by
      rw [hacc.kels, g.db.kels, hmid.kels]
      split
      · rfl
      · funext p s
        unfold upd2
        split
        · rename_i hp
          simp only [and_self, if_true]
          rw [ioAdd, if_pos ((mem_ioAdd _ _ _).2 (.inr rfl))]
        · rfl
    have hstates : c.db.states = n.kevers := by rw [hmid.states, if_pos h10, hinv.states]
    refine ⟨hkels, ?_, ?_, ?_, ?_⟩
    · -- event bodies
      have hev := acc_evt hnc hinv.evt he g
      have huc : ∀ p d x, c.db.evts p d = some x → U x ∧ x.pre = p ∧ x.said = d := by
        intro p d x hx
        rcases hmid.only _ _ _ hx with h' | ⟨h1, h2, h3⟩
        · have := h.evtU _ _ _ h'; exact ⟨this.2.2, this.1, this.2.1⟩
        · subst h1 h2 h3; exact ⟨he, rfl, rfl⟩
      have hev' : m.db.evts e.pre e.said = some e := by
        obtain ⟨x, hx⟩ := hacc.stored
        rw [hx]
        rcases hacc.only _ _ _ hx with h' | ⟨_, _, h'⟩
        · have := huc _ _ _ h'; rw [hnc x e this.1 he this.2.2]
        · rw [h']
      funext p d
      by_cases hpd : p = e.pre ∧ d = e.said
      · rw [hpd.1, hpd.2, hev, hev']
      · have e1 : m.db.evts p d = n.db.evts p d := by
          match hy : n.db.evts p d with
          | some y => exact hacc.mono _ _ _ (hmid.mono _ _ _ hy)
          | none =>
            match hz : m.db.evts p d with
            | none => rfl
            | some z =>
              rcases hacc.only _ _ _ hz with h' | h'
              · rcases hmid.only _ _ _ h' with h'' | h''
                · rw [hy] at h''; exact absurd h'' (by simp)
                · exact absurd ⟨h''.1, h''.2.1⟩ hpd
              · exact absurd ⟨h'.1, h'.2.1⟩ hpd
        have e2 : n'.db.evts p d = n.db.evts p d := by
          match hy : n.db.evts p d with
          | some y => exact g.db.mono _ _ _ hy
          | none =>
            match hz : n'.db.evts p d with
            | none => rfl
            | some z =>
              rcases g.db.only _ _ _ hz with h' | h'
              · rw [hy] at h'; exact absurd h' (by simp)
              · exact absurd ⟨h'.1, h'.2.1⟩ hpd
        rw [e1, e2]
    · intro p
      rw [hmk, g.kevers]
      unfold upd
      split <;> rfl
    · intro p
      rw [hacc.states, g.db.states, hstates, hinv.states]
      unfold upd
      by_cases hp : p = k1.pre <;> simp [hp, Kever.noFn]
    · intro hi
      have hi : i < 7 := by omega
      have hf : c.db.fels = n.db.fels := by rw [hmid.fels, if_pos hi]
      have hk' : ({ k1 with fn := (n.db.fels e.pre).length } : Kever) = k1 := by
        rcases ha with ⟨a, _⟩ | ⟨k, a⟩ | ⟨k, a, _⟩
        · obtain ⟨_, _, _, _, hk⟩ := a.inc; rw [hk]
        · obtain ⟨_, _, _, _, _, hk⟩ := a.rot; rw [hk]; rfl
        · obtain ⟨_, _, hk⟩ := a.val; rw [hk]; rfl
      refine ⟨hkels, ?_, ?_, ?_, ?_⟩
      · rw [hacc.fels, g.db.fels, hf]
      · rw [hacc.fons, g.db.fons, hf, hmid.fonsPre (by omega)]
      · rw [hacc.states, g.db.states, hstates, hinv.states, hf, hk']
      · rw [hmk, g.kevers, hf, hk']

/-- **C32 fails for the first-seen log.** Whenever the process stops after the first-seen log was written and before the key
state is, reprocessing the message enters the event in the first-seen log a second time. -/
theorem c32_first_seen_twice {env : Env} {U : Event → Prop} (hnc : NoColl U) (hnd : NoDrt U) {n n' : Node}
    (h : Reached env U n) {e : Event} (he : U e) (hi1 : e.ilk ≠ .dip) {ss ws : List Sig} {couple : Option Couple}
    {eager isLocal : Bool} (hen : Enters env n e ss ws couple eager isLocal n') (i : Nat) (hi : 7 ≤ i ∧ i ≤ 9) :
    ((n.crashAt env e ss ws couple eager isLocal i).processEvent env e ss ws couple eager isLocal).1.db.fels e.pre =
      n.db.fels e.pre ++ [e.said, e.said] := by
  obtain ⟨k1, v, w, ha, hk1, g, hv, hmid⟩ := crash_mid hnc h hen
  obtain ⟨hmid, hcfg⟩ := hmid i
  have hcfg := hcfg (by omega)
  generalize n.crashAt env e ss ws couple eager isLocal i = c at *
  have hb : Below e n.db c.db := by
    refine ⟨fun s hs => ?_, hmid.mono⟩
    rw [hmid.kels]
    split
    · rfl
    · simp [upd2]; omega
  have ha' := ha.congr hcfg hb hi1 (hnd e he) rfl rfl couple eager
  obtain ⟨_, _, db, k, cp, l, hs, hw, hpr⟩ := ha'.planned (enters_okPre hen)
  have hacc : Acc e { k1 with fn := (c.db.fels e.pre).length } v w c.db
      (c.processEvent env e ss ws couple eager isLocal).1.db := by
    rw [hpr]
    exact Acc.of_same hs (acc_log { c with db := db } k _ e v w cp l)
  rw [hacc.fels, hmid.fels, if_neg (by omega)]
  simp [upd]

namespace Demo10

/-- The node that knows identifier 1 by its inception. -/
def n0 : Node := Demo.node.run Demo.env [Demo.recv Demo.icp 101]

/-- Another interaction at number 1 signed by the same key. -/
def other : Event := { Demo.ixn1 with said := 31 }

/-- The events delivered. -/
def U : Event → Prop := fun e => e ∈ [Demo.icp, Demo.ixn1, other]

theorem noColl : NoColl U := by
  have h : ∀ x ∈ [Demo.icp, Demo.ixn1, other], ∀ y ∈ [Demo.icp, Demo.ixn1, other], x.said = y.said → x = y := by
    decide +kernel
  exact fun x y hx hy => h x hx y hy

theorem reached : Reached Demo.env U n0 := by
  refine ⟨[], [], fun _ => none, [Demo.recv Demo.icp 101], ?_, rfl⟩
  intro i hi e he
  simp only [Demo.recv, List.mem_cons, List.not_mem_nil, or_false] at hi
  subst hi; simp [Inp.delivers] at he; subst he; simp [U]

theorem enters : Enters Demo.env n0 Demo.ixn1 [Demo.sig Demo.ixn1 101 0] [] none false false
    (n0.processEvent Demo.env Demo.ixn1 [Demo.sig Demo.ixn1 101 0] [] none false false).1 := by
  refine ⟨rfl, ?_⟩
  have h : (n0.processEvent Demo.env Demo.ixn1 [Demo.sig Demo.ixn1 101 0] [] none false false).1.db.fels 1 = [10, 11] ∧
      n0.db.fels 1 = [10] := by decide +kernel
  show (n0.processEvent Demo.env Demo.ixn1 [Demo.sig Demo.ixn1 101 0] [] none false false).1.db.fels 1 ≠ n0.db.fels 1
  rw [h.1, h.2]; simp

end Demo10

/-- The hypotheses of the theorems above are met, with a crash in the critical interval. -/
example : ((Demo10.n0.crashAt Demo.env Demo.ixn1 [Demo.sig Demo.ixn1 101 0] [] none false false 8).processEvent Demo.env
    Demo.ixn1 [Demo.sig Demo.ixn1 101 0] [] none false false).1.db.fels 1 = [10, 11, 11] :=
  c32_first_seen_twice (U := fun e => e = Demo.icp ∨ e = Demo.ixn1)
    (fun x y hx hy => by rcases hx with rfl | rfl <;> rcases hy with rfl | rfl <;> first | (intro; rfl) | (intro h; exact absurd h (by decide)))
    (fun e he => by rcases he with rfl | rfl <;> decide)
    ⟨[], [], fun _ => none, [Demo.recv Demo.icp 101], fun i hi e he => by
      simp only [Demo.recv, List.mem_cons, List.not_mem_nil, or_false] at hi
      subst hi; simp [Inp.delivers] at he; exact .inl he.symm, rfl⟩ (e := Demo.ixn1) (.inr rfl) (by decide) Demo10.enters 8
    (by omega)

/-- **A crash defeats first-seen-wins.** After a crash between the write of the key event log and the write of the key state, a
different event at the same position, not a rotation, is accepted and takes the place of the one first seen. -/
theorem c32_crash_replaced : ∃ (env : Env) (U : Event → Prop) (n n' : Node) (e o : Event) (ss so : List Sig), NoColl U ∧
    Reached env U n ∧ U e ∧ U o ∧ Enters env n e ss [] none false false n' ∧ o.ilk = .ixn ∧ o ≠ e ∧ o.sn = e.sn ∧
    o.pre = e.pre ∧ e.said ∈ (n.crashAt env e ss [] none false false 9).db.kels e.pre e.sn ∧
    (((n.crashAt env e ss [] none false false 9).processEvent env o so [] none false false).1.db.kels e.pre e.sn).getLast? =
      some o.said := by
  refine ⟨Demo.env, Demo10.U, Demo10.n0, _, Demo.ixn1, Demo10.other, [Demo.sig Demo.ixn1 101 0],
    [Demo.sig Demo10.other 101 0], Demo10.noColl, Demo10.reached, by simp [Demo10.U], by simp [Demo10.U], Demo10.enters, rfl,
    by decide, rfl, rfl, ?_, ?_⟩
  · have h : (Demo10.n0.crashAt Demo.env Demo.ixn1 [Demo.sig Demo.ixn1 101 0] [] none false false 9).db.kels 1 1 = [11] := by
      decide +kernel
    show 11 ∈ (Demo10.n0.crashAt Demo.env Demo.ixn1 [Demo.sig Demo.ixn1 101 0] [] none false false 9).db.kels 1 1
    rw [h]; simp
  · decide +kernel

end Verif.Kel
