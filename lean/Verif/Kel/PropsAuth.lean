import Verif.Kel.PropsSig

/-! # Properties C25, C26, C29, C30, C35: frozen identifiers, configuration, delegation, locality, establishment lookup -/

namespace Verif.Kel

open Verif.Thold (Thold)

/-! ## C25 -/

theorem frozen_micro {env : Env} {U : Event → Prop} {a b : Node} (hu : EvtU U a) (g : Micro env U a b) (p : Id)
    (k : Kever) (hk : a.kevers p = some k) (ht : k.transferable env = false) :
    b.db.kels p = a.db.kels p ∧ b.db.fels p = a.db.fels p ∧ b.kevers p = a.kevers p := by
  cases g with
  | core g => rw [g.kels, g.fels, g.kevers]; exact ⟨rfl, rfl, rfl⟩
  | event e ss ws c eager isLocal he =>
    rcases processEvent_cases env a e ss ws c eager isLocal hu.ok with g | ⟨_, k1, v, w, hk1, g, ha⟩
    · rw [g.db.kels, g.db.fels, g.kevers]; exact ⟨rfl, rfl, rfl⟩
    · have hp : p ≠ e.pre := by
        rintro rfl
        rcases ha with ⟨ha, _⟩ | ⟨k', ha⟩ | ⟨k', ha, _⟩
        · rw [ha.fresh] at hk; exact absurd hk (by simp)
        · have := ha.known; rw [hk] at this; injection this with this; subst this
          rw [ha.trans] at ht; exact absurd ht (by simp)
        · have := ha.known; rw [hk] at this; injection this with this; subst this
          rw [ha.trans] at ht; exact absurd ht (by simp)
      refine ⟨?_, ?_, ?_⟩
      · rw [g.db.kels]; funext s; simp [upd2, hp]
      · rw [g.db.fels]; simp [upd, hp]
      · rw [g.kevers]; simp [upd, hp]

/-- **C25.** Once an identifier is non-transferable, or the establishment event in force committed to no next keys, its logs and
key state never change again. -/
theorem c25_frozen {env : Env} {U : Event → Prop} (hnc : NoColl U) {n : Node} (h : Reached env U n) (p : Id) (k : Kever)
    (hk : n.kevers p = some k) (a : Event) (ha : Authority n.db p k.serder a)
    (hz : a.ndigs = [] ∨ env.transferable p = false) (h' : List Inp) (hd : Delivers U h') :
    (n.run env h').db.kels p = n.db.kels p ∧ (n.run env h').db.fels p = n.db.fels p ∧
    (n.run env h').kevers p = some k := by
  have hK := h.keys hnc p k hk
  have ht : k.transferable env = false := by
    obtain ⟨b, _, _, _, _, _, _, b7, _, _, b10⟩ := hK.est
    have := authority_unique ha b10
    subst this
    unfold Kever.transferable
    rw [b7, hK.pre]
    rcases hz with hz | hz <;> simp [hz]
  have hs := run_steps env U n h' h.evtU hd
  have key : ∀ b, Steps env U n b → b.db.kels p = n.db.kels p ∧ b.db.fels p = n.db.fels p ∧ b.kevers p = n.kevers p := by
    intro b hb
    induction hb with
    | refl => exact ⟨rfl, rfl, rfl⟩
    | tail hs g ih =>
      have := frozen_micro (h.evtU.steps hs) g p k (by rw [ih.2.2]; exact hk) ht
      exact ⟨this.1.trans ih.1, this.2.1.trans ih.2.1, this.2.2.trans ih.2.2⟩
  rw [← hk]; exact key _ hs

namespace Demo

/-- Rotation to key 102 committing to nothing. -/
def rotEnd : Event := { rot1 with ndigs := [], nt := .num 0 }

/-- The hypotheses of C25 are met after that rotation, and a further properly signed event changes nothing. -/
example : ((node.run env [recv icp 101, recv rotEnd 102]).kevers 1).map (fun k => (k.sn, k.serder)) = some (1, rotEnd) ∧
    rotEnd.ilk.est = true ∧ rotEnd.ndigs = [] ∧
    ((node.run env [recv icp 101, recv rotEnd 102]).processEvent env ixn2b [sig ixn2b 102 0] [] none false false).2 =
      .error .validation := by decide +kernel

end Demo

/-! ## C26 -/

/-- **C26.** If the first event of an identifier sets the establishment-only trait, all its accepted events are establishment
events. -/
theorem c26_est_only {env : Env} {U : Event → Prop} (hnc : NoColl U) {n : Node} (h : Reached env U n) (p : Id) (x : Event)
    (hx : (n.db.fels p)[0]? = some x.said) (he : n.db.evts p x.said = some x) (ho : x.estOnly = true) (y : Event)
    (hy : Accepted n.db p y) : y.ilk.est = true := by
  match hk : n.kevers p with
  | none => have := ((h.inv hnc).fresh p hk).2; rw [this] at hx; exact absurd hx (by simp)
  | some k =>
    have hK := h.keys hnc p k hk
    obtain ⟨z, rest, i1, i2, i3, i4, _⟩ := hK.inc
    rw [i1] at hx
    simp at hx
    rw [hx, he] at i2; injection i2 with i2; subst i2
    exact hK.estOnly (by rw [← i4]; exact ho) y hy

namespace Demo

/-- An establishment-only inception: the rotation is accepted, the interaction is not. -/
example : (node.run env [recv { icp with estOnly := true } 101, recv ixn1 101, recv rot1 102]).db.fels 1 = [10, 21] := by
  decide +kernel

end Demo

/-! ## C29 -/

theorem mem_lastEvents {db : Db} {p : Id} (hok : EvtOk db) : ∀ (fuel sn : Nat) (x : Event), x ∈ lastEvents db p fuel sn →
    ∃ s, (db.kels p s).getLast? = some x.said ∧ db.evts p x.said = some x := by
  intro fuel
  induction fuel with
  | zero => intro sn x hx; simp [lastEvents] at hx
  | succ fuel ih =>
    intro sn x hx
    unfold lastEvents at hx
    split at hx
    · exact absurd hx (by simp)
    · rename_i d hd
      split at hx
      · exact ih _ _ hx
      · rename_i y hy
        rcases List.mem_cons.1 hx with rfl | hx
        · have := (hok _ _ _ hy).2
          subst this
          exact ⟨sn, hd, hy⟩
        · exact ih _ _ hx

theorem locateSeal_spec {n : Node} {c : Ctx} {dp : Id} {db : Db} {de : Event} (hok : EvtOk n.db)
    (h : n.locateSeal c dp = (db, .ok de)) :
    sealOf c.e ∈ de.seals ∧ (∃ s, (n.db.kels dp s).getLast? = some de.said ∧ n.db.evts dp de.said = some de ∧
      ∀ s' d', c.couple = some (s', d') → s' = s ∧ 1 ≤ s) ∧
    (c.couple = none → c.eager = true ∧ n.fullyWitnessed de = true) := by
  have herr : ∀ {db' : Db} {x : Exn}, (db', (Except.error x : Except Exn Event)) = (db, .ok de) → False := by
    intro db' x h; injection h with _ h; exact absurd h (by simp)
  unfold Node.locateSeal at h
  split at h
  · rename_i hc
    split at h
    · rename_i de' hf
      injection h with _ h; injection h with h; subst h
      split at hf
      · unfold Node.findSeal at hf
        have h1 := List.find?_some hf
        have h2 := List.mem_of_find?_eq_some hf
        simp at h1
        rename_i he
        obtain ⟨s, hs1, hs2⟩ := mem_lastEvents hok _ _ _ h2
        exact ⟨h1.1, ⟨s, hs1, hs2, fun s' d' hcc => absurd (hc.symm.trans hcc) (by simp)⟩, fun _ => ⟨he, h1.2⟩⟩
      · exact absurd hf (by simp)
    · exact (herr h).elim
  · rename_i s0 d0 hc
    split at h
    · exact (herr h).elim
    · rename_i hs0
      split at h
      · split at h <;> exact (herr h).elim
      · rename_i dd hdd
        split at h
        · exact (herr h).elim
        · rename_i de' hde
          split at h
          · rename_i hs
            injection h with _ h; injection h with h; subst h
            have := (hok _ _ _ hde).2
            subst this
            refine ⟨hs, ⟨s0, hdd, hde, ?_⟩, fun hcc => absurd (hcc.symm.trans hc) (by simp)⟩
            intro s' d' hcc
            rw [hc] at hcc; injection hcc with hcc; injection hcc with hcc
            exact ⟨hcc.symm, by omega⟩
          · exact (herr h).elim

/-- The delegator of an event: named by a delegated inception, and for a delegated rotation the one in the key state. -/
def DelegatedBy (n : Node) (e : Event) (dp : Id) : Prop :=
  (e.ilk = .dip ∧ e.delpre = some dp) ∨ (e.ilk = .drt ∧ ∃ k, n.kevers e.pre = some k ∧ k.delpre = some dp)

/-- **C29.** A delegated establishment event of an identifier in which the host has no part enters the log only if the delegator
is known, has not opted out of delegation, and an event in its first-seen log, the last one at its number, carries a seal of
exactly this event. That event is at the number given with the message, which is not 0; when none is given it is one with enough
witness signatures stored for the delegator's current witness threshold. -/
theorem c29_anchor {env : Env} {U : Event → Prop} (hnc : NoColl U) {n n' : Node} (h : Reached env U n) {e : Event}
    {ss ws : List Sig} {couple : Option Couple} {eager isLocal : Bool} (hen : Enters env n e ss ws couple eager isLocal n')
    (hf : Foreign n n' e.pre) (dp : Id) (hd : DelegatedBy n e dp) :
    ∃ dk de, n.kevers dp = some dk ∧ dk.doNotDelegate = false ∧ Accepted n.db dp de ∧
      (n.db.kels dp de.sn).getLast? = some de.said ∧ (⟨e.pre, e.sn, e.said⟩ : Seal) ∈ de.seals ∧
      (∀ s d, couple = some (s, d) → de.sn = s ∧ 1 ≤ s) ∧
      (couple = none → eager = true ∧ dk.toad ≤ (n.db.wigs dp de.said).length) := by
  obtain ⟨k1, v, w, hk1, g, ha⟩ := enters_acc h.evtU.ok hen
  obtain ⟨k, c, hkp, hk, hc, hv⟩ := accepts_valid ha
  obtain ⟨f1, f2, f3⟩ := foreign_false g hkp hk ha hf
  obtain ⟨dp', hdp', _, db, hval⟩ := hv.deleg
  have hdp : dp' = some dp := by
    rcases hd with ⟨hi, hp⟩ | ⟨hi, k', hk', hp⟩
    · simp only [delegator, hi, hp] at hdp'; injection hdp' with hdp'; exact hdp'.symm
    · simp only [delegator, hi] at hdp'; injection hdp' with hdp'
      rcases hk with hk | ⟨hk, _⟩
      · rw [hk'] at hk; injection hk with hk; subst hk; rw [← hdp', hp]
      · rw [hk'] at hk; exact absurd hk (by simp)
  subst hdp
  have herr : ∀ {db' : Db} {x : Exn}, (db', (Except.error x : Except Exn (Option Couple))) = (db, .ok v.couple) → False := by
    intro db' x h; injection h with _ h; exact absurd h (by simp)
  unfold Node.validateDelegation at hval
  simp only [f1, f2, f3, Bool.or_self, Bool.false_eq_true, if_false] at hval
  split at hval
  · exact (herr hval).elim
  · rename_i dk hdk
    split at hval
    · exact (herr hval).elim
    · rename_i hdn
      split at hval
      · exact (herr hval).elim
      · rename_i de hloc
        obtain ⟨h1, ⟨s, h2, h3, h4⟩, h5⟩ := locateSeal_spec h.evtU.ok hloc
        have hcc : c = couple := hc (by rcases hd with ⟨hi, _⟩ | ⟨hi, _⟩ <;> rw [hi] <;> simp)
        subst hcc
        have hm := ((h.inv hnc).mem _ _ _).1 (List.mem_of_getLast? h2)
        obtain ⟨hm1, x, hm2, hm3⟩ := hm
        rw [h3] at hm2; injection hm2 with hm2; subst hm2
        refine ⟨dk, de, hdk, by simpa using hdn, ⟨hm1, h3⟩, by rw [hm3]; exact h2, h1, ?_, ?_⟩
        · intro s' d' hcc
          have := h4 s' d' hcc
          exact ⟨by rw [hm3]; exact this.1.symm, by omega⟩
        · intro hcc
          have := h5 hcc
          refine ⟨this.1, ?_⟩
          have hw := this.2
          unfold Node.fullyWitnessed at hw
          rw [(h.evtU.ok _ _ _ h3).1, hdk] at hw
          simpa using hw

/-- `bo` is the event by which the delegator `dp` approved `x`: recorded as such when `x` was accepted, or, when nothing was
recorded, an event of the delegator with a seal of `x`. -/
def ApprovedBy (db : Db) (dp : Id) (x bo : Event) : Prop :=
  db.evts dp bo.said = some bo ∧
  ((∃ s, db.aess x.pre x.said = some (s, bo.said)) ∨ (db.aess x.pre x.said = none ∧ (⟨x.pre, x.sn, x.said⟩ : Seal) ∈ bo.seals))

theorem fetchDelegating_ok {n : Node} {dp : Id} {x bo : Event} {eager : Bool} {db : Db} (hok : EvtOk n.db)
    (h : n.fetchDelegating dp x eager = (db, .ok (some bo))) : ApprovedBy n.db dp x bo := by
  unfold Node.fetchDelegating at h
  split at h
  · rename_i s dd ha
    split at h
    · injection h with _ h; injection h with h; exact absurd h (by simp)
    · split at h
      · injection h with _ h; exact absurd h (by simp)
      · rename_i de hde
        injection h with _ h; injection h with h; injection h with h; subst h
        have := (hok _ _ _ hde).2
        subst this
        exact ⟨hde, .inl ⟨_, ha⟩⟩
  · rename_i ha
    split at h
    · split at h
      · injection h with _ h; exact absurd h (by simp)
      · rename_i de hf
        have hde : de = bo := by
          split at h
          · injection h with _ h; injection h with h; injection h
          · injection h with _ h; injection h with h; injection h
        subst hde
        unfold Node.findSeal at hf
        have h1 := List.find?_some hf
        obtain ⟨_, _, h3⟩ := mem_lastEvents hok _ _ _ (List.mem_of_find?_eq_some hf)
        simp at h1
        exact ⟨h3, .inr ⟨ha, h1.1⟩⟩
    · injection h with _ h; injection h with h; exact absurd h (by simp)

/-- **C29, superseding.** A delegated rotation of a foreign identifier that replaces an establishment event, or more than the last
event, enters the log only if the delegator approved it in a later event than the one that approved the tip it replaces. -/
theorem c29_superseding {env : Env} {U : Event → Prop} (hnc : NoColl U) {n n' : Node} (h : Reached env U n) {e : Event}
    {ss ws : List Sig} {couple : Option Couple} {eager isLocal : Bool} (hen : Enters env n e ss ws couple eager isLocal n')
    (hf : Foreign n n' e.pre) (k : Kever) (hk : n.kevers e.pre = some k) (hdrt : e.ilk = .drt) (dp : Id)
    (hdp : k.delpre = some dp) (hsup : e.sn ≤ k.sn) (hmore : e.sn < k.sn ∨ k.ilk ≠ .ixn) :
    ∃ de bo, Accepted n.db dp de ∧ (⟨e.pre, e.sn, e.said⟩ : Seal) ∈ de.seals ∧ ApprovedBy n.db dp k.serder bo ∧
      bo.sn < de.sn := by
  obtain ⟨k1, v, w, hk1, g, ha⟩ := enters_acc h.evtU.ok hen
  obtain ⟨k', c, hkp, hk', hc, hv⟩ := accepts_valid ha
  obtain ⟨f1, f2, f3⟩ := foreign_false g hkp hk' ha hf
  obtain ⟨dp', hdp', _, db, hval⟩ := hv.deleg
  have hkk : k' = k := by
    rcases hk' with hk' | ⟨hk', _⟩
    · rw [hk] at hk'; injection hk' with hk'; exact hk'.symm
    · rw [hk] at hk'; exact absurd hk' (by simp)
  subst hkk
  have hdpe : dp' = some dp := by
    simp only [delegator, hdrt] at hdp'; injection hdp' with hdp'; rw [← hdp', hdp]
  subst hdpe
  have herr : ∀ {db' : Db} {x : Exn}, (db', (Except.error x : Except Exn (Option Couple))) = (db, .ok v.couple) → False := by
    intro db' x h; injection h with _ h; exact absurd h (by simp)
  unfold Node.validateDelegation at hval
  simp only [f1, f2, f3, Bool.or_self, Bool.false_eq_true, if_false] at hval
  split at hval
  · exact (herr hval).elim
  · split at hval
    · exact (herr hval).elim
    · split at hval
      · exact (herr hval).elim
      · rename_i de hloc
        obtain ⟨h1, ⟨s, h2, h3, _⟩, _⟩ := locateSeal_spec h.evtU.ok hloc
        have hm := ((h.inv hnc).mem _ _ _).1 (List.mem_of_getLast? h2)
        rw [if_neg] at hval
        · split at hval
          · exact (herr hval).elim
          · exact (herr hval).elim
          · rename_i bo hfd
            split at hval
            · rename_i hlt
              exact ⟨de, bo, ⟨hm.1, h3⟩, h1, fetchDelegating_ok h.evtU.ok hfd, hlt⟩
            · exact (herr hval).elim
        · rintro (hx | hx | ⟨hx, hx2, _⟩)
          · rw [hdrt] at hx; exact absurd hx (by simp)
          · omega
          · rcases hmore with hm | hm
            · omega
            · exact hm hx2

namespace Demo7

/-- Delegated inception of identifier 2 by identifier 1. -/
def dip : Event := { Demo.icp with ilk := .dip, pre := 2, said := 60, keys := [201], ndigs := [702], delpre := some 1 }
/-- Interaction of the delegator sealing it. -/
def anc : Event := { Demo.ixn1 with seals := [⟨2, 0, 60⟩], anchors := true, said := 61 }
/-- Interaction of the delegator at 2 sealing it. -/
def anc2 : Event := { Demo.ixn2 with seals := [⟨2, 0, 60⟩], anchors := true, said := 62 }

/-- The delegator's log with the seal. -/
def n1 : Node := Demo.node.run Demo.env [Demo.recv Demo.icp 101, Demo.recv anc 101]
/-- The delegator's log: the seal is in an interaction at 2, and a recovery at 1 removes that interaction. -/
def n2 : Node := Demo.node.run Demo.env [Demo.recv Demo.icp 101, Demo.recv Demo.ixn1 101, Demo.recv anc2 101, Demo.recv Demo.rot1 102]

theorem result1 : (n1.processEvent Demo.env dip [Demo.sig dip 201 0] [] (some (1, 61)) false false).1.db.fels 2 = [60] ∧
    n1.db.fels 2 = [] ∧ n1.prefixes = [] ∧ n1.groups = [] := by
  decide +kernel

theorem result2 : (n2.processEvent Demo.env dip [Demo.sig dip 201 0] [] (some (2, 62)) false false).1.db.fels 2 = [60] ∧
    n2.db.fels 2 = [] ∧ n2.prefixes = [] ∧ n2.groups = [] ∧ (n2.kevers 1).map Kever.sn = some 1 ∧
    n2.db.kels 1 0 = [10] ∧ n2.db.kels 1 1 = [11, 21] ∧ n2.db.evts 1 10 = some Demo.icp ∧
    n2.db.evts 1 21 = some Demo.rot1 := by
  decide +kernel

theorem reached2 : Reached Demo.env (fun e => e ∈ [Demo.icp, Demo.ixn1, anc2, Demo.rot1, dip]) n2 := by
  refine ⟨[], [], fun _ => none, _, ?_, rfl⟩
  intro i hi e he
  simp only [Demo.recv, List.mem_cons, List.not_mem_nil, or_false] at hi
  rcases hi with rfl | rfl | rfl | rfl <;> simp [Inp.delivers] at he <;> subst he <;> simp

theorem noColl2 : NoColl (fun e => e ∈ [Demo.icp, Demo.ixn1, anc2, Demo.rot1, dip]) := by
  have h : ∀ x ∈ [Demo.icp, Demo.ixn1, anc2, Demo.rot1, dip], ∀ y ∈ [Demo.icp, Demo.ixn1, anc2, Demo.rot1, dip],
      x.said = y.said → x = y := by decide +kernel
  exact fun x y hx hy => h x hx y hy

/-- The hypotheses of C29 are met. -/
example : ∃ n', Enters Demo.env n1 dip [Demo.sig dip 201 0] [] (some (1, 61)) false false n' ∧ Foreign n1 n' dip.pre ∧
    DelegatedBy n1 dip 1 := by
  obtain ⟨r1, r2, r3, r4⟩ := result1
  refine ⟨_, ⟨rfl, ?_⟩, ⟨?_, ?_, ?_⟩, .inl ⟨rfl, rfl⟩⟩
  · rw [show dip.pre = 2 from rfl, r1, r2]; simp
  · rw [r3]; simp
  · rw [r4]; simp
  · rw [r3]; simp

/-- Two delegated rotations of identifier 2 at number 1, and the delegator's interactions sealing them. -/
def drt : Event := { dip with ilk := .drt, sn := 1, said := 63, prior := 60, keys := [202], ndigs := [702] }
def drt' : Event := { dip with ilk := .drt, sn := 1, said := 64, prior := 60, keys := [202], ndigs := [704] }
def anc3 : Event := { Demo.ixn2 with prior := 61, seals := [⟨2, 1, 63⟩], anchors := true, said := 65 }
def anc4 : Event := { Demo.ixn2 with sn := 3, prior := 65, seals := [⟨2, 1, 64⟩], anchors := true, said := 66 }

/-- The delegator has approved inception and both rotations; inception and first rotation are accepted. -/
def n3 : Node := Demo.node.run Demo.env [Demo.recv Demo.icp 101, Demo.recv anc 101, Demo.recv anc3 101, Demo.recv anc4 101,
  .event dip [Demo.sig dip 201 0] [] (some (1, 61)) false false, .event drt [Demo.sig drt 202 0] [] (some (2, 65)) false false]

theorem result3 : (n3.processEvent Demo.env drt' [Demo.sig drt' 202 0] [] (some (3, 66)) false false).1.db.fels 2 = [60, 63, 64] ∧
    n3.db.fels 2 = [60, 63] ∧ (n3.kevers 2).map (fun k => (k.sn, k.delpre, k.ilk)) = some (1, some 1, .drt) := by
  decide +kernel

/-- The hypotheses of `c29_superseding` are met. -/
example : ∃ n' k, Enters Demo.env n3 drt' [Demo.sig drt' 202 0] [] (some (3, 66)) false false n' ∧ Foreign n3 n' drt'.pre ∧
    n3.kevers 2 = some k ∧ k.delpre = some 1 ∧ drt'.sn ≤ k.sn ∧ k.ilk ≠ .ixn := by
  obtain ⟨r1, r2, r3⟩ := result3
  obtain ⟨k, hk, r3⟩ := Option.map_eq_some_iff.1 r3
  simp only [Prod.mk.injEq] at r3
  have hp : n3.prefixes = [] ∧ n3.groups = [] := by decide +kernel
  refine ⟨_, k, ⟨rfl, ?_⟩, ⟨?_, ?_, ?_⟩, hk, r3.2.1, by rw [r3.1]; decide, by rw [r3.2.2]; simp⟩
  · rw [show drt'.pre = 2 from rfl, r1, r2]; simp
  · rw [hp.1]; simp
  · rw [hp.2]; simp
  · rw [hp.1]; simp

end Demo7

/-- **C29, the delegator's own approval.** A delegation request kept for approval (in the escrow of delegable events) enters the
log only after an approval was recorded for it, and only if the delegator's event at the recorded number seals it. -/
theorem c29_delegable {env : Env} {U : Event → Prop} (hnc : NoColl U) {n n' : Node} (h : Reached env U n) (p : Id) (sn : Nat)
    (d : Dig) (stale : Dig → Bool) (hn' : n' = n.escStep env .delegable stale (p, sn, d)) (hen : n'.db.fels p ≠ n.db.fels p)
    (hf : Foreign n n' p) :
    ∃ e c, n.db.evts p d = some e ∧ n.db.aess p d = some c ∧ ∀ dp, DelegatedBy n e dp →
      ∃ de, Accepted n.db dp de ∧ de.sn = c.1 ∧ (⟨e.pre, e.sn, e.said⟩ : Seal) ∈ de.seals := by
  subst hn'
  unfold Node.escStep at hen hf
  simp only at hen hf
  split at hen
  · exact absurd rfl hen
  · rename_i isLocal hloc
    split at hen
    · exact absurd rfl hen
    · rename_i hst
      split at hen
      · exact absurd rfl hen
      · rename_i e he
        split at hen
        · exact absurd rfl hen
        · rename_i hsg
          split at hen
          · exact absurd rfl hen
          · rename_i hae
            simp only [hloc, hst, he, hsg, hae] at hf
            match hc : n.db.aess p d with
            | none => exact absurd ⟨trivial, hc⟩ hae
            | some c =>
              have hpre := (h.evtU.ok _ _ _ he).1
              refine ⟨e, c, he, rfl, ?_⟩
              intro dp hd
              have hcp : Esc.couple n.db p d .delegable = (some c, false) := by simp [Esc.couple, hc]
              rw [hcp] at hen hf
              have hE : ∀ m, (n.processEvent env e (n.db.sigs p d) (n.db.wigs p d) (some c) false isLocal) = m →
                  m.1.db.fels p ≠ n.db.fels p → Foreign n m.1 p →
                  ∃ de, Accepted n.db dp de ∧ de.sn = c.1 ∧ (⟨e.pre, e.sn, e.said⟩ : Seal) ∈ de.seals := by
                intro m hm hne hfo
                subst hpre
                obtain ⟨dk, de, _, _, h3, _, h5, h6, _⟩ := c29_anchor hnc h (n' := m.1) ⟨by rw [hm], hne⟩ hfo dp hd
                exact ⟨de, h3, (h6 c.1 c.2 rfl).1, h5⟩
              match hm : n.processEvent env e (n.db.sigs p d) (n.db.wigs p d) (some c) false isLocal with
              | (m, .ok ()) =>
                rw [hm] at hen hf
                exact hE _ hm hen hf
              | (m, .error x) =>
                rw [hm] at hen hf
                simp only at hen hf
                split at hen
                · rename_i hx
                  rw [if_pos hx] at hf
                  exact hE _ hm hen hf
                · rename_i hx
                  rw [if_neg hx] at hf
                  exact hE _ hm hen hf

namespace Demo7

/-- The host owns identifier 1 and has a request for approval from identifier 2; the approval is recorded and the seal is in its
log at number 1. -/
def n4 : Node := (Node.start [1] [] (fun _ => none)).run Demo.env
  [.event Demo.icp [Demo.sig Demo.icp 101 0] [] none false true, .event dip [Demo.sig dip 201 0] [] none false true,
   .event anc [Demo.sig anc 101 0] [] none false true, .approve 2 60 (1, 61)]

/-- The hypotheses of `c29_delegable` are met. -/
example : (n4.escStep Demo.env .delegable (fun _ => false) (2, 0, 60)).db.fels 2 = [60] ∧ n4.db.fels 2 = [] ∧
    n4.db.delegables = [(2, 0, 60)] ∧ n4.prefixes = [1] ∧ n4.groups = [] ∧ n4.kevers 2 = none ∧
    ((n4.escStep Demo.env .delegable (fun _ => false) (2, 0, 60)).kevers 2).map Kever.wits = some [] := by decide +kernel

end Demo7

/-- **C29, limit**: the sealing event need not be in the delegator's current log. After a recovery of the delegator, a seal in a
superseded interaction beyond its current sequence number still counts: a delegated inception is accepted although no event of
the delegator's log from 0 to its current number carries a seal. -/
theorem c29_superseded_anchor : ∃ (env : Env) (U : Event → Prop) (n n' : Node) (e : Event) (ss : List Sig) (c : Couple)
    (dk : Kever), NoColl U ∧ Reached env U n ∧ U e ∧ Enters env n e ss [] (some c) false false n' ∧ Foreign n n' e.pre ∧
    DelegatedBy n e 1 ∧ n.kevers 1 = some dk ∧
    ∀ i x, i ≤ dk.sn → (n.db.kels 1 i).getLast? = some x.said → n.db.evts 1 x.said = some x → x.seals = [] := by
  obtain ⟨r1, r2, r3, r4, r5, r6, r7, r8, r9⟩ := Demo7.result2
  match hk : Demo7.n2.kevers 1 with
  | none => rw [hk] at r5; simp at r5
  | some dk =>
    rw [hk] at r5; simp at r5
    refine ⟨Demo.env, _, Demo7.n2, _, Demo7.dip, [Demo.sig Demo7.dip 201 0], (2, 62), dk, Demo7.noColl2, Demo7.reached2, by simp, ⟨rfl, ?_⟩, ⟨?_, ?_, ?_⟩,
      .inl ⟨rfl, rfl⟩, hk, ?_⟩
    · rw [show Demo7.dip.pre = 2 from rfl, r1, r2]; simp
    · rw [r3]; simp
    · rw [r4]; simp
    · rw [r3]; simp
    · intro i x hi hl hx
      rw [r5] at hi
      match i, hi with
      | 0, _ =>
        rw [r6] at hl; simp at hl; rw [← hl, r8] at hx; injection hx with hx; rw [← hx]; rfl
      | 1, _ =>
        rw [r7] at hl; simp at hl; rw [← hl, r9] at hx; injection hx with hx; rw [← hx]; rfl

/-! ## C30 -/

/-- **C30, single messages.** A message from a remote source puts an event in the log only if the identifier is not an own single
identifier, no own identifier is among its witnesses, and the delegator is not an own identifier; for a group identifier of
which the host has a member, the member's own key position is not counted. Missing: messages taken back from escrow are treated
as local when they once were marked so (`c30_laundered`). -/
theorem c30_remote_partial {env : Env} {U : Event → Prop} {n n' : Node} (h : Reached env U n) {e : Event}
    {ss ws : List Sig} {couple : Option Couple} {eager : Bool} (hen : Enters env n e ss ws couple eager false n') :
    ∃ k, n'.kevers e.pre = some k ∧ (e.pre ∈ n.prefixes → e.pre ∈ n.groups) ∧ (∀ w, w ∈ k.wits → w ∉ n.prefixes) ∧
      (∀ dp, DelegatedBy n e dp → dp ∉ n.prefixes) ∧
      (e.pre ∈ n.groups → ∃ (m : Id) (mk : Kever) (key : Id) (rest : List Id) (vs : List Sig), n.mid e.pre = some m ∧ n.kevers m = some mk ∧ mk.keys = key :: rest ∧
        Thold.satisfy k.kt (vs.map Sig.index) = true ∧ ∀ s, s ∈ vs → s ∈ ss ∧ SignedBy env k.keys e s ∧
          s.index ≠ k.keys.idxOf key) := by
  obtain ⟨k1, v, w, hk1, g, ha⟩ := enters_acc h.evtU.ok hen
  obtain ⟨k, c, hkp, hk, hc, hv⟩ := accepts_valid ha
  obtain ⟨h1, h2, h3⟩ := hv.remote rfl
  refine ⟨k1, by rw [g.kevers]; simp [upd], ?_, ?_, ?_, ?_⟩
  · intro hp
    simp only [Node.owned, hkp, Bool.and_eq_false_iff, decide_eq_false_iff_not, Bool.not_eq_false', decide_eq_true_eq] at h1
    rcases h1 with h1 | h1
    · exact absurd hp h1
    · exact h1
  · intro x hx
    unfold Node.witnessed at h2
    have hne : k1.wits ≠ [] := by rintro hn; rw [hn] at hx; exact absurd hx (by simp)
    rw [if_neg hne, List.any_eq_false] at h2
    simpa using h2 x hx
  · intro dp hd
    have := h3 (some dp) (by
      rcases hd with ⟨hi, hp⟩ | ⟨hi, k', hk', hp⟩
      · simp [delegator, hi, hp]
      · rcases hk with hk | ⟨hk, _⟩
        · rw [hk'] at hk; injection hk with hk; subst hk; simp [delegator, hi, hp]
        · rw [hk'] at hk; exact absurd hk (by simp))
    simpa [Node.delegated] using this
  · intro hg
    obtain ⟨idx, hidx, hno⟩ := hv.contrib rfl (by simp [Node.membered, hkp, hg])
    unfold Node.contributed at hidx
    rw [hkp] at hidx
    split at hidx
    · exact absurd hidx (by simp)
    · rename_i m hm
      split at hidx
      · exact absurd hidx (by simp)
      · rename_i mk hmk
        split at hidx
        · exact absurd hidx (by simp)
        · rename_i key rest hkeys
          split at hidx
          · injection hidx with hidx; subst hidx
            refine ⟨m, mk, key, rest, v.sigs, hm, hmk, hkeys, hv.thold, ?_⟩
            intro s hs
            exact ⟨(hv.sigs s hs).1, (hv.sigs s hs).2, by simpa using hno s hs⟩
          · exact absurd hidx (by simp)

/-- A remote message for an identifier in which the host has no part is accepted. -/
example : ∃ n', Enters Demo.env Demo.node Demo.icp [Demo.sig Demo.icp 101 0] [] none false false n' := ⟨_, rfl, by decide +kernel⟩

namespace Demo8

/-- Delivery from a local source. -/
def mine (e : Event) (k : Nat) : Inp := .event e [Demo.sig e k 0] [] none false true

/-- Third interaction of the first branch, and a third interaction on top of `ixn2b`. -/
def ixn3 : Event := { Demo.icp with ilk := .ixn, sn := 3, said := 13, prior := 12, keys := [], ndigs := [] }
def ixn3b : Event := { Demo.icp with ilk := .ixn, sn := 3, said := 23, prior := 22, keys := [], ndigs := [] }

/-- The host owns identifier 1. `ixn3b` arrives only from remote sources, twice. -/
def hist : List Inp :=
  [mine Demo.icp 101, mine Demo.ixn1 101, mine Demo.ixn2 101, mine ixn3 101, Demo.recv ixn3b 102, mine Demo.rot1 102,
   Demo.recv ixn3b 102, mine Demo.ixn2b 102, .pass .outOfOrder (fun _ => false)]

/-- The same node, owning identifier 1. -/
def node : Node := Node.start [1] [] (fun _ => none)

theorem result : (node.run Demo.env hist).db.fels 1 = [10, 11, 12, 13, 21, 22, 23] ∧
    (node.run Demo.env hist).db.evts 1 23 = some ixn3b ∧ (node.run Demo.env hist).prefixes = [1] ∧
    (node.run Demo.env hist).groups = [] := by decide +kernel

end Demo8

/-- **C30 fails for histories**: the host owns the identifier throughout, every delivery of the event comes from a remote source,
and still the event ends up in the log. -/
theorem c30_laundered : ∃ (env : Env) (p : Id) (h : List Inp) (e : Event),
    Accepted ((Node.start [p] [] (fun _ => none)).run env h).db p e ∧
    (∀ i, i ∈ h → ∀ ps gs m, i ≠ .config ps gs m) ∧
    (∀ i, i ∈ h → ∀ x ss ws c eager isLocal, i = .event x ss ws c eager isLocal → x.said = e.said → isLocal = false) := by
  obtain ⟨r1, r2, _, _⟩ := Demo8.result
  refine ⟨Demo.env, 1, Demo8.hist, Demo8.ixn3b, ⟨?_, r2⟩, ?_, ?_⟩
  · show 23 ∈ (Demo8.node.run Demo.env Demo8.hist).db.fels 1; rw [r1]; simp
  · intro i hi ps gs m hc
    subst hc
    simp [Demo8.hist, Demo8.mine, Demo.recv] at hi
  · intro i hi x ss ws c eager isLocal hx hs
    subst hx
    simp [Demo8.hist, Demo8.mine, Demo.recv] at hi
    rcases hi with h | h | h | h | h | h | h | h
    all_goals first
      | exact h.2.2.2.2.2
      | (obtain ⟨rfl, _⟩ := h; exact absurd hs (by decide))

/-! ## C35 -/

/-- Positions of a log are contiguous, and position 0 holds inceptions. -/
structure Contig (n : Node) (p : Id) : Prop where
  down : ∀ s, n.db.kels p (s + 1) ≠ [] → n.db.kels p s ≠ []
  zero : ∀ d x, d ∈ n.db.kels p 0 → n.db.evts p d = some x → x.ilk.est = true

theorem Contig.le {n : Node} {p : Id} (h : Contig n p) (s : Nat) (hs : n.db.kels p s ≠ []) : ∀ j, j ≤ s → n.db.kels p j ≠ [] := by
  intro j hj
  induction s with
  | zero => have : j = 0 := by omega
            subst this; exact hs
  | succ s ih =>
    by_cases hjs : j = s + 1
    · subst hjs; exact hs
    · exact ih (h.down s hs) (by omega)

theorem rotatePrior_pos {db : Db} {k : Kever} {e : Event} (h : rotatePrior db k e = .ok ()) : e.sn ≠ 0 := by
  unfold rotatePrior at h
  split at h
  · exact absurd h (by simp)
  · split at h
    · split at h
      · exact absurd h (by simp)
      · split at h
        · exact absurd h (by simp)
        · split at h
          · exact absurd h (by simp)
          · assumption
    · omega

theorem Contig.micro {env : Env} {U : Event → Prop} (hnc : NoColl U) {a b : Node} (h : ∀ p, Contig a p) (hi : Inv U a)
    (hK : KeyInv a) (g : Micro env U a b) : ∀ p, Contig b p := by
  cases g with
  | core g => intro p; exact ⟨by rw [g.kels]; exact (h p).down, by rw [g.kels, g.evts]; exact (h p).zero⟩
  | event e ss ws c eager isLocal he =>
    have old : ∀ (p : Id) (d : Dig) (x : Event), d ∈ a.db.kels p 0 →
        (a.processEvent env e ss ws c eager isLocal).1.db.evts p d = some x →
        (∀ p d x, a.db.evts p d = some x → (a.processEvent env e ss ws c eager isLocal).1.db.evts p d = some x) →
        x.ilk.est = true := by
      intro p d x hd hx hm
      obtain ⟨_, y, hy, _⟩ := (hi.mem _ _ _).1 hd
      have := hm _ _ _ hy
      rw [hx] at this; injection this with this; subst this
      exact (h p).zero d _ hd hy
    rcases processEvent_cases env a e ss ws c eager isLocal hi.evt.ok with g | ⟨_, k1, v, w, hk1, g, ha⟩
    · intro p
      exact ⟨by rw [g.db.kels]; exact (h p).down, fun d x hd hx => old p d x (by rw [← g.db.kels]; exact hd) hx g.db.mono⟩
    · have hev := acc_evt hnc hi.evt he g
      -- what is known about the number of the event
      have hpos : (e.sn = 0 ∧ e.ilk.est = true) ∨ (e.sn ≠ 0 ∧ a.db.kels e.pre (e.sn - 1) ≠ []) := by
        have tip : ∀ k, a.kevers e.pre = some k → e.sn ≤ k.sn + 1 → a.db.kels e.pre (e.sn - 1) ≠ [] := by
          intro k hk hs
          have hKk := hK _ k hk
          have := (hi.mem e.pre k.serder.said k.sn).2 ⟨hKk.acc.1, k.serder, hKk.acc.2, hKk.sn⟩
          exact (h e.pre).le k.sn (by intro hc; rw [hc] at this; exact absurd this (by simp)) _ (by omega)
        rcases ha with ⟨ha, _⟩ | ⟨k, ha⟩ | ⟨k, ha, _⟩
        · obtain ⟨k, hk, _⟩ := ha.inc
          refine .inl ⟨(incept_eq env e k hk).1, ?_⟩
          rcases ha.ilk with h | h <;> rw [h] <;> rfl
        · obtain ⟨cuts, adds, hr, _⟩ := ha.rot
          have hp : rotatePrior a.db k e = .ok () := by
            unfold rotate at hr
            split at hr
            · exact absurd hr (by simp)
            · assumption
          refine .inr ⟨rotatePrior_pos hp, tip k ha.known ?_⟩
          rcases ha.seq with h | h | h <;> omega
        · exact .inr ⟨by have := ha.seq; omega, tip k ha.known (by have := ha.seq; omega)⟩
      intro p
      by_cases hp : p = e.pre
      · subst hp
        constructor
        · intro s hs
          rw [g.db.kels] at hs ⊢
          unfold upd2 at hs ⊢
          have hne : ∀ s, a.db.kels e.pre s ≠ [] → (if e.pre = e.pre ∧ s = e.sn then ioAdd (a.db.kels e.pre e.sn) e.said else
              a.db.kels e.pre s) ≠ [] := by
            intro s hs
            split
            · intro hc
              have := (mem_ioAdd (a.db.kels e.pre e.sn) e.said e.said).2 (.inr rfl)
              rw [hc] at this; exact absurd this (by simp)
            · exact hs
          split at hs
          · rename_i heq
            rcases hpos with hpos | hpos
            · omega
            · exact hne s (by have : s = e.sn - 1 := by omega
                              rw [this]; exact hpos.2)
          · exact hne s ((h e.pre).down s hs)
        · intro d x hd hx
          rw [g.db.kels] at hd
          unfold upd2 at hd
          split at hd
          · rename_i heq
            rcases (mem_ioAdd _ _ _).1 hd with hd | rfl
            · rw [← heq.2] at hd; exact old e.pre d x hd hx g.db.mono
            · rw [hev] at hx; injection hx with hx; subst hx
              rcases hpos with hpos | hpos
              · exact hpos.2
              · exact absurd heq.2.symm hpos.1
          · exact old e.pre d x hd hx g.db.mono
      · have hk : (a.processEvent env e ss ws c eager isLocal).1.db.kels p = a.db.kels p := by
          rw [g.db.kels]; funext s; simp [upd2, hp]
        exact ⟨by rw [hk]; exact (h p).down, fun d x hd hx => old p d x (by rw [← hk]; exact hd) hx g.db.mono⟩

theorem Reached.contig {env : Env} {U : Event → Prop} (hnc : NoColl U) {n : Node} (h : Reached env U n) (p : Id) :
    Contig n p := by
  obtain ⟨pp, g, m, hs⟩ := h.steps
  clear h
  revert p
  induction hs with
  | refl => intro p; exact ⟨by simp [Node.start, Db.empty], by simp [Node.start, Db.empty]⟩
  | tail hs g' ih =>
    exact Contig.micro hnc ih ((inv_start U pp g m).steps hnc hs)
      ((keyInv_start pp g m).steps hnc (inv_start U pp g m) hs) g'

theorem fetchEst_spec {U : Event → Prop} {n : Node} (hi : Inv U n) {p : Id} (hc : Contig n p) : ∀ s, n.db.kels p s ≠ [] →
    ∃ a i, fetchEst n.db p (s + 1) s = some a ∧ i ≤ s ∧ (n.db.kels p i).getLast? = some a.said ∧
      n.db.evts p a.said = some a ∧ a.sn = i ∧ a.ilk.est = true ∧
      ∀ j x, i < j → j ≤ s → (n.db.kels p j).getLast? = some x.said → n.db.evts p x.said = some x → x.ilk.est = false := by
  intro s
  induction s with
  | zero =>
    intro hs
    obtain ⟨d, hd⟩ : ∃ d, (n.db.kels p 0).getLast? = some d := by
      match h : (n.db.kels p 0).getLast? with
      | none => exact absurd (List.getLast?_eq_none_iff.1 h) hs
      | some d => exact ⟨d, rfl⟩
    have hm := List.mem_of_getLast? hd
    obtain ⟨_, x, hx, hxs⟩ := (hi.mem _ _ _).1 hm
    have hsd := (hi.evt _ _ _ hx).2.1
    have hest := hc.zero d x hm hx
    refine ⟨x, 0, ?_, by omega, by rw [hd, hsd], by rw [hsd]; exact hx, hxs, hest, fun j _ h1 h2 => by omega⟩
    simp [fetchEst, hd, hx, hest]
  | succ s ih =>
    intro hs
    obtain ⟨d, hd⟩ : ∃ d, (n.db.kels p (s + 1)).getLast? = some d := by
      match h : (n.db.kels p (s + 1)).getLast? with
      | none => exact absurd (List.getLast?_eq_none_iff.1 h) hs
      | some d => exact ⟨d, rfl⟩
    have hm := List.mem_of_getLast? hd
    obtain ⟨_, x, hx, hxs⟩ := (hi.mem _ _ _).1 hm
    have hsd := (hi.evt _ _ _ hx).2.1
    by_cases hest : x.ilk.est = true
    · refine ⟨x, s + 1, ?_, by omega, by rw [hd, hsd], by rw [hsd]; exact hx, hxs, hest, fun j _ h1 h2 => by omega⟩
      rw [fetchEst]; simp [hd, hx, hest]
    · obtain ⟨a, i, h1, h2, h3, h4, h5, h6, h7⟩ := ih (hc.down s hs)
      refine ⟨a, i, ?_, by omega, h3, h4, h5, h6, ?_⟩
      · rw [fetchEst]; simp only [hd, hx]
        rw [if_neg hest, if_neg (by omega), hxs]
        exact h1
      · intro j y hj1 hj2 hy1 hy2
        by_cases hjs : j = s + 1
        · subst hjs
          rw [hd] at hy1; injection hy1 with hy1
          rw [hy1, hy2] at hx; injection hx with hx; subst hx
          simpa using hest
        · exact h7 j y hj1 (by omega) hy1 hy2

/-- **C35.** For every number occupied in the log, `fetchEstEvent` returns the latest establishment event at or before it,
looking at the last entry of each number. -/
theorem c35_lookup {env : Env} {U : Event → Prop} (hnc : NoColl U) {n : Node} (h : Reached env U n) (p : Id) (s : Nat)
    (hs : n.db.kels p s ≠ []) :
    ∃ a i, fetchEst n.db p (s + 1) s = some a ∧ i ≤ s ∧ (n.db.kels p i).getLast? = some a.said ∧
      n.db.evts p a.said = some a ∧ a.sn = i ∧ a.ilk.est = true ∧
      ∀ j x, i < j → j ≤ s → (n.db.kels p j).getLast? = some x.said → n.db.evts p x.said = some x → x.ilk.est = false :=
  fetchEst_spec (h.inv hnc) (h.contig hnc p) s hs

theorem chain_fetchEst {U : Event → Prop} {n : Node} {p : Id} {k : Kever} (hi : Inv U n) (hc : Chain n.db p k) : ∀ s x,
    s ≤ k.sn → LinkAt n.db p k s x → ∃ a, fetchEst n.db p (s + 1) s = some a ∧ Authority n.db p x a := by
  intro s
  induction s with
  | zero =>
    intro x _ g
    have : x.ilk.est = true := by rcases g.zero rfl with h | h <;> rw [h] <;> rfl
    exact ⟨x, by rw [fetchEst]; simp [g.last, g.evt, this], .est this⟩
  | succ s ih =>
    intro x hs g
    by_cases hest : x.ilk.est = true
    · exact ⟨x, by rw [fetchEst]; simp [g.last, g.evt, hest], .est hest⟩
    · obtain ⟨hilk, hl⟩ := g.link s rfl
      obtain ⟨y, gy⟩ := hc.all s (by omega)
      obtain ⟨a, h1, h2⟩ := ih y (by omega) gy
      have hi' : x.ilk = .ixn := by
        rcases hilk with h | h | h
        · rw [h] at hest; exact absurd rfl hest
        · rw [h] at hest; exact absurd rfl hest
        · exact h
      refine ⟨a, ?_, .ixn hi' ?_ (by have := g.sn; have := gy.sn; omega) ⟨?_, gy.evt⟩ h2⟩
      · rw [fetchEst]; simp only [g.last, g.evt]
        rw [if_neg hest, if_neg (by have := g.sn; omega), g.sn]
        exact h1
      · have := gy.last
        rw [hl] at this; injection this with this; exact this.symm
      · exact ((hi.mem _ _ _).1 (List.mem_of_getLast? gy.last)).1

/-- **C35, authority.** While no event of the identifier was first seen twice, the event returned for the number of an event of
the current log is the one whose keys are authoritative for it. -/
theorem c35_authority {env : Env} {U : Event → Prop} (hnc : NoColl U) {n : Node} (h : Reached env U n) (p : Id) (k : Kever)
    (hk : n.kevers p = some k) (hn : (n.db.fels p).Nodup) (x : Event) (hs : x.sn ≤ k.sn)
    (hl : (n.db.kels p x.sn).getLast? = some x.said) (hx : n.db.evts p x.said = some x) :
    ∃ a, fetchEst n.db p (x.sn + 1) x.sn = some a ∧ Authority n.db p x a := by
  have hc := h.chain hnc p k hk hn
  obtain ⟨y, g⟩ := hc.all x.sn hs
  have : y = x := by
    have h1 := g.last
    rw [hl] at h1; injection h1 with h1
    have h2 := g.evt
    rw [← h1, hx] at h2; injection h2 with h2; exact h2.symm
  subst this
  exact chain_fetchEst (h.inv hnc) hc _ _ hs g

example : (fetchEst (Demo.node.run Demo.env Demo.hist).db 1 3 2) = some Demo.rot1 ∧
    (Demo.node.run Demo.env Demo.hist).db.kels 1 2 ≠ [] ∧ ((Demo.node.run Demo.env Demo.hist).db.fels 1).Nodup := by
  decide +kernel

end Verif.Kel
