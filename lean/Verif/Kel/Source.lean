import Verif.Kel.PropsAuth
import Verif.Kel.Frame

/-! # Where events of own identifiers come from -/

namespace Verif.Kel

open Verif.Thold (Thold)

/-- The event is marked local afterwards only if it was before. -/
structure Src (e : Event) (a b : Db) : Prop where
  loc : b.esrs e.pre e.said = some true → a.esrs e.pre e.said = some true

theorem Src.of_eq {e : Event} {a b : Db} (h : b.esrs = a.esrs) : Src e a b := ⟨by intro g; rw [h] at g; exact g⟩
theorem Src.rfl' {e : Event} {a : Db} : Src e a a := ⟨id⟩
theorem Src.trans {e : Event} {a b c : Db} (h : Src e a b) (g : Src e b c) : Src e a c := ⟨fun x => h.loc (g.loc x)⟩

theorem src_esr (e : Event) (db : Db) : Src e db (db.esr e false) := by
  unfold Db.esr
  split
  · exact ⟨by intro g; simp [upd2] at g⟩
  · simp; exact .rfl'

theorem src_putEvt (e : Event) (db : Db) : Src e db (db.putEvt e) := by
  unfold Db.putEvt
  split
  · exact .of_eq rfl
  · exact .rfl'

theorem src_putUde (e : Event) (db : Db) (c : Option Couple) : Src e db (db.putUde e c) := by
  unfold Db.putUde
  split
  · exact .of_eq rfl
  · exact .rfl'

theorem src_escBase (e : Event) (db : Db) (ss ws : List Sig) : Src e db (db.escBase e ss ws false) :=
  ((src_esr e db).trans (b := db.esr e false) (c := ((db.esr e false).putSigs e ss).putWigs e ws) (.of_eq rfl)).trans (src_putEvt e _)

theorem src_escrowOO (e : Event) (db : Db) (ss ws : List Sig) (c : Option Couple) : Src e db (db.escrowOO e ss ws c false) :=
  ((src_escBase e db ss ws).trans (src_putUde e _ c)).trans (.of_eq rfl)
theorem src_escrowMF (e : Event) (db : Db) (ss ws : List Sig) (c : Option Couple) : Src e db (db.escrowMF e ss ws c false) :=
  ((src_escBase e db ss ws).trans (src_putUde e _ c)).trans (.of_eq rfl)
theorem src_escrowPS (e : Event) (db : Db) (ss ws : List Sig) (c : Option Couple) : Src e db (db.escrowPS e ss ws c false) :=
  ((src_escBase e db ss ws).trans (src_putUde e _ c)).trans (.of_eq rfl)
theorem src_escrowPW (e : Event) (db : Db) (ss ws : List Sig) (c : Option Couple) : Src e db (db.escrowPW e ss ws c false) :=
  ((src_escBase e db ss ws).trans (src_putUde e _ c)).trans (.of_eq rfl)
theorem src_escrowPD (e : Event) (db : Db) (ss ws : List Sig) (c : Option Couple) : Src e db (db.escrowPD e ss ws c false) :=
  (src_escBase e db ss ws).trans (.of_eq rfl)
theorem src_escrowDelegable (e : Event) (db : Db) (ss ws : List Sig) : Src e db (db.escrowDelegable e ss ws false) :=
  (src_escBase e db ss ws).trans (.of_eq rfl)

theorem src_fetchDelegating (n : Node) (dp : Id) (x e : Event) (eager : Bool) : Src e n.db (n.fetchDelegating dp x eager).1 := by
  unfold Node.fetchDelegating
  split
  · split
    · exact .of_eq rfl
    · split <;> exact .rfl'
  · split
    · split
      · exact .rfl'
      · split
        · exact .rfl'
        · exact .of_eq rfl
    · exact .rfl'

theorem src_locateSeal (n : Node) (c : Ctx) (dp : Id) (hl : c.isLocal = false) : Src c.e n.db (n.locateSeal c dp).1 := by
  unfold Node.locateSeal
  rw [hl]
  split
  · split
    · exact .rfl'
    · exact src_escrowPD ..
  · split
    · exact .rfl'
    · split
      · split
        · exact .rfl'
        · exact src_escrowPD ..
      · split
        · exact .rfl'
        · split
          · exact .rfl'
          · exact src_escrowPD ..

theorem src_validateDelegation (n : Node) (c : Ctx) (dp : Option Id) (hl : c.isLocal = false) :
    Src c.e n.db (n.validateDelegation c dp).1 := by
  unfold Node.validateDelegation
  rw [hl]
  split
  · exact .rfl'
  · split
    · exact .rfl'
    · split
      · exact src_escrowPD ..
      · split
        · exact .rfl'
        · split
          · rename_i db x h
            have := src_locateSeal n c ‹Id› hl
            rw [h] at this; exact this
          · split
            · exact .rfl'
            · have hf := src_fetchDelegating n ‹Id› c.k.serder c.e c.eager
              split
              · rename_i h; rw [h] at hf; exact hf
              · rename_i h; rw [h] at hf; exact hf.trans (src_escrowPD ..)
              · rename_i h; rw [h] at hf
                split <;> exact hf

theorem src_checkWitDel (n : Node) (c : Ctx) (toad : Nat) (dp : Option Id) (hl : c.isLocal = false) :
    Src c.e n.db (n.checkWitDel c toad dp).1 := by
  unfold Node.checkWitDel
  rw [hl]
  split
  · exact .rfl'
  · split
    · exact .rfl'
    · split
      · exact src_escrowPW ..
      · split
        · exact src_escrowDelegable ..
        · have := src_validateDelegation n c dp hl
          split <;> (rename_i h; rw [h] at this; exact this)

theorem src_val (env : Env) (n : Node) (k : Kever) (e : Event) (ss ws : List Sig) (keys : List Id) (kt : Thold)
    (toad : Nat) (wits : List Id) (couple : Option Couple) (eager : Bool) :
    Src e n.db (n.valSigsWigsDel env k e ss ws keys kt toad wits couple eager false).1 := by
  unfold Node.valSigsWigsDel
  split
  · exact .rfl'
  · split
    · exact .rfl'
    · split
      · exact src_escrowMF ..
      · split
        · exact .rfl'
        · simp only
          split
          · exact src_escrowPS ..
          · split
            · exact src_escrowPS ..
            · exact src_checkWitDel n ⟨k, e, _, _, wits, couple, eager, false⟩ toad _ rfl

/-- A remote message for an own identifier, at a number at which nothing is accepted: not accepted, not marked local. -/
theorem src_process {env : Env} {U : Event → Prop} (hnc : NoColl U) {n : Node} (hr : Reached env U n) (e : Event) (ss ws : List Sig)
    (couple : Option Couple) (eager : Bool) (hown : n.owned e.pre = true) (hk : n.db.kels e.pre e.sn = []) :
    Src e n.db (n.processEvent env e ss ws couple eager false).1.db ∧
    (n.processEvent env e ss ws couple eager false).1.db.fels = n.db.fels := by
  have hsrc : (n.processEvent env e ss ws couple eager false).1.db.fels = n.db.fels := by
    rcases processEvent_cases env n e ss ws couple eager false hr.evtU.ok with g | ⟨_, k1, v, w, hk1, g, ha⟩
    · exact g.db.fels
    · obtain ⟨k, c, hkp, _, _, hv⟩ := accepts_valid ha
      have := (hv.remote rfl).1
      rw [hkp, hown] at this; exact absurd this (by simp)
  refine ⟨?_, hsrc⟩
  have hpos : ∀ k, n.kevers e.pre = some k → k.sn < e.sn := by
    intro k hkk
    have hK := hr.keys hnc _ _ hkk
    have : n.db.kels e.pre k.sn ≠ [] := by
      have := ((hr.inv hnc).mem e.pre k.serder.said k.sn).2 ⟨hK.acc.1, _, hK.acc.2, hK.sn⟩
      intro hc; rw [hc] at this; exact absurd this (by simp)
    by_cases hlt : k.sn < e.sn
    · exact hlt
    · exact absurd hk ((hr.contig hnc e.pre).le _ this _ (by omega))
  have hno : ∀ {k : Kever} {keys : List Id} {kt : Thold} {toad : Nat} {wits : List Id} {c : Option Couple} {db : Db} {v : Verified},
      k.pre = e.pre → n.valSigsWigsDel env k e ss ws keys kt toad wits c eager false = (db, .ok v) → False := by
    intro k keys kt toad wits c db v hkp h
    have := ((val_ok h).remote rfl).1
    rw [hkp, hown] at this; exact absurd this (by simp)
  unfold Node.processEvent
  split
  · exact .rfl'
  · split
    · split
      · unfold Node.inception
        split
        · exact .rfl'
        · split
          · exact .rfl'
          · rename_i k hinc
            have hv := src_val env n k e ss ws e.keys e.kt e.toad e.wits couple eager
            split
            · rename_i h; rw [h] at hv; exact hv
            · rename_i db v h
              obtain ⟨_, _, _, _, _, hkeq⟩ := incept_eq env e k hinc
              exact (hno (by rw [hkeq]) h).elim
      · exact src_escrowOO ..
    · rename_i k hkk
      have hlt := hpos k hkk
      have hkp := (hr.inv hnc).kev _ _ hkk
      split
      · unfold Node.reIncept
        rw [if_pos (by omega)]
        exact .rfl'
      · split
        · exact src_escrowOO ..
        · split
          · have hrot : Src e n.db (n.updateRot env k e ss ws couple eager false).1.db := by
              unfold Node.updateRot
              split
              · exact .rfl'
              · split
                · exact .rfl'
                · rename_i wits cuts adds _
                  have hv := src_val env n k e ss ws e.keys e.kt e.toad wits couple eager
                  split
                  · rename_i h; rw [h] at hv; exact hv
                  · rename_i db v h; exact (hno hkp h).elim
            unfold Node.update
            split
            · exact .rfl'
            · split
              · exact .rfl'
              · split
                · exact hrot
                · exact hrot
                · unfold Node.updateIxn
                  split
                  · exact .rfl'
                  · split
                    · exact .rfl'
                    · split
                      · exact .rfl'
                      · have hv := src_val env n k e ss ws k.keys k.kt k.toad k.wits none eager
                        split
                        · rename_i h; rw [h] at hv; exact hv
                        · rename_i db v h; exact (hno hkp h).elim
                · exact .rfl'
          · omega

/-- State of a history in which `e` never came from a local source. -/
structure OnlyRemote (n : Node) (e : Event) : Prop where
  own : n.owned e.pre = true
  src : n.db.esrs e.pre e.said ≠ some true
  out : e.said ∉ n.db.fels e.pre

theorem OnlyRemote.event {env : Env} {U : Event → Prop} (hnc : NoColl U) {n : Node} (hr : Reached env U n) {e x : Event}
    (he : U e) (hx : U x) (ss ws : List Sig) (couple : Option Couple) (eager isLocal : Bool)
    (hl : x.pre = e.pre → x.said = e.said → isLocal = false) (h : OnlyRemote n e)
    (hk : ∀ d, d ∈ n.db.kels e.pre e.sn → d = e.said) : OnlyRemote (n.processEvent env x ss ws couple eager isLocal).1 e := by
  have hown : (n.processEvent env x ss ws couple eager isLocal).1.owned e.pre = true := by
    have : (n.processEvent env x ss ws couple eager isLocal).1.prefixes = n.prefixes ∧
        (n.processEvent env x ss ws couple eager isLocal).1.groups = n.groups := by
      rcases processEvent_cases env n x ss ws couple eager isLocal hr.evtU.ok with g | ⟨_, k1, v, w, hk1, g, ha⟩
      · exact ⟨g.prefixes, g.groups⟩
      · exact ⟨g.prefixes, g.groups⟩
    have h0 := h.own
    simp only [Node.owned] at h0 ⊢
    rw [this.1, this.2]; exact h0
  by_cases hsame : x.said = e.said
  · have := hnc x e hx he hsame; subst this
    have := hl rfl rfl; subst this
    have hke : n.db.kels x.pre x.sn = [] := by
      cases hc : n.db.kels x.pre x.sn with
      | nil => rfl
      | cons d l =>
        have hd : d ∈ n.db.kels x.pre x.sn := by rw [hc]; simp
        have := hk d hd; subst this
        exact absurd (((hr.inv hnc).mem _ _ _).1 hd).1 h.out
    obtain ⟨h1, h2⟩ := src_process hnc hr x ss ws couple eager h.own hke
    exact ⟨hown, fun hc => h.src (h1.loc hc), by rw [h2]; exact h.out⟩
  · refine ⟨hown, ?_, ?_⟩
    · rw [(frame_process env n x ss ws couple eager isLocal).esrs e.pre e.said (fun hc => hsame hc.2.symm)]
      exact h.src
    · rcases processEvent_cases env n x ss ws couple eager isLocal hr.evtU.ok with g | ⟨_, k1, v, w, hk1, g, ha⟩
      · rw [g.db.fels]; exact h.out
      · rw [g.db.fels]
        unfold upd
        split
        · rename_i hp
          rw [List.mem_append, List.mem_singleton]
          rintro (hc | hc)
          · rw [← hp] at hc; exact h.out hc
          · exact hsame hc.symm
        · exact h.out

/-- What is asked of each input. -/
structure Apart (e : Event) (i : Inp) : Prop where
  config : ∀ ps gs m, i ≠ .config ps gs m
  event : ∀ x ss ws c eager isLocal, i = .event x ss ws c eager isLocal → x.pre = e.pre → x.said = e.said → isLocal = false

theorem esrs_drop (n : Node) (x : Id × Nat × Dig) (kind : Esc) (pre : Id) (d : Dig) (ok : Bool) :
    (Esc.cleanUde (n.db.remEntry x kind) pre d ok kind).esrs = n.db.esrs := by
  cases kind <;> cases ok <;> rfl

theorem OnlyRemote.small {env : Env} {U : Event → Prop} (hnc : NoColl U) {n : Node} (hr : Reached env U n) {e : Event}
    (he : U e) (i : Inp) (hi : ∀ x, i.delivers = some x → U x) (hnp : ∀ kind stale, i ≠ .pass kind stale) (ha : Apart e i)
    (h : OnlyRemote n e) (hk : ∀ d, d ∈ n.db.kels e.pre e.sn → d = e.said) : OnlyRemote (n.step env i) e := by
  cases i with
  | event x ss ws c eager isLocal =>
    exact h.event hnc hr he (hi x rfl) ss ws c eager isLocal (ha.event _ _ _ _ _ _ rfl) hk
  | pass kind stale => exact absurd rfl (hnp kind stale)
  | config ps gs m => exact absurd rfl (ha.config ps gs m)
  | receipts p d ws => exact ⟨h.own, h.src, h.out⟩
  | approve p d c => exact ⟨h.own, h.src, h.out⟩
  | retry kind stale x =>
    obtain ⟨pre, sn, d⟩ := x
    have hdrop : ∀ (m : Node) (ok : Bool), OnlyRemote m e →
        OnlyRemote { m with db := Esc.cleanUde (m.db.remEntry (pre, sn, d) kind) pre d ok kind } e := by
      intro m ok hm
      refine ⟨hm.own, ?_, ?_⟩
      · show (Esc.cleanUde (m.db.remEntry (pre, sn, d) kind) pre d ok kind).esrs _ _ ≠ _
        rw [esrs_drop]; exact hm.src
      · show _ ∉ (Esc.cleanUde (m.db.remEntry (pre, sn, d) kind) pre d ok kind).fels _
        rw [(coreEq_rem m (pre, sn, d) kind pre d ok).fels]; exact hm.out
    show OnlyRemote (n.escStep env kind stale (pre, sn, d)) e
    unfold Node.escStep
    simp only
    split
    · exact hdrop n false h
    · rename_i isLocal hes
      split
      · exact hdrop n false h
      · split
        · exact hdrop n false h
        · rename_i x hx
          split
          · exact hdrop n false h
          · split
            · exact h
            · obtain ⟨hp, hs, hxu⟩ := hr.evtU _ _ _ hx
              have := h.event hnc hr he hxu (n.db.sigs pre d) (n.db.wigs pre d) (kind.couple n.db pre d).1
                (kind.couple n.db pre d).2 isLocal (by
                  intro h1 h2
                  cases isLocal with
                  | false => rfl
                  | true => exact absurd (by rw [← h1, ← h2, hp, hs]; exact hes) h.src) hk
              split
              · rename_i n' hn'; rw [hn'] at this; exact hdrop n' true this
              · rename_i n' y hn'
                rw [hn'] at this
                split
                · exact this
                · exact hdrop n' false this

theorem kels_grow {env : Env} {U : Event → Prop} {a b : Node} (hu : EvtU U a) (h : Steps env U a b) (p : Id) (s : Nat) (d : Dig)
    (hd : d ∈ a.db.kels p s) : d ∈ b.db.kels p s := by
  induction h with
  | refl => exact hd
  | tail hs g ih =>
    cases g with
    | core g => rw [g.kels]; exact ih
    | event e ss ws c eager isLocal he =>
      rcases processEvent_cases env _ e ss ws c eager isLocal (hu.steps hs).ok with g | ⟨_, k1, v, w, hk1, g, ha⟩
      · rw [g.db.kels]; exact ih
      · rw [g.db.kels]
        unfold upd2
        split
        · rename_i hp
          refine (mem_ioAdd _ _ _).2 (.inl ?_)
          rw [← hp.1, ← hp.2]; exact ih
        · exact ih

theorem OnlyRemote.smalls {env : Env} {U : Event → Prop} (hnc : NoColl U) {e : Event} (he : U e) : ∀ (h : List Inp) (n : Node),
    Reached env U n → Delivers U h → (∀ i ∈ h, ∀ kind stale, i ≠ .pass kind stale) → (∀ i ∈ h, Apart e i) → OnlyRemote n e →
    (∀ d, d ∈ (n.run env h).db.kels e.pre e.sn → d = e.said) → OnlyRemote (n.run env h) e := by
  intro h
  induction h with
  | nil => intro n _ _ _ _ hf _; exact hf
  | cons i h ih =>
    intro n hr hd hnp ha hf hk
    have hi : ∀ x, i.delivers = some x → U x := fun x hx => hd i (by simp) x hx
    have hr1 : Reached env U (n.step env i) := by
      have := hr.run (h' := [i]) (by intro j hj e he; simp at hj; subst hj; exact hi e he)
      simpa [Node.run] using this
    refine ih _ hr1 (fun j hj => hd j (by simp [hj])) (fun j hj => hnp j (by simp [hj])) (fun j hj => ha j (by simp [hj]))
      (hf.small hnc hr he i hi (hnp i (by simp)) (ha i (by simp)) ?_) hk
    intro d hdm
    exact hk d (kels_grow hr.evtU (run_steps env U n (i :: h) hr.evtU hd) _ _ _ hdm)

/-- Passes spelled out. -/
theorem expand (env : Env) (P : Inp → Prop) (hP : ∀ kind stale x, P (.retry kind stale x)) : ∀ (h : List Inp) (n : Node), (∀ i ∈ h, P i) →
    ∃ h' : List Inp, (∀ i ∈ h', P i) ∧ (∀ i ∈ h', ∀ kind stale, i ≠ .pass kind stale) ∧ n.run env h' = n.run env h := by
  intro h
  induction h with
  | nil => intro n _; exact ⟨[], by simp, by simp, rfl⟩
  | cons i h ih =>
    intro n hp
    obtain ⟨h', h1, h2, h3⟩ := ih (n.step env i) (fun j hj => hp j (by simp [hj]))
    by_cases hpass : ∃ kind stale, i = .pass kind stale
    · obtain ⟨kind, stale, rfl⟩ := hpass
      refine ⟨(n.db.entries kind).map (Inp.retry kind stale) ++ h', ?_, ?_, ?_⟩
      · intro j hj
        rcases List.mem_append.1 hj with hj | hj
        · obtain ⟨x, _, rfl⟩ := List.mem_map.1 hj; exact hP ..
        · exact h1 j hj
      · intro j hj
        rcases List.mem_append.1 hj with hj | hj
        · obtain ⟨x, _, rfl⟩ := List.mem_map.1 hj; intro _ _ hc; exact absurd hc (by simp)
        · exact h2 j hj
      · rw [run_append, ← escPass_run]
        exact h3
    · refine ⟨i :: h', ?_, ?_, h3⟩
      · intro j hj
        rcases List.mem_cons.1 hj with rfl | hj
        · exact hp _ (by simp)
        · exact h1 j hj
      · intro j hj kind stale hc
        rcases List.mem_cons.1 hj with rfl | hj
        · exact hpass ⟨kind, stale, hc⟩
        · exact h2 j hj kind stale hc

end Verif.Kel
