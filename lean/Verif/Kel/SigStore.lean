import Verif.Kel.PropsAuth

/-! # Which signatures get stored: helper lemmas for C33 -/

namespace Verif.Kel

open Verif.Thold (Thold)

/-- The only signatures new in `b` are among `l` and stored for `e`. -/
structure SN (e : Event) (l : List Sig) (a b : Db) : Prop where
  new : ∀ p d s, s ∈ b.sigs p d → s ∈ a.sigs p d ∨ (p = e.pre ∧ d = e.said ∧ s ∈ l)

theorem SN.mono {e : Event} {l l' : List Sig} {a b : Db} (h : SN e l a b) (hl : ∀ s, s ∈ l → s ∈ l') : SN e l' a b :=
  ⟨fun p d s hs => (h.new p d s hs).imp id (fun h => ⟨h.1, h.2.1, hl _ h.2.2⟩)⟩

theorem SN.of_eq {e : Event} {l : List Sig} {a b : Db} (h : b.sigs = a.sigs) : SN e l a b :=
  ⟨fun p d s hs => .inl (by rw [← h]; exact hs)⟩

theorem SN.of_put {e : Event} {l : List Sig} {a b : Db}
    (h : b.sigs = upd2 a.sigs e.pre e.said (ioPut (a.sigs e.pre e.said) l)) : SN e l a b := by
  constructor
  intro p d s hs
  rw [h] at hs
  unfold upd2 at hs
  split at hs
  · rename_i hp
    rcases (mem_ioPut _ _ _).1 hs with hs | hs
    · left; rw [hp.1, hp.2]; exact hs
    · exact .inr ⟨hp.1, hp.2, hs⟩
  · exact .inl hs

theorem SN.trans {e : Event} {l : List Sig} {a b c : Db} (h : SN e l a b) (g : SN e l b c) : SN e l a c :=
  ⟨fun p d s hs => (g.new p d s hs).elim (h.new p d s) .inr⟩

theorem esr_sigs (db : Db) (e : Event) (l : Bool) : (db.esr e l).sigs = db.sigs := by
  unfold Db.esr; split
  · rfl
  · split <;> rfl

theorem putEvt_sigs (db : Db) (e : Event) : (db.putEvt e).sigs = db.sigs := by
  unfold Db.putEvt; split <;> rfl

theorem putUde_sigs (db : Db) (e : Event) (c : Option Couple) : (db.putUde e c).sigs = db.sigs := by
  unfold Db.putUde; split <;> rfl

theorem logAes_sigs (n : Node) (k : Kever) (e : Event) (w : List Id) (c : Option Couple) (db : Db) :
    (n.logAes k e w c db).sigs = db.sigs := by
  unfold Node.logAes; split
  · rfl
  · split <;> rfl

theorem escBase_sigs (db : Db) (e : Event) (ss ws : List Sig) (l : Bool) :
    (db.escBase e ss ws l).sigs = upd2 db.sigs e.pre e.said (ioPut (db.sigs e.pre e.said) ss) := by
  unfold Db.escBase
  rw [putEvt_sigs]
  show upd2 (db.esr e l).sigs e.pre e.said (ioPut ((db.esr e l).sigs e.pre e.said) ss) = _
  rw [esr_sigs]

theorem sn_escrowOO (db : Db) (e : Event) (ss ws : List Sig) (c : Option Couple) (l : Bool) :
    SN e ss db (db.escrowOO e ss ws c l) :=
  .of_put (by show ((db.escBase e ss ws l).putUde e c).sigs = _; rw [putUde_sigs, escBase_sigs])
theorem sn_escrowMF (db : Db) (e : Event) (ss ws : List Sig) (c : Option Couple) (l : Bool) :
    SN e ss db (db.escrowMF e ss ws c l) :=
  .of_put (by show ((db.escBase e ss ws l).putUde e c).sigs = _; rw [putUde_sigs, escBase_sigs])
theorem sn_escrowPS (db : Db) (e : Event) (ss ws : List Sig) (c : Option Couple) (l : Bool) :
    SN e ss db (db.escrowPS e ss ws c l) :=
  .of_put (by show ((db.escBase e ss ws l).putUde e c).sigs = _; rw [putUde_sigs, escBase_sigs])
theorem sn_escrowPW (db : Db) (e : Event) (ss ws : List Sig) (c : Option Couple) (l : Bool) :
    SN e ss db (db.escrowPW e ss ws c l) :=
  .of_put (by show ((db.escBase e ss ws l).putUde e c).sigs = _; rw [putUde_sigs, escBase_sigs])
theorem sn_escrowPD (db : Db) (e : Event) (ss ws : List Sig) (c : Option Couple) (l : Bool) :
    SN e ss db (db.escrowPD e ss ws c l) :=
  .of_put (by show (db.escBase e ss ws l).sigs = _; rw [escBase_sigs])
theorem sn_escrowDelegable (db : Db) (e : Event) (ss ws : List Sig) (l : Bool) :
    SN e ss db (db.escrowDelegable e ss ws l) :=
  .of_put (by show (db.escBase e ss ws l).sigs = _; rw [escBase_sigs])
theorem sn_escrowLD (db : Db) (e : Event) (ss : List Sig) : SN e ss db (db.escrowLD e ss) :=
  .of_put (by
    unfold Db.escrowLD; rw [putEvt_sigs]
    show upd2 (db.esr e true).sigs e.pre e.said (ioPut ((db.esr e true).sigs e.pre e.said) ss) = _
    rw [esr_sigs])

theorem sigs_fetchDelegating (n : Node) (dp : Id) (e : Event) (eager : Bool) :
    (n.fetchDelegating dp e eager).1.sigs = n.db.sigs := by
  unfold Node.fetchDelegating
  split
  · split
    · rfl
    · split <;> rfl
  · split
    · split
      · rfl
      · split <;> rfl
    · rfl

theorem sn_locateSeal (n : Node) (c : Ctx) (dp : Id) : SN c.e c.sigs n.db (n.locateSeal c dp).1 := by
  unfold Node.locateSeal
  split
  · split
    · exact .of_eq rfl
    · exact sn_escrowPD ..
  · split
    · exact .of_eq rfl
    · split
      · split
        · exact .of_eq rfl
        · exact sn_escrowPD ..
      · split
        · exact .of_eq rfl
        · split
          · exact .of_eq rfl
          · exact sn_escrowPD ..

theorem sn_validateDelegation (n : Node) (c : Ctx) (dp : Option Id) :
    SN c.e c.sigs n.db (n.validateDelegation c dp).1 := by
  unfold Node.validateDelegation
  split
  · exact .of_eq rfl
  · split
    · exact .of_eq rfl
    · split
      · exact sn_escrowPD ..
      · split
        · exact .of_eq rfl
        · split
          · rename_i db x h
            have := sn_locateSeal n c ‹Id›
            rw [h] at this; exact this
          · split
            · exact .of_eq rfl
            · have hf : SN c.e c.sigs n.db (n.fetchDelegating ‹Id› c.k.serder c.eager).1 := .of_eq (sigs_fetchDelegating ..)
              split
              · rename_i h; rw [h] at hf; exact hf
              · rename_i h; rw [h] at hf; exact hf.trans (sn_escrowPD ..)
              · rename_i h; rw [h] at hf
                split <;> exact hf

theorem sn_checkWitDel (n : Node) (c : Ctx) (toad : Nat) (dp : Option Id) :
    SN c.e c.sigs n.db (n.checkWitDel c toad dp).1 := by
  unfold Node.checkWitDel
  split
  · exact .of_eq rfl
  · split
    · exact .of_eq rfl
    · split
      · exact sn_escrowPW ..
      · split
        · exact sn_escrowDelegable ..
        · have := sn_validateDelegation n c dp
          split <;> (rename_i h; rw [h] at this; exact this)

/-- Validation stores only signatures that verify. -/
theorem sn_val (env : Env) (n : Node) (k : Kever) (e : Event) (ss ws : List Sig) (keys : List Id) (kt : Thold)
    (toad : Nat) (wits : List Id) (couple : Option Couple) (eager isLocal : Bool) :
    ∃ l, SN e l n.db (n.valSigsWigsDel env k e ss ws keys kt toad wits couple eager isLocal).1 ∧
      ∀ s, s ∈ l → s ∈ ss ∧ SignedBy env keys e s := by
  unfold Node.valSigsWigsDel
  split
  · exact ⟨[], .of_eq rfl, by simp⟩
  · rename_i vs hvs
    have hl : ∀ s, s ∈ vs → s ∈ ss ∧ SignedBy env keys e s := by
      unfold Node.checkSigs at hvs
      split at hvs
      · exact absurd hvs (by simp)
      · split at hvs
        · exact absurd hvs (by simp)
        · simp only at hvs
          split at hvs
          · exact absurd hvs (by simp)
          · injection hvs with hvs; subst hvs
            intro s hs
            have := mem_verifySigs hs
            exact ⟨(List.mem_filter.1 this.1).1, this.2⟩
    refine ⟨vs, ?_, hl⟩
    split
    · exact .of_eq rfl
    · split
      · exact sn_escrowMF ..
      · split
        · exact .of_eq rfl
        · simp only
          split
          · exact sn_escrowPS ..
          · split
            · exact sn_escrowPS ..
            · exact sn_checkWitDel n ⟨k, e, vs, _, wits, couple, eager, isLocal⟩ toad _

theorem logEvent_sigs (n : Node) (k : Kever) (e : Event) (ss ws : List Sig) (wits : List Id) (first : Bool)
    (couple : Option Couple) (isLocal : Bool) : (n.logEvent k e ss ws wits first couple isLocal).sigs =
      upd2 n.db.sigs e.pre e.said (ioPut (n.db.sigs e.pre e.said) ss) := by
  unfold Node.logEvent Node.logWrites
  cases first <;> simp [esr_sigs, logAes_sigs, putEvt_sigs, Db.putSigs, Db.putWigs, Db.putWits]

/-- Signatures new after processing an event were delivered with it, and verify under the keys of the authoritative
establishment event unless the event went to the out-of-order or the likely-duplicitous escrow. -/
theorem sn_process {env : Env} {U : Event → Prop} (hnc : NoColl U) {n : Node} (hi : Inv U n) (hK : KeyInv n) (hL : LiveAll n)
    (e : Event) (he : U e) (ss ws : List Sig) (couple : Option Couple) (eager isLocal : Bool) :
    ∃ l, SN e l n.db (n.processEvent env e ss ws couple eager isLocal).1.db ∧ (∀ s, s ∈ l → s ∈ ss) ∧
      ((n.processEvent env e ss ws couple eager isLocal).2 ≠ .error .outOfOrder →
       (n.processEvent env e ss ws couple eager isLocal).2 ≠ .error .attribute →
       ∀ s, s ∈ l → (∃ a, Authority n.db e.pre e a ∧ SignedBy env a.keys e s)) := by
  unfold Node.processEvent
  split
  · exact ⟨[], .of_eq rfl, by simp, by simp⟩
  · split
    · split
      · rename_i hilk
        have hest : e.ilk.est = true := by rcases hilk with h | h <;> rw [h] <;> rfl
        unfold Node.inception
        split
        · exact ⟨[], .of_eq rfl, by simp, by simp⟩
        · split
          · exact ⟨[], .of_eq rfl, by simp, by simp⟩
          · rename_i k hk
            obtain ⟨l, h1, h2⟩ := sn_val env n k e ss ws e.keys e.kt e.toad e.wits couple eager isLocal
            split
            · rename_i db x h
              rw [h] at h1
              exact ⟨l, h1, fun s hs => (h2 s hs).1, fun _ _ s hs => ⟨e, .est hest, (h2 s hs).2⟩⟩
            · rename_i db v h
              have hv := val_ok h
              rw [h] at h1
              refine ⟨l ++ v.sigs, ?_, ?_, ?_⟩
              · refine (?_ : SN e (l ++ v.sigs) n.db db).trans (.trans (b := Node.logEvent { n with db := db } k e v.sigs v.wigs e.wits true v.couple isLocal) ?_ (.of_eq rfl))
                · exact h1.mono (fun s hs => List.mem_append_left _ hs)
                · have := SN.of_put (e := e) (l := v.sigs) (a := db) (logEvent_sigs { n with db := db } k e v.sigs v.wigs e.wits true v.couple isLocal)
                  exact this.mono (fun s hs => List.mem_append_right _ hs)
              · intro s hs
                rcases List.mem_append.1 hs with hs | hs
                · exact (h2 s hs).1
                · exact (hv.sigs s hs).1
              · intro _ _ s hs
                rcases List.mem_append.1 hs with hs | hs
                · exact ⟨e, .est hest, (h2 s hs).2⟩
                · exact ⟨e, .est hest, (hv.sigs s hs).2⟩
      · exact ⟨ss, sn_escrowOO .., fun _ h => h, fun h => absurd rfl h⟩
    · rename_i k hk
      split
      · rename_i hilk
        have hest : e.ilk.est = true := by rcases hilk with h | h <;> rw [h] <;> rfl
        unfold Node.reIncept
        split
        · exact ⟨[], .of_eq rfl, by simp, by simp⟩
        · split
          · exact ⟨[], .of_eq rfl, by simp, by simp⟩
          · rename_i hs0 _ es hes
            split
            · rename_i hsaid
              have : es = e := by
                have hs0 : e.sn = 0 := by simpa using hs0
                rw [hs0] at hes
                obtain ⟨hl, hp, _⟩ := fetchEst_zero n.db e.pre es hi.evt.ok hes
                obtain ⟨_, y, hy, _⟩ := (hi.mem _ _ _).1 (List.mem_of_getLast? hl)
                have hu := hi.evt _ _ _ hy
                have : y = e := hnc _ _ hu.2.2 he (by rw [hu.2.1, hsaid])
                have h2 : es.said = y.said := hu.2.1.symm
                -- the stored event is the one found
                unfold fetchEst at hes
                rw [hl] at hes
                simp only [hy] at hes
                split at hes
                · injection hes with hes; rw [← hes, this]
                · simp at hes
              subst this
              simp only
              split
              · refine ⟨verifySigs env es ss es.keys, SN.of_put (logEvent_sigs ..), fun s hs => (mem_verifySigs hs).1, ?_⟩
                intro _ _ s hs
                exact ⟨es, .est hest, (mem_verifySigs hs).2⟩
              · exact ⟨[], .of_eq rfl, by simp, by simp⟩
            · exact ⟨ss, sn_escrowLD .., fun _ h => h, fun _ h => absurd rfl h⟩
      · rename_i hnicp
        split
        · exact ⟨ss, sn_escrowOO .., fun _ h => h, fun h => absurd rfl h⟩
        · split
          · -- update
            rename_i hsn hseq
            unfold Node.update
            split
            · exact ⟨[], .of_eq rfl, by simp, by simp⟩
            · split
              · exact ⟨[], .of_eq rfl, by simp, by simp⟩
              · have rot : e.ilk.est = true → ∃ l, SN e l n.db (n.updateRot env k e ss ws couple eager isLocal).1.db ∧
                    (∀ s, s ∈ l → s ∈ ss) ∧ ∀ s, s ∈ l → (∃ a, Authority n.db e.pre e a ∧ SignedBy env a.keys e s) := by
                  intro hest
                  unfold Node.updateRot
                  split
                  · exact ⟨[], .of_eq rfl, by simp, by simp⟩
                  · split
                    · exact ⟨[], .of_eq rfl, by simp, by simp⟩
                    · rename_i wits cuts adds hrot
                      obtain ⟨l, h1, h2⟩ := sn_val env n k e ss ws e.keys e.kt e.toad wits couple eager isLocal
                      split
                      · rename_i db x h
                        rw [h] at h1
                        exact ⟨l, h1, fun s hs => (h2 s hs).1, fun s hs => ⟨e, .est hest, (h2 s hs).2⟩⟩
                      · rename_i db v h
                        have hv := val_ok h
                        rw [h] at h1
                        refine ⟨l ++ v.sigs, ?_, ?_, ?_⟩
                        · refine (?_ : SN e (l ++ v.sigs) n.db db).trans (.trans (b := Node.logEvent { n with db := db } k e v.sigs v.wigs wits true v.couple isLocal) ?_ (.of_eq rfl))
                          · exact h1.mono (fun s hs => List.mem_append_left _ hs)
                          · have := SN.of_put (e := e) (l := v.sigs) (a := db) (logEvent_sigs { n with db := db } k e v.sigs v.wigs wits true v.couple isLocal)
                            exact this.mono (fun s hs => List.mem_append_right _ hs)
                        · intro s hs
                          rcases List.mem_append.1 hs with hs | hs
                          · exact (h2 s hs).1
                          · exact (hv.sigs s hs).1
                        · intro s hs
                          rcases List.mem_append.1 hs with hs | hs
                          · exact ⟨e, .est hest, (h2 s hs).2⟩
                          · exact ⟨e, .est hest, (hv.sigs s hs).2⟩
                have fin : ∀ {o : Out}, (∃ l, SN e l n.db o.1.db ∧
                    (∀ s, s ∈ l → s ∈ ss) ∧ ∀ s, s ∈ l → (∃ a, Authority n.db e.pre e a ∧ SignedBy env a.keys e s)) →
                    ∃ l, SN e l n.db o.1.db ∧ (∀ s, s ∈ l → s ∈ ss) ∧ (o.2 ≠ .error .outOfOrder → o.2 ≠ .error .attribute →
                      ∀ s, s ∈ l → (∃ a, Authority n.db e.pre e a ∧ SignedBy env a.keys e s)) :=
                  fun ⟨l, a, b, c⟩ => ⟨l, a, b, fun _ _ => c⟩
                split
                · rename_i h; exact fin (rot (by rw [h]; rfl))
                · rename_i h; exact fin (rot (by rw [h]; rfl))
                · rename_i hix
                  apply fin
                  unfold Node.updateIxn
                  split
                  · exact ⟨[], .of_eq rfl, by simp, by simp⟩
                  · split
                    · exact ⟨[], .of_eq rfl, by simp, by simp⟩
                    · split
                      · exact ⟨[], .of_eq rfl, by simp, by simp⟩
                      · rename_i hsn' hprior
                        have hprior : k.serder.said = e.prior := by simpa using hprior
                        have hKk := hK e.pre k hk
                        obtain ⟨a, b1, b2, b3, b4, b5, b6, b7, b8, b9, b10⟩ := hKk.est
                        have hauth : Authority n.db e.pre e a :=
                          .ixn hix hprior (by have := hKk.sn; omega) hKk.acc b10
                        obtain ⟨l, h1, h2⟩ := sn_val env n k e ss ws k.keys k.kt k.toad k.wits none eager isLocal
                        rw [b5] at h2
                        split
                        · rename_i db x h
                          rw [h] at h1
                          exact ⟨l, h1, fun s hs => (h2 s hs).1, fun s hs => ⟨a, hauth, (h2 s hs).2⟩⟩
                        · rename_i db v h
                          have hv := val_ok h
                          rw [h] at h1
                          refine ⟨l ++ v.sigs, ?_, ?_, ?_⟩
                          · refine (?_ : SN e (l ++ v.sigs) n.db db).trans (.trans (b := Node.logEvent { n with db := db } k e v.sigs v.wigs [] true none true) ?_ (.of_eq rfl))
                            · exact h1.mono (fun s hs => List.mem_append_left _ hs)
                            · have := SN.of_put (e := e) (l := v.sigs) (a := db) (logEvent_sigs { n with db := db } k e v.sigs v.wigs [] true none true)
                              exact this.mono (fun s hs => List.mem_append_right _ hs)
                          · intro s hs
                            rcases List.mem_append.1 hs with hs | hs
                            · exact (h2 s hs).1
                            · exact (hv.sigs s hs).1
                          · intro s hs
                            rcases List.mem_append.1 hs with hs | hs
                            · exact ⟨a, hauth, (h2 s hs).2⟩
                            · exact ⟨a, hauth, by rw [← b5]; exact (hv.sigs s hs).2⟩
                · exact ⟨[], .of_eq rfl, by simp, by simp⟩
          · rename_i hsn hseq
            unfold Node.reEvent
            split
            · rename_i hl
              split
              · exact ⟨[], .of_eq rfl, by simp, by simp⟩
              · rename_i es hes
                simp only
                split
                · exact ⟨[], .of_eq rfl, by simp, by simp⟩
                · split
                  · exact ⟨[], .of_eq rfl, by simp, by simp⟩
                  · split
                    · refine ⟨verifySigs env e ss es.keys, SN.of_put (logEvent_sigs ..), fun s hs => (mem_verifySigs hs).1, ?_⟩
                      intro _ _ s hs
                      have hLk := hL e.pre k hk
                      obtain ⟨y, gy⟩ := hLk.chain.all e.sn (by omega)
                      have hye : y = e := by
                        have h1 := gy.last
                        rw [hl] at h1; injection h1 with h1
                        exact hnc _ _ (hi.evt _ _ _ gy.evt).2.2 he h1.symm
                      subst hye
                      obtain ⟨a, ha1, ha2⟩ := chain_fetchEst hi hLk.chain y.sn y (by omega) gy
                      rw [hes] at ha1; injection ha1 with ha1; subst ha1
                      exact ⟨es, ha2, (mem_verifySigs hs).2⟩
                    · exact ⟨[], .of_eq rfl, by simp, by simp⟩
            · exact ⟨ss, sn_escrowLD .., fun _ h => h, fun _ h => absurd rfl h⟩

end Verif.Kel
