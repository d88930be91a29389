import Verif.Kel.CrashLemmas

/-! # What processing one event leaves alone: helper lemmas -/

namespace Verif.Kel

open Verif.Thold (Thold)

theorem mem_escIns (x y : Id × Nat × Dig) (l : List (Id × Nat × Dig)) : y ∈ escIns x l ↔ y = x ∨ y ∈ l := by
  induction l with
  | nil => simp [escIns]
  | cons z l ih =>
    unfold escIns
    split
    · simp
    · rw [List.mem_cons, ih, List.mem_cons]
      constructor
      · rintro (h | h | h) <;> simp [h]
      · rintro (h | h | h) <;> simp [h]

theorem mem_escAdd (x y : Id × Nat × Dig) (l : List (Id × Nat × Dig)) : y ∈ escAdd l x ↔ y = x ∨ y ∈ l := by
  unfold escAdd
  split
  · rename_i h
    constructor
    · exact .inr
    · rintro (rfl | h') <;> assumption
  · exact mem_escIns ..

theorem escAdd_twice (x : Id × Nat × Dig) (l : List (Id × Nat × Dig)) : escAdd (escAdd l x) x = escAdd l x := by
  have : x ∈ escAdd l x := (mem_escAdd x x l).2 (.inl rfl)
  rw [escAdd, if_pos this]

/-- Stores of other events are untouched; the out-of-order, partial signature and partial witness escrows gain at most the
entry of `e`. -/
structure Frame (e : Event) (a b : Db) : Prop where
  evts : ∀ p d, ¬ (p = e.pre ∧ d = e.said) → b.evts p d = a.evts p d
  sigs : ∀ p d, ¬ (p = e.pre ∧ d = e.said) → b.sigs p d = a.sigs p d
  wigs : ∀ p d, ¬ (p = e.pre ∧ d = e.said) → b.wigs p d = a.wigs p d
  esrs : ∀ p d, ¬ (p = e.pre ∧ d = e.said) → b.esrs p d = a.esrs p d
  ooes : b.ooes = a.ooes ∨ b.ooes = escAdd a.ooes (e.pre, e.sn, e.said)
  pses : b.pses = a.pses ∨ b.pses = escAdd a.pses (e.pre, e.sn, e.said)
  pwes : b.pwes = a.pwes ∨ b.pwes = escAdd a.pwes (e.pre, e.sn, e.said)

theorem Frame.rfl' {e : Event} {a : Db} : Frame e a a :=
  ⟨fun _ _ _ => rfl, fun _ _ _ => rfl, fun _ _ _ => rfl, fun _ _ _ => rfl, .inl rfl, .inl rfl, .inl rfl⟩

theorem Frame.of_eq {e : Event} {a b : Db} (h1 : b.evts = a.evts) (h2 : b.sigs = a.sigs) (h3 : b.wigs = a.wigs)
    (h4 : b.esrs = a.esrs) (h5 : b.ooes = a.ooes) (h6 : b.pses = a.pses) (h7 : b.pwes = a.pwes) : Frame e a b :=
  ⟨fun _ _ _ => by rw [h1], fun _ _ _ => by rw [h2], fun _ _ _ => by rw [h3], fun _ _ _ => by rw [h4], .inl h5, .inl h6,
   .inl h7⟩

theorem escAdd_trans {x : Id × Nat × Dig} {a b c : List (Id × Nat × Dig)} (h : b = a ∨ b = escAdd a x)
    (g : c = b ∨ c = escAdd b x) : c = a ∨ c = escAdd a x := by
  rcases h with h1 | h1 <;> rcases g with g1 | g1
  · exact .inl (g1.trans h1)
  · exact .inr (by rw [g1, h1])
  · exact .inr (by rw [g1, h1])
  · exact .inr (by rw [g1, h1, escAdd_twice])

theorem Frame.trans {e : Event} {a b c : Db} (h : Frame e a b) (g : Frame e b c) : Frame e a c := by
  exact ⟨fun p d hp => (g.evts p d hp).trans (h.evts p d hp), fun p d hp => (g.sigs p d hp).trans (h.sigs p d hp),
    fun p d hp => (g.wigs p d hp).trans (h.wigs p d hp), fun p d hp => (g.esrs p d hp).trans (h.esrs p d hp),
    escAdd_trans h.ooes g.ooes, escAdd_trans h.pses g.pses, escAdd_trans h.pwes g.pwes⟩

theorem upd2_ne {α} (f : Id → Dig → α) (a : Id) (b : Dig) (v : α) (p : Id) (d : Dig) (h : ¬ (p = a ∧ d = b)) :
    upd2 f a b v p d = f p d := by unfold upd2; rw [if_neg h]

theorem frame_esr (e : Event) (db : Db) (l : Bool) : Frame e db (db.esr e l) := by
  unfold Db.esr
  split
  · exact ⟨fun _ _ _ => rfl, fun _ _ _ => rfl, fun _ _ _ => rfl, fun p d h => upd2_ne _ _ _ _ p d h, .inl rfl, .inl rfl, .inl rfl⟩
  · split
    · exact ⟨fun _ _ _ => rfl, fun _ _ _ => rfl, fun _ _ _ => rfl, fun p d h => upd2_ne _ _ _ _ p d h, .inl rfl, .inl rfl, .inl rfl⟩
    · exact .rfl'

theorem frame_putEvt (e : Event) (db : Db) : Frame e db (db.putEvt e) := by
  unfold Db.putEvt
  split
  · exact ⟨fun p d h => upd2_ne _ _ _ _ p d h, fun _ _ _ => rfl, fun _ _ _ => rfl, fun _ _ _ => rfl, .inl rfl, .inl rfl, .inl rfl⟩
  · exact .rfl'

theorem frame_putSigs (e : Event) (db : Db) (ss : List Sig) : Frame e db (db.putSigs e ss) :=
  ⟨fun _ _ _ => rfl, fun p d h => upd2_ne _ _ _ _ p d h, fun _ _ _ => rfl, fun _ _ _ => rfl, .inl rfl, .inl rfl, .inl rfl⟩
theorem frame_putWigs (e : Event) (db : Db) (ss : List Sig) : Frame e db (db.putWigs e ss) :=
  ⟨fun _ _ _ => rfl, fun _ _ _ => rfl, fun p d h => upd2_ne _ _ _ _ p d h, fun _ _ _ => rfl, .inl rfl, .inl rfl, .inl rfl⟩
theorem frame_putWits (e : Event) (db : Db) (ws : List Id) : Frame e db (db.putWits e ws) := .of_eq rfl rfl rfl rfl rfl rfl rfl
theorem frame_pinUde (e : Event) (db : Db) (c : Option Couple) : Frame e db (db.pinUde e c) := .of_eq rfl rfl rfl rfl rfl rfl rfl
theorem frame_putUde (e : Event) (db : Db) (c : Option Couple) : Frame e db (db.putUde e c) := by
  unfold Db.putUde
  split
  · exact .of_eq rfl rfl rfl rfl rfl rfl rfl
  · exact .rfl'

theorem frame_escBase (e : Event) (db : Db) (ss ws : List Sig) (l : Bool) : Frame e db (db.escBase e ss ws l) :=
  (((frame_esr e db l).trans (frame_putSigs e _ ss)).trans (frame_putWigs e _ ws)).trans (frame_putEvt e _)

theorem frame_escrowOO (e : Event) (db : Db) (ss ws : List Sig) (c : Option Couple) (l : Bool) :
    Frame e db (db.escrowOO e ss ws c l) :=
  ((frame_escBase e db ss ws l).trans (frame_putUde e _ c)).trans
    ⟨fun _ _ _ => rfl, fun _ _ _ => rfl, fun _ _ _ => rfl, fun _ _ _ => rfl, .inr rfl, .inl rfl, .inl rfl⟩
theorem frame_escrowMF (e : Event) (db : Db) (ss ws : List Sig) (c : Option Couple) (l : Bool) :
    Frame e db (db.escrowMF e ss ws c l) :=
  ((frame_escBase e db ss ws l).trans (frame_putUde e _ c)).trans (.of_eq rfl rfl rfl rfl rfl rfl rfl)
theorem frame_escrowPS (e : Event) (db : Db) (ss ws : List Sig) (c : Option Couple) (l : Bool) :
    Frame e db (db.escrowPS e ss ws c l) :=
  ((frame_escBase e db ss ws l).trans (frame_putUde e _ c)).trans
    ⟨fun _ _ _ => rfl, fun _ _ _ => rfl, fun _ _ _ => rfl, fun _ _ _ => rfl, .inl rfl, .inr rfl, .inl rfl⟩
theorem frame_escrowPW (e : Event) (db : Db) (ss ws : List Sig) (c : Option Couple) (l : Bool) :
    Frame e db (db.escrowPW e ss ws c l) :=
  ((frame_escBase e db ss ws l).trans (frame_putUde e _ c)).trans
    ⟨fun _ _ _ => rfl, fun _ _ _ => rfl, fun _ _ _ => rfl, fun _ _ _ => rfl, .inl rfl, .inl rfl, .inr rfl⟩
theorem frame_escrowPD (e : Event) (db : Db) (ss ws : List Sig) (c : Option Couple) (l : Bool) :
    Frame e db (db.escrowPD e ss ws c l) :=
  ((frame_escBase e db ss ws l).trans (frame_pinUde e _ c)).trans (.of_eq rfl rfl rfl rfl rfl rfl rfl)
theorem frame_escrowDelegable (e : Event) (db : Db) (ss ws : List Sig) (l : Bool) :
    Frame e db (db.escrowDelegable e ss ws l) :=
  (frame_escBase e db ss ws l).trans (.of_eq rfl rfl rfl rfl rfl rfl rfl)
theorem frame_escrowLD (e : Event) (db : Db) (ss : List Sig) : Frame e db (db.escrowLD e ss) :=
  ((frame_esr e db true).trans (frame_putSigs e _ ss)).trans (frame_putEvt e _)

theorem frame_logAes (n : Node) (k : Kever) (e : Event) (w : List Id) (c : Option Couple) (db : Db) :
    Frame e db (n.logAes k e w c db) := by
  unfold Node.logAes
  split
  · exact .rfl'
  · split
    · exact .of_eq rfl rfl rfl rfl rfl rfl rfl
    · exact .rfl'

theorem frame_fetchDelegating (n : Node) (dp : Id) (x e : Event) (eager : Bool) :
    Frame e n.db (n.fetchDelegating dp x eager).1 := by
  unfold Node.fetchDelegating
  split
  · split
    · exact .of_eq rfl rfl rfl rfl rfl rfl rfl
    · split <;> exact .rfl'
  · split
    · split
      · exact .rfl'
      · split
        · exact .rfl'
        · exact .of_eq rfl rfl rfl rfl rfl rfl rfl
    · exact .rfl'

theorem frame_locateSeal (n : Node) (c : Ctx) (dp : Id) : Frame c.e n.db (n.locateSeal c dp).1 := by
  unfold Node.locateSeal
  split
  · split
    · exact .rfl'
    · exact frame_escrowPD ..
  · split
    · exact .rfl'
    · split
      · split
        · exact .rfl'
        · exact frame_escrowPD ..
      · split
        · exact .rfl'
        · split
          · exact .rfl'
          · exact frame_escrowPD ..

theorem frame_validateDelegation (n : Node) (c : Ctx) (dp : Option Id) :
    Frame c.e n.db (n.validateDelegation c dp).1 := by
  unfold Node.validateDelegation
  split
  · exact .rfl'
  · split
    · exact .rfl'
    · split
      · exact frame_escrowPD ..
      · split
        · exact .rfl'
        · split
          · rename_i db x h
            have := frame_locateSeal n c ‹Id›
            rw [h] at this; exact this
          · split
            · exact .rfl'
            · have hf := frame_fetchDelegating n ‹Id› c.k.serder c.e c.eager
              split
              · rename_i h; rw [h] at hf; exact hf
              · rename_i h; rw [h] at hf; exact hf.trans (frame_escrowPD ..)
              · rename_i h; rw [h] at hf
                split <;> exact hf

theorem frame_checkWitDel (n : Node) (c : Ctx) (toad : Nat) (dp : Option Id) :
    Frame c.e n.db (n.checkWitDel c toad dp).1 := by
  unfold Node.checkWitDel
  split
  · exact .rfl'
  · split
    · exact .rfl'
    · split
      · exact frame_escrowPW ..
      · split
        · exact frame_escrowDelegable ..
        · have := frame_validateDelegation n c dp
          split <;> (rename_i h; rw [h] at this; exact this)

theorem frame_val (env : Env) (n : Node) (k : Kever) (e : Event) (ss ws : List Sig) (keys : List Id) (kt : Thold)
    (toad : Nat) (wits : List Id) (couple : Option Couple) (eager isLocal : Bool) :
    Frame e n.db (n.valSigsWigsDel env k e ss ws keys kt toad wits couple eager isLocal).1 := by
  unfold Node.valSigsWigsDel
  split
  · exact .rfl'
  · split
    · exact .rfl'
    · split
      · exact frame_escrowMF ..
      · split
        · exact .rfl'
        · simp only
          split
          · exact frame_escrowPS ..
          · split
            · exact frame_escrowPS ..
            · exact frame_checkWitDel n ⟨k, e, _, _, wits, couple, eager, isLocal⟩ toad _

theorem frame_logPre (n : Node) (k : Kever) (e : Event) (ss ws : List Sig) (wits : List Id) (couple : Option Couple)
    (isLocal : Bool) : Frame e n.db (n.logPre k e ss ws wits couple isLocal) :=
  (((((frame_putSigs e n.db ss).trans (frame_putWigs e _ ws)).trans (frame_putWits e _ wits)).trans
    (frame_putEvt e _)).trans (frame_logAes n k e wits couple _)).trans (frame_esr e _ isLocal)

theorem frame_log (n : Node) (k : Kever) (e : Event) (ss ws : List Sig) (wits : List Id) (first : Bool)
    (couple : Option Couple) (isLocal : Bool) : Frame e n.db (n.logEvent k e ss ws wits first couple isLocal) := by
  have h := frame_logPre n k e ss ws wits couple isLocal
  cases first
  · rw [logEvent_again]; exact h.trans (.of_eq rfl rfl rfl rfl rfl rfl rfl)
  · rw [logEvent_first]; exact h.trans (.of_eq rfl rfl rfl rfl rfl rfl rfl)

theorem frame_process (env : Env) (n : Node) (e : Event) (ss ws : List Sig) (couple : Option Couple) (eager isLocal : Bool) :
    Frame e n.db (n.processEvent env e ss ws couple eager isLocal).1.db := by
  have hlog : ∀ (db : Db) (k k1 : Kever) (a b : List Sig) (w : List Id) (c : Option Couple) (l : Bool), Frame e n.db db →
      Frame e n.db ((Node.logEvent { n with db := db } k e a b w true c l).pinState k1) := fun db k k1 a b w c l h =>
    (h.trans (frame_log { n with db := db } k e a b w true c l)).trans (.of_eq rfl rfl rfl rfl rfl rfl rfl)
  unfold Node.processEvent
  split
  · exact .rfl'
  · split
    · split
      · unfold Node.inception
        split
        · exact .rfl'
        · split
          · exact .rfl'
          · rename_i k _
            have hv := frame_val env n k e ss ws e.keys e.kt e.toad e.wits couple eager isLocal
            split
            · rename_i h; rw [h] at hv; exact hv
            · rename_i db v h; rw [h] at hv; exact hlog db k _ v.sigs v.wigs e.wits v.couple isLocal hv
      · exact frame_escrowOO ..
    · rename_i k _
      split
      · unfold Node.reIncept
        split
        · exact .rfl'
        · split
          · exact .rfl'
          · split
            · simp only
              split
              · exact frame_log n ..
              · exact .rfl'
            · exact frame_escrowLD ..
      · split
        · exact frame_escrowOO ..
        · split
          · have hrot : Frame e n.db (n.updateRot env k e ss ws couple eager isLocal).1.db := by
              unfold Node.updateRot
              split
              · exact .rfl'
              · split
                · exact .rfl'
                · rename_i wits cuts adds _
                  have hv := frame_val env n k e ss ws e.keys e.kt e.toad wits couple eager isLocal
                  split
                  · rename_i h; rw [h] at hv; exact hv
                  · rename_i db v h; rw [h] at hv; exact hlog db k _ v.sigs v.wigs wits v.couple isLocal hv
            unfold Node.update
            split
            · exact .rfl'
            · split
              · exact .rfl'
              · split
                · exact hrot
                · exact hrot
                · unfold Node.updateIxn
                  split
                  · exact .rfl'
                  · split
                    · exact .rfl'
                    · split
                      · exact .rfl'
                      · have hv := frame_val env n k e ss ws k.keys k.kt k.toad k.wits none eager isLocal
                        split
                        · rename_i h; rw [h] at hv; exact hv
                        · rename_i db v h; rw [h] at hv; exact hlog db k _ v.sigs v.wigs [] none true hv
                · exact .rfl'
          · unfold Node.reEvent
            split
            · split
              · exact .rfl'
              · simp only
                split
                · exact .rfl'
                · split
                  · exact .rfl'
                  · split
                    · exact frame_log n ..
                    · exact .rfl'
            · exact frame_escrowLD ..

end Verif.Kel
