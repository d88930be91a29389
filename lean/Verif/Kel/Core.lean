import Verif.Kel.Run

/-! # What processing one event can do to the logs: helper lemmas -/

namespace Verif.Kel

open Verif.Thold (Thold)

/-- Logs and states equal; the event store may have gained `e`. -/
structure Same (e : Event) (a b : Db) : Prop where
  kels : b.kels = a.kels
  fels : b.fels = a.fels
  fons : b.fons = a.fons
  states : b.states = a.states
  mono : ∀ p d x, a.evts p d = some x → b.evts p d = some x
  only : ∀ p d x, b.evts p d = some x → a.evts p d = some x ∨ (p = e.pre ∧ d = e.said ∧ x = e)
  sigs : ∀ p d s, s ∈ a.sigs p d → s ∈ b.sigs p d
  wigs : ∀ p d s, s ∈ a.wigs p d → s ∈ b.wigs p d
  wits : b.wits = a.wits

theorem Same.rfl' {e : Event} {a : Db} : Same e a a :=
  ⟨rfl, rfl, rfl, rfl, fun _ _ _ h => h, fun _ _ _ h => .inl h, fun _ _ _ h => h, fun _ _ _ h => h, rfl⟩

theorem mem_ioAdd {α} [DecidableEq α] (l : List α) (v w : α) : w ∈ ioAdd l v ↔ w ∈ l ∨ w = v := by
  unfold ioAdd
  split
  · constructor
    · exact .inl
    · rintro (h | rfl) <;> assumption
  · simp

theorem mem_ioPut {α} [DecidableEq α] (vs l : List α) (w : α) : w ∈ ioPut l vs ↔ w ∈ l ∨ w ∈ vs := by
  unfold ioPut
  induction vs generalizing l with
  | nil => simp
  | cons v vs ih => rw [List.foldl_cons, ih, mem_ioAdd, List.mem_cons, or_assoc]

theorem Same.trans {e : Event} {a b c : Db} (h : Same e a b) (g : Same e b c) : Same e a c :=
  ⟨g.kels.trans h.kels, g.fels.trans h.fels, g.fons.trans h.fons, g.states.trans h.states,
   fun p d x hx => g.mono p d x (h.mono p d x hx),
   fun p d x hx => (g.only p d x hx).elim (fun h' => h.only p d x h') .inr,
   fun p d x hx => g.sigs p d x (h.sigs p d x hx), fun p d x hx => g.wigs p d x (h.wigs p d x hx), g.wits.trans h.wits⟩

/-- Only sub-databases outside the core differ. -/
theorem Same.of_eq {e : Event} {a b : Db} (h1 : b.kels = a.kels) (h2 : b.fels = a.fels) (h3 : b.fons = a.fons)
    (h4 : b.states = a.states) (h5 : b.evts = a.evts) (h6 : b.sigs = a.sigs) (h7 : b.wigs = a.wigs)
    (h8 : b.wits = a.wits) : Same e a b :=
  ⟨h1, h2, h3, h4, fun p d x h => by rw [h5]; exact h, fun p d x h => by rw [h5] at h; exact .inl h,
   fun p d x h => by rw [h6]; exact h, fun p d x h => by rw [h7]; exact h, h8⟩

theorem same_esr (e : Event) (db : Db) (l : Bool) : Same e db (db.esr e l) := by
  unfold Db.esr
  split
  · exact .of_eq rfl rfl rfl rfl rfl rfl rfl rfl
  · split
    · exact .of_eq rfl rfl rfl rfl rfl rfl rfl rfl
    · exact .rfl'

theorem same_putEvt (e : Event) (db : Db) : Same e db (db.putEvt e) := by
  unfold Db.putEvt
  split
  · rename_i h
    refine ⟨rfl, rfl, rfl, rfl, ?_, ?_, fun _ _ _ h => h, fun _ _ _ h => h, rfl⟩
    · intro p d x hx
      simp only [upd2]
      split
      · rename_i hp; rw [hp.1, hp.2, h] at hx; exact absurd hx (by simp)
      · exact hx
    · intro p d x hx
      simp only [upd2] at hx
      split at hx
      · rename_i hp; exact .inr ⟨hp.1, hp.2, by injection hx with hx; exact hx.symm⟩
      · exact .inl hx
  · exact .rfl'

/-- After `putEvt` some body is stored under the event's key. -/
theorem putEvt_stored (e : Event) (db : Db) : ∃ x, (db.putEvt e).evts e.pre e.said = some x := by
  unfold Db.putEvt
  split
  · exact ⟨e, by simp [upd2]⟩
  · rename_i x h; exact ⟨x, h⟩

theorem upd2_mono {α} [DecidableEq α] (f : Id → Dig → List α) (p : Id) (d : Dig) (vs : List α) (p' : Id) (d' : Dig) (s : α)
    (h : s ∈ f p' d') : s ∈ upd2 f p d (ioPut (f p d) vs) p' d' := by
  unfold upd2
  split
  · rename_i hp; rw [hp.1, hp.2] at h; exact (mem_ioPut _ _ _).2 (.inl h)
  · exact h

theorem upd2_same {α β γ} [DecidableEq α] [DecidableEq β] (f : α → β → γ) (a : α) (b : β) : upd2 f a b (f a b) = f := by
  funext x y
  unfold upd2
  split
  · rename_i h; rw [h.1, h.2]
  · rfl

theorem same_putSigs (e : Event) (db : Db) (ss : List Sig) : Same e db (db.putSigs e ss) :=
  ⟨rfl, rfl, rfl, rfl, fun _ _ _ h => h, fun _ _ _ h => .inl h, fun p d s h => upd2_mono _ _ _ _ p d s h,
   fun _ _ _ h => h, rfl⟩
theorem same_putWigs (e : Event) (db : Db) (ss : List Sig) : Same e db (db.putWigs e ss) :=
  ⟨rfl, rfl, rfl, rfl, fun _ _ _ h => h, fun _ _ _ h => .inl h, fun _ _ _ h => h,
   fun p d s h => upd2_mono _ _ _ _ p d s h, rfl⟩
theorem same_pinUde (e : Event) (db : Db) (c : Option Couple) : Same e db (db.pinUde e c) := .of_eq rfl rfl rfl rfl rfl rfl rfl rfl
theorem same_putUde (e : Event) (db : Db) (c : Option Couple) : Same e db (db.putUde e c) := by
  unfold Db.putUde
  split
  · exact .of_eq rfl rfl rfl rfl rfl rfl rfl rfl
  · exact .rfl'

theorem same_escBase (e : Event) (db : Db) (ss ws : List Sig) (l : Bool) : Same e db (db.escBase e ss ws l) :=
  (((same_esr e db l).trans (same_putSigs e _ ss)).trans (same_putWigs e _ ws)).trans (same_putEvt e _)

theorem same_escrowOO (e : Event) (db : Db) (ss ws : List Sig) (c : Option Couple) (l : Bool) :
    Same e db (db.escrowOO e ss ws c l) :=
  ((same_escBase e db ss ws l).trans (same_putUde e _ c)).trans (.of_eq rfl rfl rfl rfl rfl rfl rfl rfl)
theorem same_escrowMF (e : Event) (db : Db) (ss ws : List Sig) (c : Option Couple) (l : Bool) :
    Same e db (db.escrowMF e ss ws c l) :=
  ((same_escBase e db ss ws l).trans (same_putUde e _ c)).trans (.of_eq rfl rfl rfl rfl rfl rfl rfl rfl)
theorem same_escrowPS (e : Event) (db : Db) (ss ws : List Sig) (c : Option Couple) (l : Bool) :
    Same e db (db.escrowPS e ss ws c l) :=
  ((same_escBase e db ss ws l).trans (same_putUde e _ c)).trans (.of_eq rfl rfl rfl rfl rfl rfl rfl rfl)
theorem same_escrowPW (e : Event) (db : Db) (ss ws : List Sig) (c : Option Couple) (l : Bool) :
    Same e db (db.escrowPW e ss ws c l) :=
  ((same_escBase e db ss ws l).trans (same_putUde e _ c)).trans (.of_eq rfl rfl rfl rfl rfl rfl rfl rfl)
theorem same_escrowPD (e : Event) (db : Db) (ss ws : List Sig) (c : Option Couple) (l : Bool) :
    Same e db (db.escrowPD e ss ws c l) :=
  ((same_escBase e db ss ws l).trans (same_pinUde e _ c)).trans (.of_eq rfl rfl rfl rfl rfl rfl rfl rfl)
theorem same_escrowDelegable (e : Event) (db : Db) (ss ws : List Sig) (l : Bool) :
    Same e db (db.escrowDelegable e ss ws l) :=
  (same_escBase e db ss ws l).trans (.of_eq rfl rfl rfl rfl rfl rfl rfl rfl)
theorem same_escrowLD (e : Event) (db : Db) (ss : List Sig) : Same e db (db.escrowLD e ss) :=
  ((same_esr e db true).trans (same_putSigs e _ ss)).trans (same_putEvt e _)

theorem same_logAes (n : Node) (k : Kever) (e : Event) (w : List Id) (c : Option Couple) (db : Db) :
    Same e db (n.logAes k e w c db) := by
  unfold Node.logAes
  split
  · exact .rfl'
  · split
    · exact .of_eq rfl rfl rfl rfl rfl rfl rfl rfl
    · exact .rfl'

theorem same_fetchDelegating (n : Node) (dp : Id) (x e : Event) (eager : Bool) :
    Same e n.db (n.fetchDelegating dp x eager).1 := by
  unfold Node.fetchDelegating
  split
  · split
    · exact .of_eq rfl rfl rfl rfl rfl rfl rfl rfl
    · split <;> exact .rfl'
  · split
    · split
      · exact .rfl'
      · split
        · exact .rfl'
        · exact .of_eq rfl rfl rfl rfl rfl rfl rfl rfl
    · exact .rfl'

/-- Locating the delegating event: success leaves the database alone. -/
theorem locateSeal_ok (n : Node) (c : Ctx) (dp : Id) (db : Db) (de : Event) (h : n.locateSeal c dp = (db, .ok de)) :
    db = n.db := by
  unfold Node.locateSeal at h
  split at h
  · split at h
    · injection h with h1 _; exact h1.symm
    · injection h with _ h2; exact absurd h2 (by simp)
  · split at h
    · injection h with _ h2; exact absurd h2 (by simp)
    · split at h
      · split at h <;> (injection h with _ h2; exact absurd h2 (by simp))
      · split at h
        · injection h with _ h2; exact absurd h2 (by simp)
        · split at h
          · injection h with h1 _; exact h1.symm
          · injection h with _ h2; exact absurd h2 (by simp)

theorem same_locateSeal (n : Node) (c : Ctx) (dp : Id) : Same c.e n.db (n.locateSeal c dp).1 := by
  unfold Node.locateSeal
  split
  · split
    · exact .rfl'
    · exact same_escrowPD ..
  · split
    · exact .rfl'
    · split
      · split
        · exact .rfl'
        · exact same_escrowPD ..
      · split
        · exact .rfl'
        · split
          · exact .rfl'
          · exact same_escrowPD ..

theorem same_validateDelegation (n : Node) (c : Ctx) (dp : Option Id) :
    Same c.e n.db (n.validateDelegation c dp).1 := by
  unfold Node.validateDelegation
  split
  · exact .rfl'
  · split
    · exact .rfl'
    · split
      · exact same_escrowPD ..
      · split
        · exact .rfl'
        · split
          · rename_i db x h
            have := same_locateSeal n c ‹Id›
            rw [h] at this; exact this
          · split
            · exact .rfl'
            · have hf := same_fetchDelegating n ‹Id› c.k.serder c.e c.eager
              split
              · rename_i h; rw [h] at hf; exact hf
              · rename_i h; rw [h] at hf; exact hf.trans (same_escrowPD ..)
              · rename_i h; rw [h] at hf
                split <;> exact hf

theorem same_checkWitDel (n : Node) (c : Ctx) (toad : Nat) (dp : Option Id) :
    Same c.e n.db (n.checkWitDel c toad dp).1 := by
  unfold Node.checkWitDel
  split
  · exact .rfl'
  · split
    · exact .rfl'
    · split
      · exact same_escrowPW ..
      · split
        · exact same_escrowDelegable ..
        · have := same_validateDelegation n c dp
          split <;> (rename_i h; rw [h] at this; exact this)

theorem same_val (env : Env) (n : Node) (k : Kever) (e : Event) (ss ws : List Sig) (keys : List Id) (kt : Thold)
    (toad : Nat) (wits : List Id) (couple : Option Couple) (eager isLocal : Bool) :
    Same e n.db (n.valSigsWigsDel env k e ss ws keys kt toad wits couple eager isLocal).1 := by
  unfold Node.valSigsWigsDel
  split
  · exact .rfl'
  · split
    · exact .rfl'
    · split
      · exact same_escrowMF ..
      · split
        · exact .rfl'
        · simp only
          split
          · exact same_escrowPS ..
          · split
            · exact same_escrowPS ..
            · exact same_checkWitDel n ⟨k, e, _, _, wits, couple, eager, isLocal⟩ toad _

/-- Effect of an acceptance on the database. `k1` is the new key state, `v` what was verified, `w` the witnesses logged. -/
structure Acc (e : Event) (k1 : Kever) (v : Verified) (w : List Id) (a b : Db) : Prop where
  kels : b.kels = upd2 a.kels e.pre e.sn (ioAdd (a.kels e.pre e.sn) e.said)
  fels : b.fels = upd a.fels e.pre (a.fels e.pre ++ [e.said])
  fons : b.fons = upd2 a.fons e.pre e.said (some (a.fels e.pre).length)
  states : b.states = upd a.states k1.pre (some k1)
  mono : ∀ p d x, a.evts p d = some x → b.evts p d = some x
  only : ∀ p d x, b.evts p d = some x → a.evts p d = some x ∨ (p = e.pre ∧ d = e.said ∧ x = e)
  stored : ∃ x, b.evts e.pre e.said = some x
  sigs : ∀ p d s, s ∈ a.sigs p d → s ∈ b.sigs p d
  wigs : ∀ p d s, s ∈ a.wigs p d → s ∈ b.wigs p d
  sigsIn : ∀ s, s ∈ v.sigs → s ∈ b.sigs e.pre e.said
  wigsIn : ∀ s, s ∈ v.wigs → s ∈ b.wigs e.pre e.said
  wits : b.wits = upd2 a.wits e.pre e.said (ioPut (a.wits e.pre e.said) w)

theorem Acc.of_same {e : Event} {k1 : Kever} {v : Verified} {w : List Id} {a b c : Db} (h : Same e a b)
    (g : Acc e k1 v w b c) : Acc e k1 v w a c :=
  ⟨by rw [g.kels, h.kels], by rw [g.fels, h.fels], by rw [g.fons, h.fons, h.fels], by rw [g.states, h.states],
   fun p d x hx => g.mono p d x (h.mono p d x hx),
   fun p d x hx => (g.only p d x hx).elim (fun h' => h.only p d x h') .inr, g.stored,
   fun p d s hs => g.sigs p d s (h.sigs p d s hs), fun p d s hs => g.wigs p d s (h.wigs p d s hs), g.sigsIn, g.wigsIn,
   by rw [g.wits, h.wits]⟩

/-- The part of `logEvent` before the first-seen log is touched. -/
def Node.logPre (n : Node) (k : Kever) (e : Event) (ss ws : List Sig) (wits : List Id) (couple : Option Couple)
    (isLocal : Bool) : Db :=
  (n.logAes k e wits couple ((((n.db.putSigs e ss).putWigs e ws).putWits e wits).putEvt e)).esr e isLocal

/-- Effect of the first writes of `logEvent`. -/
structure Pre (e : Event) (ss ws : List Sig) (w : List Id) (a b : Db) : Prop where
  kels : b.kels = a.kels
  fels : b.fels = a.fels
  fons : b.fons = a.fons
  states : b.states = a.states
  mono : ∀ p d x, a.evts p d = some x → b.evts p d = some x
  only : ∀ p d x, b.evts p d = some x → a.evts p d = some x ∨ (p = e.pre ∧ d = e.said ∧ x = e)
  stored : ∃ x, b.evts e.pre e.said = some x
  sigs : ∀ p d s, s ∈ a.sigs p d → s ∈ b.sigs p d
  wigs : ∀ p d s, s ∈ a.wigs p d → s ∈ b.wigs p d
  sigsIn : ∀ s, s ∈ ss → s ∈ b.sigs e.pre e.said
  wigsIn : ∀ s, s ∈ ws → s ∈ b.wigs e.pre e.said
  wits : b.wits = upd2 a.wits e.pre e.said (ioPut (a.wits e.pre e.said) w)

theorem pre_logPre (n : Node) (k : Kever) (e : Event) (ss ws : List Sig) (wits : List Id) (couple : Option Couple)
    (isLocal : Bool) : Pre e ss ws wits n.db (n.logPre k e ss ws wits couple isLocal) := by
  have h1 := (same_putSigs e n.db ss).trans (same_putWigs e _ ws)
  have h2 := ((same_putEvt e (((n.db.putSigs e ss).putWigs e ws).putWits e wits)).trans
    (same_logAes n k e wits couple _)).trans (same_esr e _ isLocal)
  refine ⟨h2.kels.trans h1.kels, h2.fels.trans h1.fels, h2.fons.trans h1.fons, h2.states.trans h1.states,
    fun p d x hx => h2.mono p d x (h1.mono p d x hx), ?_, ?_, fun p d s hs => h2.sigs p d s (h1.sigs p d s hs),
    fun p d s hs => h2.wigs p d s (h1.wigs p d s hs), ?_, ?_, ?_⟩
  · intro p d x hx
    exact (h2.only p d x hx).elim (fun h' => h1.only p d x h') .inr
  · obtain ⟨x, hx⟩ := putEvt_stored e (((n.db.putSigs e ss).putWigs e ws).putWits e wits)
    exact ⟨x, (same_esr e _ isLocal).mono _ _ _ ((same_logAes n k e wits couple _).mono _ _ _ hx)⟩
  · intro s hs
    refine h2.sigs _ _ _ ?_
    simp only [Db.putWits, Db.putWigs, Db.putSigs, upd2, and_self, if_true]
    exact (mem_ioPut _ _ _).2 (.inr hs)
  · intro s hs
    refine h2.wigs _ _ _ ?_
    simp only [Db.putWits, Db.putWigs, Db.putSigs, upd2, and_self, if_true]
    exact (mem_ioPut _ _ _).2 (.inr hs)
  · rw [Node.logPre, h2.wits]; rfl

theorem same_logPre (n : Node) (k : Kever) (e : Event) (ss ws : List Sig) (couple : Option Couple)
    (isLocal : Bool) : Same e n.db (n.logPre k e ss ws [] couple isLocal) := by
  have h := pre_logPre n k e ss ws [] couple isLocal
  exact ⟨h.kels, h.fels, h.fons, h.states, h.mono, h.only, h.sigs, h.wigs, by rw [h.wits]; exact upd2_same ..⟩

theorem logEvent_first (n : Node) (k : Kever) (e : Event) (ss ws : List Sig) (wits : List Id) (couple : Option Couple)
    (isLocal : Bool) :
    n.logEvent k e ss ws wits true couple isLocal =
      (let a := n.logPre k e ss ws wits couple isLocal
       let b := { a with fels := upd a.fels e.pre (a.fels e.pre ++ [e.said]) }
       let c := { b with fons := upd2 b.fons e.pre e.said (some ((b.fels e.pre).length - 1)) }
       { c with kels := upd2 c.kels e.pre e.sn (ioAdd (c.kels e.pre e.sn) e.said) }) := rfl

theorem logEvent_again (n : Node) (k : Kever) (e : Event) (ss ws : List Sig) (wits : List Id) (couple : Option Couple)
    (isLocal : Bool) :
    n.logEvent k e ss ws wits false couple isLocal =
      (let a := n.logPre k e ss ws wits couple isLocal
       { a with kels := upd2 a.kels e.pre e.sn (ioAdd (a.kels e.pre e.sn) e.said) }) := rfl

theorem acc_log (n : Node) (k k1 : Kever) (e : Event) (v : Verified) (wits : List Id) (couple : Option Couple)
    (isLocal : Bool) : Acc e k1 v wits n.db ((n.logEvent k e v.sigs v.wigs wits true couple isLocal).pinState k1) := by
  have hs := pre_logPre n k e v.sigs v.wigs wits couple isLocal
  rw [logEvent_first]
  generalize n.logPre k e v.sigs v.wigs wits couple isLocal = a at *
  refine ⟨?_, ?_, ?_, ?_, hs.mono, hs.only, hs.stored, hs.sigs, hs.wigs, hs.sigsIn, hs.wigsIn, hs.wits⟩
  · simp [Db.pinState, hs.kels]
  · simp [Db.pinState, hs.fels]
  · simp [Db.pinState, hs.fons, hs.fels, upd]
  · simp [Db.pinState, hs.states]

theorem same_logAgain (n : Node) (k : Kever) (e : Event) (ss ws : List Sig) (couple : Option Couple)
    (isLocal : Bool) (hm : e.said ∈ n.db.kels e.pre e.sn) :
    Same e n.db (n.logEvent k e ss ws [] false couple isLocal) := by
  have hs := same_logPre n k e ss ws couple isLocal
  rw [logEvent_again]
  generalize n.logPre k e ss ws [] couple isLocal = a at *
  refine hs.trans (.of_eq ?_ rfl rfl rfl rfl rfl rfl rfl)
  simp only
  rw [← hs.kels] at hm
  rw [ioAdd, if_pos hm, upd2_same]

/-! ## Conditions of acceptance -/

/-- The event was accepted as inception of a new identifier. -/
structure AccInc (env : Env) (n : Node) (e : Event) (ss ws : List Sig) (couple : Option Couple) (eager isLocal : Bool)
    (k1 : Kever) (v : Verified) : Prop where
  fresh : n.kevers e.pre = none
  okPre : env.okPre e.pre = true
  ilk : e.ilk = .icp ∨ e.ilk = .dip
  inc : ∃ k, incept env e = .ok k ∧
    ∃ db, n.valSigsWigsDel env k e ss ws e.keys e.kt e.toad e.wits couple eager isLocal = (db, .ok v) ∧
      k1 = { k with fn := (n.db.fels e.pre).length }

/-- Position in the log at which `update` is reached. -/
def InSeq (k : Kever) (e : Event) : Prop :=
  e.sn = k.sn + 1 ∨ (e.ilk = .rot ∧ k.lastS < e.sn ∧ e.sn ≤ k.sn + 1) ∨ (e.ilk = .drt ∧ k.lastS ≤ e.sn ∧ e.sn ≤ k.sn + 1)

/-- The event was accepted as rotation of `k`. -/
structure AccRot (env : Env) (n : Node) (e : Event) (ss ws : List Sig) (couple : Option Couple) (eager isLocal : Bool)
    (k1 k : Kever) (v : Verified) (wits : List Id) : Prop where
  known : n.kevers e.pre = some k
  ilk : e.ilk = .rot ∨ e.ilk = .drt
  seq : InSeq k e
  trans : k.transferable env = true
  pre : e.pre = k.pre
  deleg : k.delpre.isSome → e.ilk = .drt
  rot : ∃ cuts adds, rotate env n.db k e = .ok (wits, cuts, adds) ∧
    ∃ db, n.valSigsWigsDel env k e ss ws e.keys e.kt e.toad wits couple eager isLocal = (db, .ok v) ∧
      k1 = k.rotated e (n.db.fels e.pre).length wits cuts adds

/-- The event was accepted as interaction of `k`. -/
structure AccIxn (env : Env) (n : Node) (e : Event) (ss ws : List Sig) (eager isLocal : Bool)
    (k1 k : Kever) (v : Verified) : Prop where
  known : n.kevers e.pre = some k
  ilk : e.ilk = .ixn
  trans : k.transferable env = true
  pre : e.pre = k.pre
  estOnly : k.estOnly = false
  seq : e.sn = k.sn + 1
  prior : k.serder.said = e.prior
  val : ∃ db, n.valSigsWigsDel env k e ss ws k.keys k.kt k.toad k.wits none eager isLocal = (db, .ok v) ∧
      k1 = k.interacted e (n.db.fels e.pre).length

/-- One of the three. -/
def Accepts (env : Env) (n : Node) (e : Event) (ss ws : List Sig) (couple : Option Couple) (eager isLocal : Bool)
    (k1 : Kever) (v : Verified) (w : List Id) : Prop :=
  (AccInc env n e ss ws couple eager isLocal k1 v ∧ w = e.wits) ∨
  (∃ k, AccRot env n e ss ws couple eager isLocal k1 k v w) ∨
  ∃ k, AccIxn env n e ss ws eager isLocal k1 k v ∧ w = []

/-- Stored events are stored under their own identifier and digest. -/
def EvtOk (db : Db) : Prop := ∀ p d x, db.evts p d = some x → x.pre = p ∧ x.said = d

/-- Same node up to escrows and attachments. -/
structure SameN (e : Event) (n n' : Node) : Prop where
  db : Same e n.db n'.db
  kevers : n'.kevers = n.kevers
  prefixes : n'.prefixes = n.prefixes
  groups : n'.groups = n.groups
  mid : n'.mid = n.mid

/-- Node after an acceptance. -/
structure AccN (e : Event) (k1 : Kever) (v : Verified) (w : List Id) (n n' : Node) : Prop where
  db : Acc e k1 v w n.db n'.db
  kevers : n'.kevers = upd n.kevers e.pre (some k1)
  prefixes : n'.prefixes = n.prefixes
  groups : n'.groups = n.groups
  mid : n'.mid = n.mid

theorem sameN_of {e : Event} {n : Node} {db : Db} (h : Same e n.db db) : SameN e n { n with db := db } :=
  ⟨h, rfl, rfl, rfl, rfl⟩

theorem incept_eq (env : Env) (e : Event) (k : Kever) (h : incept env e = .ok k) :
    e.sn = 0 ∧ e.keys.length ≥ Thold.size e.kt ∧ (oset e.wits).length = e.wits.length ∧ toadOk e.toad e.wits = true ∧
    (env.transferable e.pre = false → e.ndigs = [] ∧ e.wits = [] ∧ e.anchors = false) ∧
    k = { pre := e.pre, sn := e.sn, fn := 0, serder := e, ilk := e.ilk, kt := e.kt, keys := e.keys, ndigs := e.ndigs,
          nt := e.nt, toad := e.toad, wits := e.wits, cuts := [], adds := [], estOnly := e.estOnly,
          doNotDelegate := e.doNotDelegate, lastS := e.sn, lastD := e.said,
          delpre := if e.ilk = .dip then e.delpre else none } := by
  unfold incept at h
  iterate 8 (split at h; exact absurd h (by simp))
  injection h with h
  rename_i h1 h2 h3 h4 h5 h6 h7 h8
  simp at h1 h3 h4 h5 h6 h7 h8
  refine ⟨h1, h3, h6, h7, ?_, h.symm⟩
  intro ht
  exact ⟨h4 ht, h5 ht, h8 ht⟩

theorem fetchEst_zero (db : Db) (p : Id) (x : Event) (hok : EvtOk db) (h : fetchEst db p 1 0 = some x) :
    (db.kels p 0).getLast? = some x.said ∧ x.pre = p ∧ x.ilk.est = true := by
  unfold fetchEst at h
  split at h
  · exact absurd h (by simp)
  · rename_i d hd
    split at h
    · exact absurd h (by simp)
    · rename_i y hy
      split at h
      · rename_i hest
        injection h with h; subst h
        have := hok p d y hy
        exact ⟨by rw [hd, this.2], this.1, hest⟩
      · split at h
        · exact absurd h (by simp)
        · simp [fetchEst] at h

/-- **What `processEvent` can do.** Either the logs, the key states and the configuration are as before (the event store may
have gained the event), or the event was accepted under the stated conditions and the call succeeded. -/
theorem processEvent_cases (env : Env) (n : Node) (e : Event) (ss ws : List Sig) (couple : Option Couple)
    (eager isLocal : Bool) (hok : EvtOk n.db) :
    SameN e n (n.processEvent env e ss ws couple eager isLocal).1 ∨
    ((n.processEvent env e ss ws couple eager isLocal).2 = .ok () ∧
      ∃ k1 v w, k1.pre = e.pre ∧ AccN e k1 v w n (n.processEvent env e ss ws couple eager isLocal).1 ∧
        Accepts env n e ss ws couple eager isLocal k1 v w) := by
  have hrefl : SameN e n n := ⟨.rfl', rfl, rfl, rfl, rfl⟩
  unfold Node.processEvent
  split
  · exact .inl hrefl
  rename_i hpre
  split
  · -- unknown identifier
    rename_i hk
    split
    · rename_i hilk
      unfold Node.inception
      split
      · exact .inl hrefl
      · split
        · exact .inl hrefl
        · rename_i k hinc
          split
          · rename_i db x hv
            have := same_val env n k e ss ws e.keys e.kt e.toad e.wits couple eager isLocal
            rw [hv] at this
            exact .inl (sameN_of this)
          · rename_i db v hv
            have hs := same_val env n k e ss ws e.keys e.kt e.toad e.wits couple eager isLocal
            rw [hv] at hs
            obtain ⟨_, _, _, _, _, hkeq⟩ := incept_eq env e k hinc
            refine .inr ⟨rfl, { k with fn := (db.fels e.pre).length }, v, e.wits, by rw [hkeq], ⟨?_, rfl, rfl, rfl, rfl⟩, ?_⟩
            · exact Acc.of_same hs (acc_log { n with db := db } k _ e v e.wits v.couple isLocal)
            · exact .inl ⟨⟨hk, by simpa using hpre, hilk, k, hinc, db, hv, by rw [hs.fels]⟩, rfl⟩
    · exact .inl (sameN_of (same_escrowOO ..))
  · rename_i k hk
    split
    · -- another inception
      unfold Node.reIncept
      split
      · exact .inl hrefl
      · rename_i hsn
        have hsn0 : e.sn = 0 := by simpa using hsn
        split
        · exact .inl hrefl
        · rename_i es hes
          split
          · rename_i hsaid
            simp only
            split
            · refine .inl (sameN_of (same_logAgain _ _ _ _ _ _ _ ?_))
              rw [hsn0] at hes ⊢
              have := fetchEst_zero n.db e.pre es hok hes
              rw [← hsaid]
              exact List.mem_of_getLast? this.1
            · exact .inl hrefl
          · exact .inl (sameN_of (same_escrowLD ..))
    · rename_i hilk
      split
      · exact .inl (sameN_of (same_escrowOO ..))
      · split
        · -- update
          rename_i hseq
          unfold Node.update
          split
          · exact .inl hrefl
          · rename_i htr
            have htr : k.transferable env = true := by simpa using htr
            split
            · exact .inl hrefl
            · rename_i hp
              have hp : e.pre = k.pre := by simpa using hp
              have hrot : ∀ hi : e.ilk = .rot ∨ e.ilk = .drt,
                  SameN e n (n.updateRot env k e ss ws couple eager isLocal).1 ∨
                  ((n.updateRot env k e ss ws couple eager isLocal).2 = .ok () ∧
                    ∃ k1 v w, k1.pre = e.pre ∧ AccN e k1 v w n (n.updateRot env k e ss ws couple eager isLocal).1 ∧
                      Accepts env n e ss ws couple eager isLocal k1 v w) := by
                intro hi
                unfold Node.updateRot
                split
                · exact .inl hrefl
                · rename_i hdel
                  split
                  · exact .inl hrefl
                  · rename_i wits cuts adds hr
                    have hs := same_val env n k e ss ws e.keys e.kt e.toad wits couple eager isLocal
                    split
                    · rename_i hv; rw [hv] at hs; exact .inl (sameN_of hs)
                    · rename_i db v hv
                      rw [hv] at hs
                      refine .inr ⟨rfl, k.rotated e (db.fels e.pre).length wits cuts adds, v, wits, hp.symm,
                        ⟨?_, rfl, rfl, rfl, rfl⟩, ?_⟩
                      rotate_left
                      · exact .inr (.inl ⟨k, hk, hi, hseq, htr, hp,
                          fun hd => Decidable.byContradiction fun hne => hdel ⟨hd, hne⟩,
                          cuts, adds, hr, db, hv, by rw [hs.fels]⟩)
                      · exact Acc.of_same hs (acc_log { n with db := db } k _ e v wits v.couple isLocal)
              split
              · rename_i hi; exact hrot (.inl hi)
              · rename_i hi; exact hrot (.inr hi)
              · rename_i hi
                unfold Node.updateIxn
                split
                · exact .inl hrefl
                · rename_i heo
                  split
                  · exact .inl hrefl
                  · rename_i hsn
                    split
                    · exact .inl hrefl
                    · rename_i hprior
                      have hs := same_val env n k e ss ws k.keys k.kt k.toad k.wits none eager isLocal
                      split
                      · rename_i hv; rw [hv] at hs; exact .inl (sameN_of hs)
                      · rename_i db v hv
                        rw [hv] at hs
                        refine .inr ⟨rfl, k.interacted e (db.fels e.pre).length, v, [], hp.symm,
                          ⟨?_, rfl, rfl, rfl, rfl⟩, ?_⟩
                        rotate_left
                        · exact .inr (.inr ⟨k, ⟨hk, hi, htr, hp, by simpa using heo, by simpa using hsn,
                            by simpa using hprior, db, hv, by rw [hs.fels]⟩, rfl⟩)
                        · exact Acc.of_same hs (acc_log { n with db := db } k _ e v [] none true)
              · exact .inl hrefl
        · -- duplicate or duplicitous
          unfold Node.reEvent
          split
          · rename_i hlast
            split
            · exact .inl hrefl
            · simp only
              split
              · exact .inl hrefl
              · split
                · exact .inl hrefl
                · split
                  · exact .inl (sameN_of (same_logAgain _ _ _ _ _ _ _ (List.mem_of_getLast? hlast)))
                  · exact .inl hrefl
          · exact .inl (sameN_of (same_escrowLD ..))

end Verif.Kel
