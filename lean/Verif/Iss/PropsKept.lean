import Verif.Iss.PropsDone

/-!
# Properties of the issuing workflow: nothing is lost, and what becomes of what waits
-/

namespace Verif.Iss

open Verif.Kel (Id Dig Event Couple upd upd2 NoColl)
open Verif.Tel (TEvt Reger NoCollT telGet)
open Verif.Vry (VNode VEnv VInp Cred Anchor NoCollC)
open Verif.Grp (Num completed)

variable {env : VEnv}

/-! ## C154: nothing asked for is lost -/

theorem pend_add {w : World} {k : Slot} (h : Pending w k ∨ Done w k) (x : Wr)
    (hx : (∀ j, x ≠ .tpweRem j) ∧ (∀ j, x ≠ .tmseRem j) ∧ (∀ j, x ≠ .tedeRem j)) : Pending (w.apply x) k ∨ Done (w.apply x) k := by
  rcases h with h | h
  · refine .inl ?_
    rcases h with ⟨y, h⟩ | ⟨d, y, h⟩ | ⟨y, h⟩
    · refine .inl ⟨y, ?_⟩
      cases x with
      | tpweAdd j z => exact mem_setAdd.2 (.inr h)
      | tpweRem j => exact absurd rfl (hx.1 j)
      | ctelPut j d => simp only [World.apply]; split <;> exact h
      | ccrdPut j d => simp only [World.apply]; split <;> exact h
      | _ => exact h
    · refine .inr (.inl ⟨d, y, ?_⟩)
      cases x with
      | tmseAdd j z => exact mem_setAdd.2 (.inr h)
      | tmseRem j => exact absurd rfl (hx.2.1 j)
      | ctelPut j d => simp only [World.apply]; split <;> exact h
      | ccrdPut j d => simp only [World.apply]; split <;> exact h
      | _ => exact h
    · refine .inr (.inr ⟨y, ?_⟩)
      cases x with
      | tedeAdd j z => exact mem_setAdd.2 (.inr h)
      | tedeRem j => exact absurd rfl (hx.2.2 j)
      | ctelPut j d => simp only [World.apply]; split <;> exact h
      | ccrdPut j d => simp only [World.apply]; split <;> exact h
      | _ => exact h
  · exact .inr (ctel_apply h x)

theorem pend_adds {w : World} {k : Slot} (h : Pending w k ∨ Done w k) (ws : List Wr)
    (hx : ∀ x ∈ ws, (∀ j, x ≠ .tpweRem j) ∧ (∀ j, x ≠ .tmseRem j) ∧ (∀ j, x ≠ .tedeRem j)) : Pending (w.applyAll ws) k ∨ Done (w.applyAll ws) k :=
  writes_keep (P := fun w => Pending w k ∨ Done w k) (L := fun x => (∀ j, x ≠ .tpweRem j) ∧ (∀ j, x ≠ .tmseRem j) ∧ (∀ j, x ≠ .tedeRem j))
    (fun _ x h hx => pend_add h x hx) ws hx h

theorem witness_writes (w : World) (x : Slot × Val) : (witness w x).1 = [] ∨ (witness w x).1 = [.tpweRem x.1, .tedeAdd x.1 x.2] := by
  unfold witness
  split
  · exact .inl rfl
  split
  · exact .inr rfl
  split
  · split
    · exact .inl rfl
    · split
      · exact .inr rfl
      · exact .inl rfl
  · exact .inl rfl

theorem pend_moved {w : World} {k : Slot} (h : Pending w k ∨ Done w k) (x : Slot × Val) :
    Pending (w.applyAll [.tpweRem x.1, .tedeAdd x.1 x.2]) k ∨ Done (w.applyAll [.tpweRem x.1, .tedeAdd x.1 x.2]) k := by
  by_cases hk : k = x.1
  · subst hk
    exact .inl (.inr (.inr ⟨x.2, mem_setAdd.2 (.inl rfl)⟩))
  rcases h with (⟨y, h⟩ | ⟨d, y, h⟩ | ⟨y, h⟩) | h
  · exact .inl (.inl ⟨y, mem_remKey.2 ⟨h, hk⟩⟩)
  · exact .inl (.inr (.inl ⟨d, y, h⟩))
  · exact .inl (.inr (.inr ⟨y, mem_setAdd.2 (.inr h)⟩))
  · exact .inr h

theorem pend_witness {w : World} {k : Slot} (h : Pending w k ∨ Done w k) (x : Slot × Val) :
    Pending (w.applyAll (witness w x).1) k ∨ Done (w.applyAll (witness w x).1) k := by
  rcases witness_writes w x with hw | hw <;> rw [hw]
  · exact h
  · exact pend_moved h x

theorem pend_multisig {w : World} {k : Slot} (h : Pending w k ∨ Done w k) (x : (Slot × Dig) × Val) (hc : ∀ d, w.cgms x.2.1 x.2.2.1 = some d → d = x.2.2.2) :
    Pending (w.applyAll (multisig w x).1) k ∨ Done (w.applyAll (multisig w x).1) k := by
  unfold multisig
  split
  · rename_i hm
    exfalso
    unfold completed at hm
    split at hm
    · cases hm
    · rename_i c hcg
      dsimp only at hm
      rw [if_pos (hc c hcg)] at hm; cases hm
  · exact h
  · by_cases hk : k = x.1.1
    · subst hk
      exact .inl (.inr (.inr ⟨(x.2.1, number x.2.2.1.num, x.2.2.2), mem_setAdd.2 (.inl rfl)⟩))
    rcases h with (⟨y, h⟩ | ⟨d, y, h⟩ | ⟨y, h⟩) | h
    · exact .inl (.inl ⟨y, h⟩)
    · refine .inl (.inr (.inl ⟨d, y, mem_remKey.2 ⟨h, fun he => hk ?_⟩⟩))
      dsimp only at he
      rw [← he]
    · exact .inl (.inr (.inr ⟨y, mem_setAdd.2 (.inr h)⟩))
    · exact .inr h

theorem done_put (w : World) (k : Slot) (d : Dig) : Done (w.apply (.ctelPut k d)) k := by
  unfold Done
  simp only [World.apply]
  split
  · simp [upd2]
  · rename_i hh; rw [hh]; rfl

theorem pend_disseminate {w : World} {k : Slot} (h : Pending w k ∨ Done w k) (x : Slot × Val) :
    Pending (w.applyAll (disseminate w x).1) k ∨ Done (w.applyAll (disseminate w x).1) k := by
  unfold disseminate
  split
  · exact h
  · rename_i d hd
    generalize (⟨x.2.1, x.1.1, (w.v.t.reg.tels x.1.1).filter fun y => decide (x.1.2 ≤ y.1)⟩ : Msg) = m
    show Pending (((w.apply (.tedeRem x.1)).apply (.pmsg m)).apply (.ctelPut x.1 x.2.2.2)) k ∨ Done (((w.apply (.tedeRem x.1)).apply (.pmsg m)).apply (.ctelPut x.1 x.2.2.2)) k
    by_cases hk : k = x.1
    · subst hk
      exact .inr (done_put _ _ _)
    refine pend_add ?_ _ (by simp)
    refine pend_add ?_ _ (by simp)
    rcases h with (⟨y, h⟩ | ⟨d, y, h⟩ | ⟨y, h⟩) | h
    · exact .inl (.inl ⟨y, h⟩)
    · exact .inl (.inr (.inl ⟨d, y, h⟩))
    · exact .inl (.inr (.inr ⟨y, mem_remKey.2 ⟨h, hk⟩⟩))
    · exact .inr h

/-- Passes of the Registrar add nothing for groups. -/
theorem tmse_sub {w : World} {ws : List Wr} (h : ∀ x ∈ ws, ∀ k v, x ≠ .tmseAdd k v) : ∀ y ∈ (w.applyAll ws).tmse, y ∈ w.tmse := by
  induction ws generalizing w with
  | nil => exact fun y h => h
  | cons x ws ih =>
    intro y hy
    have hy := ih (w := w.apply x) (fun z hz => h z (by simp [hz])) y hy
    cases x with
    | tmseAdd k v => exact absurd rfl (h _ (by simp) k v)
    | tmseRem k => exact (mem_remKey.1 hy).1
    | ctelPut j d => simp only [World.apply] at hy; split at hy <;> exact hy
    | ccrdPut j d => simp only [World.apply] at hy; split at hy <;> exact hy
    | _ => exact hy

theorem pend_registrar {w : World} {k : Slot} (hc : ∀ x ∈ w.tmse, ∀ d, w.cgms x.2.1 x.2.2.1 = some d → d = x.2.2.2) (h : Pending w k ∨ Done w k) :
    Pending (w.applyAll (registrar w).1) k ∨ Done (w.applyAll (registrar w).1) k := by
  refine (registrar_whole (P := fun w' => (Pending w' k ∨ Done w' k) ∧ ∀ y ∈ w'.tmse, y ∈ w.tmse) (fun w' _ h' x _ => ?_) (fun w1 _ h1 w' fr h' x hx => ?_)
    (fun w1 _ _ w' _ h' x _ => ?_) ⟨h, fun _ h => h⟩).1
  · refine ⟨pend_witness h'.1 x, fun y hy => h'.2 y (tmse_sub ?_ y hy)⟩
    rcases witness_writes w' x with hw | hw <;> rw [hw] <;> simp
  · refine ⟨pend_multisig h'.1 x (by rw [fr.cgms]; exact hc x (h1.2 x hx)), fun y hy => h'.2 y (tmse_sub ?_ y hy)⟩
    unfold multisig
    split <;> simp
  · refine ⟨pend_disseminate h'.1 x, fun y hy => h'.2 y (tmse_sub ?_ y hy)⟩
    unfold disseminate
    split <;> simp

theorem ask_adds (w : World) (a : Ask) : ∀ x ∈ (ask w a).1, (∀ j, x ≠ .tpweRem j) ∧ (∀ j, x ≠ .tmseRem j) ∧ (∀ j, x ≠ .tedeRem j) := by
  unfold ask
  split
  · simp
  split
  · split <;> simp
  · split <;> simp

theorem pend_step {w : World} {k : Slot} (h : Pending w k ∨ Done w k) {i : Inp} (g : Calm w i) : Pending (w.step env i) k ∨ Done (w.step env i) k := by
  cases i with
  | ask a => exact pend_adds h _ (ask_adds w a)
  | crashAsk a n => exact pend_adds (w := w) h _ (fun x hx => ask_adds w a x (mem_take hx))
  | registrar => exact pend_registrar g h
  | crashRegistrar n => exact absurd g (by simp [Calm])
  | counseled p n d => simp only [World.step]; split <;> exact h
  | published => simp only [World.step, publish]; split <;> (try split) <;> exact h
  | credentialer =>
    have := credentialer_kinds (w := w) (n := (Iss.credentialer w).1.length) (P := fun w => Pending w k ∨ Done w k)
      (fun w x h hx => pend_add h x (by rcases hx with ⟨_, rfl⟩ | ⟨_, _, rfl⟩ <;> simp)) h
    rwa [take_self] at this
  | crashCredentialer n =>
    exact credentialer_kinds (w := w) (n := n) (P := fun w => Pending w k ∨ Done w k)
      (fun w x h hx => pend_add h x (by rcases hx with ⟨_, rfl⟩ | ⟨_, _, rfl⟩ <;> simp)) h
  | _ => exact h

/-- A call without exception is entered. -/
theorem ask_pends {w : World} {a : Ask} (h : (ask w a).2 = none) : Pending (w.applyAll (ask w a).1) a.slot := by
  unfold ask at h ⊢
  split
  · rename_i hr; rw [hr] at h; cases h
  rename_i p hp
  rw [hp] at h
  dsimp only at h
  split
  · rename_i hh
    rw [if_pos hh] at h
    split
    · exact .inr (.inl ⟨_, _, mem_setAdd.2 (.inl rfl)⟩)
    · rename_i hs; rw [if_neg hs] at h; cases h
  · rename_i hh
    rw [if_neg hh] at h
    split
    · rename_i hk; rw [hk] at h; cases h
    · exact .inl ⟨_, mem_setAdd.2 (.inl rfl)⟩

/-- **C154, partly.** What a call asked for waits or is entered as complete ever after, over restarts of the process, stops within calls and within passes of the Credentialer, and
events of all sorts, provided that passes of the Registrar are not interrupted and that groups complete no other event with the number than the one given. Missing: see
`c154_crash_lost` and `c154_crash_lost_group` (stops between two writes of a pass), `c154_group_dropped` (the group completed another event). -/
theorem c154_kept_partial {w w' : World} {a : Ask} {p : Id} {sn : Nat} (hf : a.For p sn) (ha : (ask w a).2 = none) (h : Hist env Calm (w.step env (.ask a)) w') :
    Pending w' (p, sn) ∨ Done w' (p, sn) := by
  rw [← for_slot hf]
  induction h with
  | nil => exact .inl (ask_pends ha)
  | step i _ g ih => exact pend_step ih g

/-- **C154, for good.** Once it is entered as complete it stays so, whatever happens. -/
theorem c154_done_kept {G : World → Inp → Prop} {w w' : World} (h : Hist env G w w') {k : Slot} (hd : Done w k) : Done w' k := by
  induction h with
  | nil => exact hd
  | step i _ _ ih => exact done_step ih i

/-! ## C155: what waits completes -/

/-- What the entries for `k` of controller `p` wait for has come: the receipts are there and collected, or the group completed the event. -/
def Ready (w : World) (k : Slot) (p : Id) : Prop :=
  (∃ n d, (k, (p, n, d)) ∈ w.tpwe ∧ ∃ kv, w.v.t.node.kevers p = some kv ∧ (kv.wits = [] ∨ ((w.v.t.node.db.wigs p d).length = kv.wits.length ∧ (p, n.num) ∈ w.rcues))) ∨
  (∃ s n d, ((k, s), (p, n, d)) ∈ w.tmse ∧ w.cgms p n = some d) ∨
  ∃ x, (k, (p, x)) ∈ w.tede

theorem tede_keep {w : World} {y : Slot × Val} (h : y ∈ w.tede) {ws : List Wr} (hx : ∀ x ∈ ws, ∀ j, x ≠ .tedeRem j) : y ∈ (w.applyAll ws).tede :=
  writes_keep (P := fun w => y ∈ w.tede) (L := fun x => ∀ j, x ≠ .tedeRem j) (fun w x h hx => by
    cases x with
    | tedeAdd j z => exact mem_setAdd.2 (.inr h)
    | tedeRem j => exact absurd rfl (hx j)
    | ctelPut j d => simp only [World.apply]; split <;> exact h
    | ccrdPut j d => simp only [World.apply]; split <;> exact h
    | _ => exact h) ws hx h

theorem witness_tede (w : World) (x : Slot × Val) : ∀ y ∈ (witness w x).1, ∀ j, y ≠ .tedeRem j := by
  rcases witness_writes w x with hw | hw <;> rw [hw] <;> simp

theorem multisig_tede (w : World) (x : (Slot × Dig) × Val) : ∀ y ∈ (multisig w x).1, ∀ j, y ≠ .tedeRem j := by
  unfold multisig
  split <;> simp

theorem tmse_keep {w : World} {y : (Slot × Dig) × Val} (h : y ∈ w.tmse) {ws : List Wr} (hx : ∀ x ∈ ws, ∀ j, x ≠ .tmseRem j) : y ∈ (w.applyAll ws).tmse :=
  writes_keep (P := fun w => y ∈ w.tmse) (L := fun x => ∀ j, x ≠ .tmseRem j) (fun w x h hx => by
    cases x with
    | tmseAdd j z => exact mem_setAdd.2 (.inr h)
    | tmseRem j => exact absurd rfl (hx j)
    | ctelPut j d => simp only [World.apply]; split <;> exact h
    | ccrdPut j d => simp only [World.apply]; split <;> exact h
    | _ => exact h) ws hx h

/-- A message of controller `p` with entry `(sn, d)` of the log of `q` is in a list. -/
def Queued (l : List Msg) (p q : Id) (sn : Nat) (d : Dig) : Prop := ∃ m ∈ l, m.pre = p ∧ m.said = q ∧ (sn, d) ∈ m.evts

theorem queued_apply {w : World} {p q : Id} {sn : Nat} {d : Dig} (h : Queued w.pmsgs p q sn d) (x : Wr) : Queued (w.apply x).pmsgs p q sn d := by
  obtain ⟨m, h1, h2⟩ := h
  refine ⟨m, ?_, h2⟩
  cases x with
  | pmsg m' => exact List.mem_append_left _ h1
  | ctelPut j d => simp only [World.apply]; split <;> exact h1
  | ccrdPut j d => simp only [World.apply]; split <;> exact h1
  | _ => exact h1

theorem queued_applyAll {w : World} {p q : Id} {sn : Nat} {d : Dig} (h : Queued w.pmsgs p q sn d) (ws : List Wr) : Queued (w.applyAll ws).pmsgs p q sn d :=
  writes_keep (P := fun w => Queued w.pmsgs p q sn d) (L := fun _ => True) (fun _ x h _ => queued_apply h x) ws (fun _ _ => trivial) h

/-- **C155, done.** When the event is in its log and what its entry waits for has come, the next pass of the Registrar that raises nothing enters it as complete and gives the log from
that event on to the WitnessPublisher. -/
theorem c155_done {w : World} {k : Slot} {p : Id} {d : Dig} (he : (registrar w).2 = none) (hr : Ready w k p) (ho : (w.habs p).isSome = true)
    (hl : telGet (w.v.t.reg.tels k.1) k.2 = some d) :
    Done (w.step env .registrar) k ∧ Queued (w.step env .registrar).pmsgs p k.1 k.2 d := by
  obtain ⟨w1, w2, e1, n1, e2, n2, n3, e3⟩ := registrar_parts he
  have f1 : Frame w w1 := by rw [e1]; exact frame_applyAll _ _
  have f2 : Frame w w2 := by rw [e2]; exact f1.trans (frame_applyAll _ _)
  -- after the first pass
  have h1 : (∃ s n d, ((k, s), (p, n, d)) ∈ w1.tmse ∧ w1.cgms p n = some d) ∨ ∃ x, (k, (p, x)) ∈ w1.tede := by
    rcases hr with ⟨n, dk, hm, kv, hk, hc⟩ | ⟨s, n, dk, hm, hc⟩ | ⟨x, hx⟩
    · right
      refine ⟨(n, dk), ?_⟩
      rw [e1]
      refine pass_reach (Q := fun w' => (k, (p, n, dk)) ∈ w'.tede) _ n1 (fun w' _ h' x _ => tede_keep h' (witness_tede w' x)) (.inr ⟨_, hm, fun w' fr _ => ?_⟩)
      have : (witness w' (k, (p, n, dk))).1 = [.tpweRem k, .tedeAdd k (p, n, dk)] := by
        unfold witness
        dsimp only
        rw [fr.node, fr.habs, fr.rcues, hk]
        dsimp only
        rcases hc with hc | ⟨hc, hq⟩
        · rw [if_pos hc]
        · split
          · rfl
          · cases hh : w.habs p with
            | none => rw [hh] at ho; cases ho
            | some b => simp [hc, hq]
      rw [this]
      exact mem_setAdd.2 (.inl rfl)
    · left
      refine ⟨s, n, dk, ?_, by rw [f1.cgms]; exact hc⟩
      rw [e1]
      exact pass_whole (P := fun w' => ((k, s), (p, n, dk)) ∈ w'.tmse) _ (fun w' _ h' x _ => tmse_keep h' (by rcases witness_writes w' x with hw | hw <;> rw [hw] <;> simp)) hm
    · right
      refine ⟨x, ?_⟩
      rw [e1]
      exact pass_whole (P := fun w' => (k, (p, x)) ∈ w'.tede) _ (fun w' _ h' y _ => tede_keep h' (witness_tede w' y)) hx
  -- after the second
  have h2 : ∃ x, (k, (p, x)) ∈ w2.tede := by
    rcases h1 with ⟨s, n, dk, hm, hc⟩ | ⟨x, hx⟩
    · refine ⟨(number n.num, dk), ?_⟩
      rw [e2]
      refine pass_reach (Q := fun w' => (k, (p, number n.num, dk)) ∈ w'.tede) _ n2 (fun w' _ h' x _ => tede_keep h' (multisig_tede w' x)) (.inr ⟨_, hm, fun w' fr _ => ?_⟩)
      have hcc : completed (w'.cgms p n) (some dk) = .ok true := by
        rw [fr.cgms, hc]
        simp [completed]
      unfold multisig
      dsimp only
      rw [hcc]
      exact mem_setAdd.2 (.inl rfl)
    · refine ⟨x, ?_⟩
      rw [e2]
      exact pass_whole (P := fun w' => (k, (p, x)) ∈ w'.tede) _ (fun w' _ h' y _ => tede_keep h' (multisig_tede w' y)) hx
  obtain ⟨x, hx⟩ := h2
  show Done (w.applyAll (registrar w).1) k ∧ Queued (w.applyAll (registrar w).1).pmsgs p k.1 k.2 d
  rw [e3]
  refine pass_reach (Q := fun w' => Done w' k ∧ Queued w'.pmsgs p k.1 k.2 d) _ n3 (fun w' _ h' y _ => ⟨ctel_applyAll h'.1 _, queued_applyAll h'.2 _⟩) (.inr ⟨_, hx, fun w' fr _ => ?_⟩)
  have hl' : telGet (w'.v.t.reg.tels k.1) k.2 = some d := by rw [fr.tels, f2.tels]; exact hl
  unfold disseminate
  dsimp only
  rw [hl']
  dsimp only
  refine ⟨done_put _ _ _, ?_⟩
  refine queued_apply (w := (w'.apply (.tedeRem k)).apply (.pmsg _)) ?_ (.ctelPut k x.2)
  exact ⟨_, List.mem_append_right _ (List.mem_singleton.2 rfl), rfl, rfl, List.mem_filter.2 ⟨telGet_mem hl', by simp⟩⟩

/-- Rounds of the WitnessPublisher. -/
def publishes (w : World) : Nat → World
  | 0 => w
  | n + 1 => publishes (publish w) n

theorem publish_frame (w : World) : (publish w).ctel = w.ctel ∧ (publish w).habs = w.habs := by
  unfold publish
  split
  · exact ⟨rfl, rfl⟩
  · split <;> exact ⟨rfl, rfl⟩

theorem publishes_ctel (w : World) (n : Nat) : (publishes w n).ctel = w.ctel := by
  induction n generalizing w with
  | zero => rfl
  | succ n ih => rw [publishes, ih, (publish_frame w).1]

theorem publish_pcues {w : World} {m : Msg} (h : m ∈ w.pcues) : m ∈ (publish w).pcues := by
  unfold publish
  split
  · exact h
  · split
    · exact h
    · exact List.mem_append_left _ h

theorem publishes_sent {w : World} {m : Msg} (h : m ∈ w.pmsgs ∨ m ∈ w.pcues) (ho : (w.habs m.pre).isSome = true) {n : Nat} (hn : w.pmsgs.length ≤ n) : m ∈ (publishes w n).pcues := by
  induction n generalizing w with
  | zero =>
    have : w.pmsgs = [] := List.length_eq_zero_iff.1 (by omega)
    rw [this] at h
    simpa [publishes] using h
  | succ n ih =>
    rw [publishes]
    refine ih ?_ (by rw [(publish_frame w).2]; exact ho) ?_
    · rcases h with h | h
      · unfold publish
        cases hp : w.pmsgs with
        | nil => rw [hp] at h; simp at h
        | cons y r =>
          rw [hp] at h
          dsimp only
          rcases List.mem_cons.1 h with rfl | h
          · cases hh : w.habs m.pre with
            | none => rw [hh] at ho; cases ho
            | some b => exact .inr (List.mem_append_right _ (by simp))
          · cases hh : w.habs y.pre with
            | none => exact .inl h
            | some b => exact .inl h
      · exact .inr (publish_pcues h)
    · unfold publish
      cases hp : w.pmsgs with
      | nil => simp [hp]
      | cons y r =>
        rw [hp] at hn
        simp only [List.length_cons] at hn
        dsimp only
        cases hh : w.habs y.pre with
        | none => show r.length ≤ n; omega
        | some b => show r.length ≤ n; omega

/-- **C155, reported.** And once the WitnessPublisher has gone through what it was given, the event is reported as complete. -/
theorem c155_complete {w : World} {k : Slot} {p : Id} {d : Dig} (hd : Done w k) (hq : Queued w.pmsgs p k.1 k.2 d) (ho : (w.habs p).isSome = true) {n : Nat} (hn : w.pmsgs.length ≤ n) :
    complete (publishes w n) k.1 k.2 = true := by
  obtain ⟨m, h1, h2, h3, _⟩ := hq
  unfold complete
  rw [publishes_ctel, hd]
  have := publishes_sent (.inl h1) (by rw [h2]; exact ho) hn
  simp only [Bool.true_and, sent, List.any_eq_true, decide_eq_true_eq]
  exact ⟨m, this, h3⟩

/-! ## What a restart does -/

/-- No call of the Registrar, and `p` has witnesses. -/
def Idle (p : Id) (w : World) (i : Inp) : Prop := (∀ a, ¬ i.asks a) ∧ ∃ k, w.v.t.node.kevers p = some k ∧ k.wits ≠ []

/-- What keeps an event waiting for receipts. -/
structure Stuck (k : Slot) (p : Id) (w : World) : Prop where
  rmsgs : w.rmsgs = []
  rcues : w.rcues = []
  tpwe : ∀ x ∈ w.tpwe, x.1 = k → x.2.1 = p
  tmse : ∀ x ∈ w.tmse, x.1.1 ≠ k
  tede : ∀ x ∈ w.tede, x.1 ≠ k
  ctel : w.ctel k.1 k.2 = none

/-- Writes about other events. -/
def Elsewhere (k : Slot) : Wr → Prop
  | .rmsg _ _ => False
  | .tpweAdd j _ => j ≠ k
  | .tmseAdd j _ => j.1 ≠ k
  | .tedeAdd j _ => j ≠ k
  | .ctelPut j _ => j ≠ k
  | _ => True

theorem Stuck.apply {k : Slot} {p : Id} {w : World} (h : Stuck k p w) {x : Wr} (hx : Elsewhere k x) : Stuck k p (w.apply x) := by
  cases x with
  | rmsg q sn => exact absurd hx (by simp [Elsewhere])
  | tpweAdd j z =>
    refine ⟨h.rmsgs, h.rcues, fun y hy hk => ?_, h.tmse, h.tede, h.ctel⟩
    rcases mem_setAdd.1 hy with rfl | hy
    · exact absurd hk hx
    · exact h.tpwe y hy hk
  | tpweRem j => exact ⟨h.rmsgs, h.rcues, fun y hy hk => h.tpwe y (mem_remKey.1 hy).1 hk, h.tmse, h.tede, h.ctel⟩
  | tmseAdd j z =>
    refine ⟨h.rmsgs, h.rcues, h.tpwe, fun y hy => ?_, h.tede, h.ctel⟩
    rcases mem_setAdd.1 hy with rfl | hy
    · exact hx
    · exact h.tmse y hy
  | tmseRem j => exact ⟨h.rmsgs, h.rcues, h.tpwe, fun y hy => h.tmse y (mem_remKey.1 hy).1, h.tede, h.ctel⟩
  | tedeAdd j z =>
    refine ⟨h.rmsgs, h.rcues, h.tpwe, h.tmse, fun y hy => ?_, h.ctel⟩
    rcases mem_setAdd.1 hy with rfl | hy
    · exact hx
    · exact h.tede y hy
  | tedeRem j => exact ⟨h.rmsgs, h.rcues, h.tpwe, h.tmse, fun y hy => h.tede y (mem_remKey.1 hy).1, h.ctel⟩
  | ctelPut j d =>
    simp only [World.apply]
    split
    · refine ⟨h.rmsgs, h.rcues, h.tpwe, h.tmse, h.tede, ?_⟩
      show upd2 w.ctel j.1 j.2 (some d) k.1 k.2 = none
      simp only [upd2]
      split
      · rename_i hh; exact absurd (Prod.ext hh.1.symm hh.2.symm) hx
      · exact h.ctel
    · exact h
  | ccrdPut d c => simp only [World.apply]; split <;> exact ⟨h.rmsgs, h.rcues, h.tpwe, h.tmse, h.tede, h.ctel⟩
  | _ => exact ⟨h.rmsgs, h.rcues, h.tpwe, h.tmse, h.tede, h.ctel⟩

theorem Stuck.writes {k : Slot} {p : Id} {w : World} (h : Stuck k p w) {ws : List Wr} (hx : ∀ x ∈ ws, Elsewhere k x) : Stuck k p (w.applyAll ws) :=
  writes_keep (fun _ _ h l => h.apply l) ws hx h

theorem Stuck.registrar {k : Slot} {p : Id} {w : World} (h : Stuck k p w) (hp : ∃ kv, w.v.t.node.kevers p = some kv ∧ kv.wits ≠ []) (n : Nat) :
    Stuck k p (w.applyAll ((Iss.registrar w).1.take n)) := by
  refine registrar_part (P := Stuck k p) (fun w' fr h' x hx n => h'.writes fun y hy => ?_) (fun w1 _ h1 w' fr h' x hx n => h'.writes fun y hy => ?_)
    (fun w1 _ h1 w' _ h' x hx n => h'.writes fun y hy => ?_) h n
  · have hy := mem_take hy
    by_cases hk : x.1 = k
    · have hxp := h.tpwe x hx hk
      obtain ⟨kv, hkv, hw⟩ := hp
      unfold witness at hy
      rw [hxp, fr.node, hkv] at hy
      dsimp only at hy
      rw [if_neg hw] at hy
      split at hy
      · split at hy
        · simp at hy
        · rw [if_neg (by rw [h'.rcues]; simp)] at hy; simp at hy
      · simp at hy
    · rcases witness_writes w' x with he | he <;> rw [he] at hy
      · simp at hy
      · simp only [List.mem_cons, List.not_mem_nil, or_false] at hy
        rcases hy with rfl | rfl
        · trivial
        · exact hk
  · have hy := mem_take hy
    have hk := h1.tmse x hx
    unfold multisig at hy
    split at hy <;> simp only [List.mem_cons, List.not_mem_nil, or_false] at hy
    · subst hy; trivial
    · rcases hy with rfl | rfl | rfl
      · trivial
      · trivial
      · exact hk
  · have hy := mem_take hy
    have hk := h1.tede x hx
    unfold disseminate at hy
    split at hy <;> simp only [List.mem_cons, List.not_mem_nil, or_false] at hy
    rcases hy with rfl | rfl | rfl
    · trivial
    · trivial
    · exact hk

theorem Stuck.restarted {k : Slot} {p : Id} {w : World} (h : Stuck k p w) : Stuck k p (w.restarted env) := ⟨rfl, rfl, h.tpwe, h.tmse, h.tede, h.ctel⟩

theorem Stuck.step {k : Slot} {p : Id} {w : World} (h : Stuck k p w) {i : Inp} (g : Idle p w i) : Stuck k p (w.step env i) := by
  cases i with
  | ask a => exact absurd rfl (g.1 a)
  | crashAsk a n => exact absurd rfl (g.1 a)
  | registrar => have := h.registrar g.2 (Iss.registrar w).1.length; rwa [take_self] at this
  | crashRegistrar n => exact (h.registrar g.2 n).restarted
  | counseled p n d => simp only [World.step]; split <;> exact ⟨h.rmsgs, h.rcues, h.tpwe, h.tmse, h.tede, h.ctel⟩
  | receipted =>
    refine ⟨?_, ?_, h.tpwe, h.tmse, h.tede, h.ctel⟩
    · show (Grp.receipted w.rmsgs w.rcues).1 = []
      rw [h.rmsgs]; rfl
    · show (Grp.receipted w.rmsgs w.rcues).2 = []
      rw [h.rmsgs, h.rcues]; rfl
  | published => simp only [World.step, publish]; split <;> (try split) <;> exact ⟨h.rmsgs, h.rcues, h.tpwe, h.tmse, h.tede, h.ctel⟩
  | credentialer =>
    have := credentialer_kinds (w := w) (n := (Iss.credentialer w).1.length) (P := Stuck k p) (fun w x h hx => h.apply (by rcases hx with ⟨_, rfl⟩ | ⟨_, _, rfl⟩ <;> trivial)) h
    rwa [take_self] at this
  | crashCredentialer n =>
    exact (credentialer_kinds (w := w) (n := n) (P := Stuck k p) (fun w x h hx => h.apply (by rcases hx with ⟨_, rfl⟩ | ⟨_, _, rfl⟩ <;> trivial)) h).restarted
  | crashIssue c a => exact (h.apply (x := .cmsePut (c.said, a.2.1) c) trivial).restarted
  | restart => exact h.restarted
  | issue late c a =>
    have := h.apply (x := .cmsePut (c.said, a.2.1) c) trivial
    exact ⟨this.rmsgs, this.rcues, this.tpwe, this.tmse, this.tede, this.ctel⟩
  | _ => exact ⟨h.rmsgs, h.rcues, h.tpwe, h.tmse, h.tede, h.ctel⟩

/-- **C155 fails over restarts.** If the process stops while an event waits for the receipts of witnesses, it waits forever: as long as its controller has witnesses and the Registrar
is not called again the event is not entered as complete, whatever receipts arrive and however often the passes run. -/
theorem c155_restart_waits {w w' : World} {k : Slot} {p : Id} (h1 : ∀ x ∈ w.tpwe, x.1 = k → x.2.1 = p) (h2 : ∀ x ∈ w.tmse, x.1.1 ≠ k) (h3 : ∀ x ∈ w.tede, x.1 ≠ k)
    (h4 : w.ctel k.1 k.2 = none) (h : Hist env (Idle p) (w.step env .restart) w') : ¬ Done w' k ∧ complete w' k.1 k.2 = false := by
  have : Stuck k p w' := by
    induction h with
    | nil => exact ⟨rfl, rfl, h1, h2, h3, h4⟩
    | step i _ g ih => exact ih.step g
  simp [Done, complete, this.ctel]

/-- Nothing about the log of `p` is on its way. -/
structure Silent (p : Id) (w : World) : Prop where
  tpwe : ∀ x ∈ w.tpwe, x.1.1 ≠ p
  tmse : ∀ x ∈ w.tmse, x.1.1.1 ≠ p
  tede : ∀ x ∈ w.tede, x.1.1 ≠ p
  msgs : ∀ m ∈ w.pmsgs ++ w.pcues, m.said ≠ p

/-- Writes about other logs. -/
def Other (p : Id) : Wr → Prop
  | .tpweAdd j _ => j.1 ≠ p
  | .tmseAdd j _ => j.1.1 ≠ p
  | .tedeAdd j _ => j.1 ≠ p
  | .pmsg m => m.said ≠ p
  | _ => True

theorem Silent.apply {p : Id} {w : World} (h : Silent p w) {x : Wr} (hx : Other p x) : Silent p (w.apply x) := by
  cases x with
  | tpweAdd j z =>
    refine ⟨fun y hy => ?_, h.tmse, h.tede, h.msgs⟩
    rcases mem_setAdd.1 hy with rfl | hy
    · exact hx
    · exact h.tpwe y hy
  | tpweRem j => exact ⟨fun y hy => h.tpwe y (mem_remKey.1 hy).1, h.tmse, h.tede, h.msgs⟩
  | tmseAdd j z =>
    refine ⟨h.tpwe, fun y hy => ?_, h.tede, h.msgs⟩
    rcases mem_setAdd.1 hy with rfl | hy
    · exact hx
    · exact h.tmse y hy
  | tmseRem j => exact ⟨h.tpwe, fun y hy => h.tmse y (mem_remKey.1 hy).1, h.tede, h.msgs⟩
  | tedeAdd j z =>
    refine ⟨h.tpwe, h.tmse, fun y hy => ?_, h.msgs⟩
    rcases mem_setAdd.1 hy with rfl | hy
    · exact hx
    · exact h.tede y hy
  | tedeRem j => exact ⟨h.tpwe, h.tmse, fun y hy => h.tede y (mem_remKey.1 hy).1, h.msgs⟩
  | pmsg m =>
    refine ⟨h.tpwe, h.tmse, h.tede, fun m' hm => ?_⟩
    simp only [World.apply, List.mem_append, List.mem_singleton] at hm
    rcases hm with (hm | rfl) | hm
    · exact h.msgs m' (by simp [hm])
    · exact hx
    · exact h.msgs m' (by simp [hm])
  | ctelPut j d => simp only [World.apply]; split <;> exact ⟨h.tpwe, h.tmse, h.tede, h.msgs⟩
  | ccrdPut d c => simp only [World.apply]; split <;> exact ⟨h.tpwe, h.tmse, h.tede, h.msgs⟩
  | _ => exact ⟨h.tpwe, h.tmse, h.tede, h.msgs⟩

theorem Silent.writes {p : Id} {w : World} (h : Silent p w) {ws : List Wr} (hx : ∀ x ∈ ws, Other p x) : Silent p (w.applyAll ws) :=
  writes_keep (fun _ _ h l => h.apply l) ws hx h

theorem Silent.registrar {p : Id} {w : World} (h : Silent p w) (n : Nat) : Silent p (w.applyAll ((Iss.registrar w).1.take n)) := by
  refine registrar_part (P := Silent p) (fun w' fr h' x hx n => h'.writes fun y hy => ?_) (fun w1 _ h1 w' fr h' x hx n => h'.writes fun y hy => ?_)
    (fun w1 _ h1 w' _ h' x hx n => h'.writes fun y hy => ?_) h n
  · have hy := mem_take hy
    rcases witness_writes w' x with he | he <;> rw [he] at hy
    · simp at hy
    · simp only [List.mem_cons, List.not_mem_nil, or_false] at hy
      rcases hy with rfl | rfl
      · trivial
      · exact h.tpwe x hx
  · have hy := mem_take hy
    have hk := h1.tmse x hx
    unfold multisig at hy
    split at hy <;> simp only [List.mem_cons, List.not_mem_nil, or_false] at hy
    · subst hy; trivial
    · rcases hy with rfl | rfl | rfl
      · trivial
      · trivial
      · exact hk
  · have hy := mem_take hy
    have hk := h1.tede x hx
    unfold disseminate at hy
    split at hy <;> simp only [List.mem_cons, List.not_mem_nil, or_false] at hy
    rcases hy with rfl | rfl | rfl
    · trivial
    · exact hk
    · trivial

theorem ask_other {p : Id} (w : World) {a : Ask} (h : a.pre ≠ p) : ∀ x ∈ (ask w a).1, Other p x := by
  unfold ask
  split
  · simp
  split
  · split <;> simp [Other, Ask.slot, h]
  · split <;> simp [Other, Ask.slot, h]

theorem Silent.restarted {p : Id} {w : World} (h : Silent p w) : Silent p (w.restarted env) := ⟨h.tpwe, h.tmse, h.tede, by simp [World.restarted]⟩

theorem Silent.step {p : Id} {w : World} (h : Silent p w) {i : Inp} (g : NotFor p w i) : Silent p (w.step env i) := by
  cases i with
  | ask a => exact h.writes (ask_other w (g a rfl))
  | crashAsk a n => exact (h.writes (ws := (Iss.ask w a).1.take n) fun x hx => ask_other w (g a rfl) x (mem_take hx)).restarted
  | registrar => have := h.registrar (Iss.registrar w).1.length; rwa [take_self] at this
  | crashRegistrar n => exact (h.registrar n).restarted
  | counseled p n d => simp only [World.step]; split <;> exact ⟨h.tpwe, h.tmse, h.tede, h.msgs⟩
  | published =>
    simp only [World.step, publish]
    split
    · exact h
    rename_i m r hm
    have hms := h.msgs
    rw [hm] at hms
    split
    · exact ⟨h.tpwe, h.tmse, h.tede, fun m' hm' => hms m' (by simp only [List.mem_append] at hm'; simp only [List.cons_append, List.mem_cons, List.mem_append]; grind)⟩
    · exact ⟨h.tpwe, h.tmse, h.tede, fun m' hm' => hms m' (by simp only [List.mem_append, List.mem_singleton] at hm'; simp only [List.cons_append, List.mem_cons, List.mem_append]; grind)⟩
  | credentialer =>
    have := credentialer_kinds (w := w) (n := (Iss.credentialer w).1.length) (P := Silent p) (fun w x h hx => h.apply (by rcases hx with ⟨_, rfl⟩ | ⟨_, _, rfl⟩ <;> trivial)) h
    rwa [take_self] at this
  | crashCredentialer n =>
    exact (credentialer_kinds (w := w) (n := n) (P := Silent p) (fun w x h hx => h.apply (by rcases hx with ⟨_, rfl⟩ | ⟨_, _, rfl⟩ <;> trivial)) h).restarted
  | crashIssue c a => exact (h.apply (x := .cmsePut (c.said, a.2.1) c) trivial).restarted
  | restart => exact h.restarted
  | issue late c a =>
    have := h.apply (x := .cmsePut (c.said, a.2.1) c) trivial
    exact ⟨this.tpwe, this.tmse, this.tede, this.msgs⟩
  | _ => exact ⟨h.tpwe, h.tmse, h.tede, h.msgs⟩

theorem Silent.sent {p : Id} {w : World} (h : Silent p w) (sn : Nat) : complete w p sn = false := by
  have : Iss.sent w p = false := by
    rw [Iss.sent, List.any_eq_false]
    intro m hm
    simp only [decide_eq_true_eq]
    exact h.msgs m (List.mem_append_right _ hm)
  simp [complete, this]

/-- **C155, the report does not last.** After a restart an event that was entered as complete, and may have been reported as such, is reported as not complete forever, unless the
Registrar is called again for its log. -/
theorem c155_restart_unreported {w w' : World} {p : Id} (hp : ∀ sn, ¬ Pending w (p, sn)) (h : Hist env (NotFor p) (w.step env .restart) w') (sn : Nat) :
    complete w' p sn = false := by
  have : Silent p w' := by
    induction h with
    | nil =>
      refine ⟨fun x hx he => hp x.1.2 ?_, fun x hx he => hp x.1.1.2 ?_, fun x hx he => hp x.1.2 ?_, by simp [World.step, World.restarted]⟩
      · exact .inl ⟨x.2, by rw [← he]; exact hx⟩
      · exact .inr (.inl ⟨x.1.2, x.2, by rw [← he]; exact hx⟩)
      · exact .inr (.inr ⟨x.2, by rw [← he]; exact hx⟩)
    | step i _ g ih => exact ih.step g
  exact this.sent sn

/-! ## C156: what is reported as complete was sent -/

/-- Calls for `p` are about number `sn`. -/
def Only (p : Id) (sn : Nat) (_ : World) (i : Inp) : Prop := ∀ a, i.asks a → a.pre = p → a.For p sn

/-- All that is on its way about `p` is about number `sn`. -/
structure OInv (p : Id) (sn : Nat) (w : World) : Prop where
  tpwe : ∀ x ∈ w.tpwe, x.1.1 = p → x.1.2 = sn
  tmse : ∀ x ∈ w.tmse, x.1.1.1 = p → x.1.1.2 = sn
  tede : ∀ x ∈ w.tede, x.1.1 = p → x.1.2 = sn
  msgs : ∀ m ∈ w.pmsgs ++ w.pcues, m.said = p → ∃ d, (sn, d) ∈ m.evts

def OneNum (p : Id) (sn : Nat) : Wr → Prop
  | .tpweAdd j _ => j.1 = p → j.2 = sn
  | .tmseAdd j _ => j.1.1 = p → j.1.2 = sn
  | .tedeAdd j _ => j.1 = p → j.2 = sn
  | .pmsg m => m.said = p → ∃ d, (sn, d) ∈ m.evts
  | _ => True

theorem OInv.apply {p : Id} {sn : Nat} {w : World} (h : OInv p sn w) {x : Wr} (hx : OneNum p sn x) : OInv p sn (w.apply x) := by
  cases x with
  | tpweAdd j z =>
    refine ⟨fun y hy => ?_, h.tmse, h.tede, h.msgs⟩
    rcases mem_setAdd.1 hy with rfl | hy
    · exact hx
    · exact h.tpwe y hy
  | tpweRem j => exact ⟨fun y hy => h.tpwe y (mem_remKey.1 hy).1, h.tmse, h.tede, h.msgs⟩
  | tmseAdd j z =>
    refine ⟨h.tpwe, fun y hy => ?_, h.tede, h.msgs⟩
    rcases mem_setAdd.1 hy with rfl | hy
    · exact hx
    · exact h.tmse y hy
  | tmseRem j => exact ⟨h.tpwe, fun y hy => h.tmse y (mem_remKey.1 hy).1, h.tede, h.msgs⟩
  | tedeAdd j z =>
    refine ⟨h.tpwe, h.tmse, fun y hy => ?_, h.msgs⟩
    rcases mem_setAdd.1 hy with rfl | hy
    · exact hx
    · exact h.tede y hy
  | tedeRem j => exact ⟨h.tpwe, h.tmse, fun y hy => h.tede y (mem_remKey.1 hy).1, h.msgs⟩
  | pmsg m =>
    refine ⟨h.tpwe, h.tmse, h.tede, fun m' hm => ?_⟩
    simp only [World.apply, List.mem_append, List.mem_singleton] at hm
    rcases hm with (hm | rfl) | hm
    · exact h.msgs m' (by simp [hm])
    · exact hx
    · exact h.msgs m' (by simp [hm])
  | ctelPut j d => simp only [World.apply]; split <;> exact ⟨h.tpwe, h.tmse, h.tede, h.msgs⟩
  | ccrdPut d c => simp only [World.apply]; split <;> exact ⟨h.tpwe, h.tmse, h.tede, h.msgs⟩
  | _ => exact ⟨h.tpwe, h.tmse, h.tede, h.msgs⟩

theorem OInv.writes {p : Id} {sn : Nat} {w : World} (h : OInv p sn w) {ws : List Wr} (hx : ∀ x ∈ ws, OneNum p sn x) : OInv p sn (w.applyAll ws) :=
  writes_keep (fun _ _ h l => h.apply l) ws hx h

theorem OInv.registrar {p : Id} {sn : Nat} {w : World} (h : OInv p sn w) (n : Nat) : OInv p sn (w.applyAll ((Iss.registrar w).1.take n)) := by
  refine registrar_part (P := OInv p sn) (fun w' fr h' x hx n => h'.writes fun y hy => ?_) (fun w1 _ h1 w' fr h' x hx n => h'.writes fun y hy => ?_)
    (fun w1 _ h1 w' _ h' x hx n => h'.writes fun y hy => ?_) h n
  · have hy := mem_take hy
    rcases witness_writes w' x with he | he <;> rw [he] at hy
    · simp at hy
    · simp only [List.mem_cons, List.not_mem_nil, or_false] at hy
      rcases hy with rfl | rfl
      · trivial
      · exact h.tpwe x hx
  · have hy := mem_take hy
    have hk := h1.tmse x hx
    unfold multisig at hy
    split at hy <;> simp only [List.mem_cons, List.not_mem_nil, or_false] at hy
    · subst hy; trivial
    · rcases hy with rfl | rfl | rfl
      · trivial
      · trivial
      · exact hk
  · have hy := mem_take hy
    have hk := h1.tede x hx
    unfold disseminate at hy
    split at hy <;> simp only [List.mem_cons, List.not_mem_nil, or_false] at hy
    rename_i d hd
    rcases hy with rfl | rfl | rfl
    · trivial
    · intro he
      refine ⟨d, List.mem_filter.2 ⟨?_, ?_⟩⟩
      · rw [← hk he]; exact telGet_mem hd
      · simp [hk he]
    · trivial

theorem ask_oneNum {p : Id} {sn : Nat} (w : World) {a : Ask} (h : a.pre = p → a.slot.2 = sn) : ∀ x ∈ (ask w a).1, OneNum p sn x := by
  have h' : a.slot.1 = p → a.slot.2 = sn := h
  unfold ask
  split
  · simp
  split
  · split
    · simp only [List.mem_singleton, forall_eq]; exact h'
    · simp
  · split
    · simp
    · simp only [List.mem_cons, List.not_mem_nil, or_false, forall_eq_or_imp, forall_eq]
      exact ⟨trivial, trivial, h'⟩

theorem OInv.restarted {p : Id} {sn : Nat} {w : World} (h : OInv p sn w) : OInv p sn (w.restarted env) := ⟨h.tpwe, h.tmse, h.tede, by simp [World.restarted]⟩

theorem OInv.step {p : Id} {sn : Nat} {w : World} (h : OInv p sn w) {i : Inp} (g : Only p sn w i) : OInv p sn (w.step env i) := by
  cases i with
  | ask a => exact h.writes (ask_oneNum w fun hp => congrArg Prod.snd (for_slot (g a rfl hp)))
  | crashAsk a n => exact (h.writes (ws := (Iss.ask w a).1.take n) fun x hx => ask_oneNum w (fun hp => congrArg Prod.snd (for_slot (g a rfl hp))) x (mem_take hx)).restarted
  | registrar => have := h.registrar (Iss.registrar w).1.length; rwa [take_self] at this
  | crashRegistrar n => exact (h.registrar n).restarted
  | counseled p n d => simp only [World.step]; split <;> exact ⟨h.tpwe, h.tmse, h.tede, h.msgs⟩
  | published =>
    simp only [World.step, publish]
    split
    · exact h
    rename_i m r hm
    have hms := h.msgs
    rw [hm] at hms
    split
    · exact ⟨h.tpwe, h.tmse, h.tede, fun m' hm' => hms m' (by simp only [List.mem_append] at hm'; simp only [List.cons_append, List.mem_cons, List.mem_append]; grind)⟩
    · exact ⟨h.tpwe, h.tmse, h.tede, fun m' hm' => hms m' (by simp only [List.mem_append, List.mem_singleton] at hm'; simp only [List.cons_append, List.mem_cons, List.mem_append]; grind)⟩
  | credentialer =>
    have := credentialer_kinds (w := w) (n := (Iss.credentialer w).1.length) (P := OInv p sn) (fun w x h hx => h.apply (by rcases hx with ⟨_, rfl⟩ | ⟨_, _, rfl⟩ <;> trivial)) h
    rwa [take_self] at this
  | crashCredentialer n =>
    exact (credentialer_kinds (w := w) (n := n) (P := OInv p sn) (fun w x h hx => h.apply (by rcases hx with ⟨_, rfl⟩ | ⟨_, _, rfl⟩ <;> trivial)) h).restarted
  | crashIssue c a => exact (h.apply (x := .cmsePut (c.said, a.2.1) c) trivial).restarted
  | restart => exact h.restarted
  | issue late c a =>
    have := h.apply (x := .cmsePut (c.said, a.2.1) c) trivial
    exact ⟨this.tpwe, this.tmse, this.tede, this.msgs⟩
  | _ => exact ⟨h.tpwe, h.tmse, h.tede, h.msgs⟩

/-- **C156, partly.** If the Registrar was only ever asked about one event of a log, then when that event is reported as complete the WitnessPublisher has finished a message with that event
(which is in its log, `c153_sent`). Missing: see `c156_revocation_early` — a revocation is reported as complete because the issuance was sent. -/
theorem c156_sent_partial {v : VNode} {habs : Id → Option Bool} {w : World} {p : Id} {sn : Nat} (h : Hist env (Only p sn) (World.start v habs) w) (hc : complete w p sn = true) :
    ∃ m ∈ w.pcues, m.said = p ∧ ∃ d, (sn, d) ∈ m.evts := by
  have hi : OInv p sn w := by
    clear hc
    induction h with
    | nil => exact ⟨by simp [World.start], by simp [World.start], by simp [World.start], by simp [World.start]⟩
    | step i _ g ih => exact ih.step g
  have hs := (Bool.and_eq_true_iff.1 hc).2
  simp only [sent, List.any_eq_true, decide_eq_true_eq] at hs
  obtain ⟨m, hm, hp⟩ := hs
  exact ⟨m, hm, hp, hi.msgs m (List.mem_append_right _ hm) hp⟩

/-! ## C158: credentials that wait -/

theorem cmse_apply {w : World} {y : (Dig × Nat) × Cred} (h : y ∈ w.cmse) {x : Wr} (hx : ∀ j, x ≠ .cmseRem j) : y ∈ (w.apply x).cmse := by
  cases x with
  | cmsePut k c => exact onePut_keeps h
  | cmseRem j => exact absurd rfl (hx j)
  | ctelPut j d => simp only [World.apply]; split <;> exact h
  | ccrdPut j d => simp only [World.apply]; split <;> exact h
  | _ => exact h

theorem cmse_applyAll {w : World} {y : (Dig × Nat) × Cred} (h : y ∈ w.cmse) {ws : List Wr} (hx : ∀ x ∈ ws, ∀ j, x ≠ .cmseRem j) : y ∈ (w.applyAll ws).cmse :=
  writes_keep (P := fun w => y ∈ w.cmse) (L := fun x => ∀ j, x ≠ .cmseRem j) (fun _ _ h l => cmse_apply h l) ws hx h

theorem ask_cmse (w : World) (a : Ask) : ∀ x ∈ (ask w a).1, ∀ j, x ≠ .cmseRem j := by
  unfold ask
  split
  · simp
  split
  · split <;> simp
  · split <;> simp

theorem registrar_cmse {w : World} {y : (Dig × Nat) × Cred} (h : y ∈ w.cmse) (n : Nat) : y ∈ (w.applyAll ((registrar w).1.take n)).cmse := by
  refine registrar_part (P := fun w => y ∈ w.cmse) (fun w' _ h' x _ n => cmse_applyAll h' fun z hz => ?_) (fun _ _ _ w' _ h' x _ n => cmse_applyAll h' fun z hz => ?_)
    (fun _ _ _ w' _ h' x _ n => cmse_applyAll h' fun z hz => ?_) h n
  · have hz := mem_take hz
    rcases witness_writes w' x with he | he <;> rw [he] at hz <;> simp at hz
    rcases hz with rfl | rfl <;> simp
  · have hz := mem_take hz
    unfold multisig at hz
    split at hz <;> simp at hz
    · subst hz; simp
    · rcases hz with rfl | rfl | rfl <;> simp
  · have hz := mem_take hz
    unfold disseminate at hz
    split at hz <;> simp at hz
    rcases hz with rfl | rfl | rfl <;> simp

theorem ccrd_put (w : World) (d : Dig) (c : Cred) : credComplete (w.apply (.ccrdPut d c)) d = true := by
  unfold credComplete
  simp only [World.apply]
  split
  · simp [upd]
  · rename_i hh; rw [hh]; rfl

theorem credComplete_all {w : World} {d : Dig} (h : credComplete w d = true) (ws : List Wr) : credComplete (w.applyAll ws) d = true := by
  obtain ⟨c, hc⟩ := Option.isSome_iff_exists.1 h
  rw [credComplete, ccrd_applyAll hc]; rfl

theorem missingSig_keep {w : World} {y : (Dig × Nat) × Cred} (h : y ∈ w.cmse ∨ credComplete w y.1.1 = true) (x : (Dig × Nat) × Cred) :
    y ∈ (w.applyAll (missingSig w x).1).cmse ∨ credComplete (w.applyAll (missingSig w x).1) y.1.1 = true := by
  rcases h with h | h
  · unfold missingSig
    split
    · exact .inl h
    split
    · exact .inl h
    · by_cases hk : y.1 = x.1
      · refine .inr ?_
        rw [hk]
        exact ccrd_put _ _ _
      · refine .inl ?_
        show y ∈ ((w.apply (.cmseRem x.1)).apply (.ccrdPut x.1.1 x.2)).cmse
        exact cmse_apply (w := w.apply (.cmseRem x.1)) (mem_remKey.2 ⟨h, hk⟩) (by simp)
  · exact .inr (credComplete_all h _)

theorem cmse_step {w : World} {y : (Dig × Nat) × Cred} (h : y ∈ w.cmse ∨ credComplete w y.1.1 = true) {i : Inp} (g : CredCalm w i) :
    y ∈ (w.step env i).cmse ∨ credComplete (w.step env i) y.1.1 = true := by
  cases i with
  | credentialer => exact pass_whole (P := fun w => y ∈ w.cmse ∨ credComplete w y.1.1 = true) _ (fun w' _ h' x _ => missingSig_keep h' x) h
  | crashCredentialer n => exact absurd g (by simp [CredCalm])
  | ask a =>
    rcases h with h | h
    · exact .inl (cmse_applyAll h (ask_cmse w a))
    · exact .inr (credComplete_all h _)
  | crashAsk a n =>
    rcases h with h | h
    · exact .inl (cmse_applyAll (w := w) h fun x hx => ask_cmse w a x (mem_take hx))
    · exact .inr (credComplete_all (w := w) h _)
  | registrar =>
    rcases h with h | h
    · have := registrar_cmse h (Iss.registrar w).1.length
      rw [take_self] at this; exact .inl this
    · exact .inr (credComplete_all h _)
  | crashRegistrar n =>
    rcases h with h | h
    · exact .inl (registrar_cmse h n)
    · exact .inr (credComplete_all (w := w) h _)
  | counseled p n d => simp only [World.step]; split <;> exact h
  | published => simp only [World.step, publish]; split <;> (try split) <;> exact h
  | issue late c a =>
    rcases h with h | h
    · exact .inl (onePut_keeps h)
    · exact .inr h
  | crashIssue c a =>
    rcases h with h | h
    · exact .inl (onePut_keeps h)
    · exact .inr h
  | _ => exact h

/-- **C158, kept.** A credential handed to the Credentialer waits until it is reported as issued, over restarts and stops of the process, provided its passes are not interrupted. Missing:
`c158_crash_lost`; a stop between the two writes of a pass loses the credential. -/
theorem c158_kept_partial {w w' : World} (h : Hist env CredCalm w w') {k : Dig × Nat} {c : Cred} (hc : (k, c) ∈ w.cmse) : (k, c) ∈ w'.cmse ∨ credComplete w' k.1 = true := by
  induction h with
  | nil => exact .inl hc
  | step i _ g ih => exact cmse_step (y := (k, c)) ih g

/-- A credential handed over is entered, under its number. -/
theorem c158_entered {w : World} {late : Dig → Bool} {c : Cred} {a : Anchor} : ∃ c', ((c.said, a.2.1), c') ∈ (w.step env (.issue late c a)).cmse := by
  show ∃ c', ((c.said, a.2.1), c') ∈ onePut slotLt w.cmse ((c.said, a.2.1), c)
  unfold onePut
  split
  · rename_i h
    obtain ⟨y, h1, h2⟩ := List.mem_map.1 h
    exact ⟨y.2, by rw [show ((c.said, a.2.1) : Dig × Nat) = y.1 from h2.symm]; exact h1⟩
  · exact ⟨c, mem_ins.2 (.inl rfl)⟩

theorem missingSig_none (w : World) (x : (Dig × Nat) × Cred) : (missingSig w x).2 = none := by
  unfold missingSig
  split
  · rfl
  split <;> rfl

theorem frame_complete {w w' : World} (fr : Frame w w') {p : Id} {sn : Nat} (hm : ∀ p sn, (w.ctel p sn).isSome = true → (w'.ctel p sn).isSome = true) (h : complete w p sn = true) :
    complete w' p sn = true := by
  unfold complete sent at h ⊢
  rw [fr.pcues]
  simp only [Bool.and_eq_true] at h ⊢
  exact ⟨hm _ _ h.1, h.2⟩

/-- **C158, completes.** A credential that waits, has been accepted by the verifier, and whose issuance is reported as complete, is reported as issued after the next pass of the Credentialer. -/
theorem c158_completes {w : World} {k : Dig × Nat} {c : Cred} (hm : (k, c) ∈ w.cmse) (hc : complete w k.1 k.2 = true) (hs : k.1 ∈ w.v.s.saved) :
    credComplete (w.step env .credentialer) k.1 = true := by
  -- completeness is not lost within a pass
  have key : ∀ xs w', (∀ x ∈ xs, x ∈ w.cmse) → Frame w w' → complete w' k.1 k.2 = true → (credComplete w' k.1 = true ∨ (k, c) ∈ xs) →
      credComplete (w'.applyAll (pass missingSig w' xs).1) k.1 = true := by
    intro xs
    induction xs with
    | nil => intro w' _ _ _ h; simpa [pass, World.applyAll] using h
    | cons x xs ih =>
      intro w' hsub fr hcw h
      rw [pass]
      have hn := missingSig_none w' x
      cases hmx : missingSig w' x with
      | mk ws e =>
        rw [hmx] at hn
        dsimp only at hn
        subst hn
        dsimp only
        have hrest := ih (w'.applyAll ws) (fun y hy => hsub y (by simp [hy])) (fr.trans (frame_applyAll _ _))
          (frame_complete (frame_applyAll _ _) (fun _ _ h => ctel_applyAll h _) hcw)
        cases hp : pass missingSig (w'.applyAll ws) xs with
        | mk r e =>
          dsimp only
          rw [applyAll_append]
          rw [hp] at hrest
          apply hrest
          rcases h with h | h
          · exact .inl (credComplete_all h _)
          · rcases List.mem_cons.1 h with h | h
            · refine .inl ?_
              subst h
              have hw : ws = [.cmseRem k, .ccrdPut k.1 c] := by
                unfold missingSig at hmx
                dsimp only at hmx
                rw [if_neg (by simp [hcw]), if_neg (by rw [fr.s]; simp [hs])] at hmx
                exact (Prod.ext_iff.1 hmx).1.symm
              rw [hw]
              exact ccrd_put _ _ _
            · exact .inr h
  exact key w.cmse w (fun _ h => h) (.refl w) hc (.inr hm)

theorem missingSig_silent {w : World} {d : Dig} (h : Silent d w) {x : (Dig × Nat) × Cred} : ∀ y ∈ (missingSig w x).1, ∀ c, y ≠ .ccrdPut d c := by
  unfold missingSig
  split
  · simp
  rename_i hc
  split
  · simp
  · intro y hy c he
    subst he
    simp at hy
    rw [← hy.1] at hc
    rw [h.sent] at hc
    simp at hc

theorem ccrd_other {w : World} {d : Dig} (h : w.ccrd d = none) {x : Wr} (hx : ∀ c, x ≠ .ccrdPut d c) : (w.apply x).ccrd d = none := by
  cases x with
  | ccrdPut e c =>
    simp only [World.apply]
    split
    · simp only [upd]; split
      · rename_i hh; subst hh; exact absurd rfl (hx c)
      · exact h
    · exact h
  | ctelPut j d => simp only [World.apply]; split <;> exact h
  | _ => exact h

theorem ccrd_others {w : World} {d : Dig} (h : w.ccrd d = none) {ws : List Wr} (hx : ∀ x ∈ ws, ∀ c, x ≠ .ccrdPut d c) : (w.applyAll ws).ccrd d = none :=
  writes_keep (P := fun w => w.ccrd d = none) (L := fun x => ∀ c, x ≠ .ccrdPut d c) (fun _ _ h l => ccrd_other h l) ws hx h

theorem registrar_ccrd {w : World} {d : Dig} (h : w.ccrd d = none) (n : Nat) : (w.applyAll ((registrar w).1.take n)).ccrd d = none := by
  refine registrar_part (P := fun w => w.ccrd d = none) (fun w' _ h' x _ n => ccrd_others h' fun z hz => ?_) (fun _ _ _ w' _ h' x _ n => ccrd_others h' fun z hz => ?_)
    (fun _ _ _ w' _ h' x _ n => ccrd_others h' fun z hz => ?_) h n
  · have hz := mem_take hz
    rcases witness_writes w' x with he | he <;> rw [he] at hz <;> simp at hz
    rcases hz with rfl | rfl <;> simp
  · have hz := mem_take hz
    unfold multisig at hz
    split at hz <;> simp at hz
    · subst hz; simp
    · rcases hz with rfl | rfl | rfl <;> simp
  · have hz := mem_take hz
    unfold disseminate at hz
    split at hz <;> simp at hz
    rcases hz with rfl | rfl | rfl <;> simp

theorem credentialer_ccrd {w : World} {d : Dig} (hs : Silent d w) (h : w.ccrd d = none) (n : Nat) : (w.applyAll ((credentialer w).1.take n)).ccrd d = none :=
  (pass_part (P := fun w => Silent d w ∧ w.ccrd d = none) _ (fun w' _ h' x _ n => by
    refine ⟨h'.1.writes fun y hy => ?_, ccrd_others h'.2 fun y hy => missingSig_silent h'.1 y (mem_take hy)⟩
    have hy := mem_take hy
    unfold missingSig at hy
    split at hy
    · simp at hy
    split at hy
    · simp at hy
    · simp at hy; rcases hy with rfl | rfl <;> trivial) ⟨hs, h⟩ n).2

theorem ask_ccrd (w : World) (a : Ask) (d : Dig) : ∀ x ∈ (ask w a).1, ∀ c, x ≠ .ccrdPut d c := by
  unfold ask
  split
  · simp
  split
  · split <;> simp
  · split <;> simp

/-- **C158 fails over restarts.** If the process stops after the issuance was sent and before a pass of the Credentialer, the credential is never reported as issued, unless the Registrar
is called again for it: what was sent is remembered in memory only. -/
theorem c158_restart_never {w w' : World} {d : Dig} (hp : ∀ sn, ¬ Pending w (d, sn)) (hn : w.ccrd d = none) (h : Hist env (NotFor d) (w.step env .restart) w') :
    credComplete w' d = false := by
  have : Silent d w' ∧ w'.ccrd d = none := by
    induction h with
    | nil =>
      refine ⟨⟨fun x hx he => hp x.1.2 ?_, fun x hx he => hp x.1.1.2 ?_, fun x hx he => hp x.1.2 ?_, by simp [World.step, World.restarted]⟩, hn⟩
      · exact .inl ⟨x.2, by rw [← he]; exact hx⟩
      · exact .inr (.inl ⟨x.1.2, x.2, by rw [← he]; exact hx⟩)
      · exact .inr (.inr ⟨x.2, by rw [← he]; exact hx⟩)
    | @step w i _ g ih =>
      refine ⟨ih.1.step g, ?_⟩
      obtain ⟨ih1, ih2⟩ := ih
      cases i with
      | ask a => exact ccrd_others ih2 (ask_ccrd w a d)
      | crashAsk a n => exact ccrd_others (w := w) ih2 fun x hx => ask_ccrd w a d x (mem_take hx)
      | registrar => have := registrar_ccrd ih2 (Iss.registrar w).1.length; rwa [take_self] at this
      | crashRegistrar n => exact registrar_ccrd ih2 n
      | credentialer => have := credentialer_ccrd ih1 ih2 (Iss.credentialer w).1.length; rwa [take_self] at this
      | crashCredentialer n => exact credentialer_ccrd ih1 ih2 n
      | counseled p n d => simp only [World.step]; split <;> exact ih2
      | published => simp only [World.step, publish]; split <;> (try split) <;> exact ih2
      | _ => exact ih2
  rw [credComplete, this.2]; rfl

end Verif.Iss
