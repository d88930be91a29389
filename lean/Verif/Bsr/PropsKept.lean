import Verif.Bsr.PropsHead
import Verif.Bsr.PropsSeal

/-!
# C165: events that wait are kept until they are accepted or cannot be
-/

namespace Verif.Bsr

open Verif.Kel (Id Dig Node Seal)

/-- The write takes the entry out of an escrow. -/
def Wr.hits (k : Dig) (n : Nat) (d : Dig) (w : Wr) : Prop := w = .remM k n d ∨ w = .remO k n d

theorem keep1 {k : Dig} {n : Nat} {d : Dig} {w : Wr} (s : Store) (h : ¬ w.hits k n d) :
    ((n, d) ∈ s.maes k → (n, d) ∈ (s.apply w).maes k) ∧ ((n, d) ∈ s.ooes k → (n, d) ∈ (s.apply w).ooes k) := by
  cases w with
  | evt e => exact ⟨fun h => h, fun h => h⟩
  | anc e c => exact ⟨fun h => h, fun h => h⟩
  | tel k' n' d' => simp only [Store.apply]; split <;> exact ⟨fun h => h, fun h => h⟩
  | head k' d' => exact ⟨fun h => h, fun h => h⟩
  | record a b => exact ⟨fun h => h, fun h => h⟩
  | addM k' n' d' =>
    refine ⟨fun hm => ?_, fun h => h⟩
    simp only [Store.apply, put]
    split
    · rename_i hk; subst hk; exact (mem_ioAdd _ _ _ _).2 (.inl hm)
    · exact hm
  | addO k' n' d' =>
    refine ⟨fun h => h, fun hm => ?_⟩
    simp only [Store.apply, put]
    split
    · rename_i hk; subst hk; exact (mem_ioAdd _ _ _ _).2 (.inl hm)
    · exact hm
  | remM k' n' d' =>
    refine ⟨fun hm => ?_, fun h => h⟩
    simp only [Store.apply, put]
    split
    · rename_i hk; subst hk; exact (mem_ioRem _ _ _ _).2 ⟨hm, fun he => h (.inl (by cases he; rfl))⟩
    · exact hm
  | remO k' n' d' =>
    refine ⟨fun h => h, fun hm => ?_⟩
    simp only [Store.apply, put]
    split
    · rename_i hk; subst hk; exact (mem_ioRem _ _ _ _).2 ⟨hm, fun he => h (.inr (by cases he; rfl))⟩
    · exact hm

theorem keepAll {k : Dig} {n : Nat} {d : Dig} (l : List Wr) (s : Store) (h : ∀ w ∈ l, ¬ w.hits k n d) :
    ((n, d) ∈ s.maes k → (n, d) ∈ (s.applyAll l).maes k) ∧ ((n, d) ∈ s.ooes k → (n, d) ∈ (s.applyAll l).ooes k) := by
  induction l generalizing s with
  | nil => exact ⟨fun h => h, fun h => h⟩
  | cons w l ih =>
    have h1 := keep1 s (h w List.mem_cons_self)
    have h2 := ih (s.apply w) (fun x hx => h x (List.mem_cons_of_mem _ hx))
    exact ⟨fun hm => h2.1 (h1.1 hm), fun hm => h2.2 (h1.2 hm)⟩

theorem hits_commit {k : Dig} {n : Nat} {d : Dig} {s : Store} {e : REvt} {w : Wr} (hw : w ∈ commit s e) (h : w.hits k n d) : k = e.regk ∧ n = e.n := by
  unfold commit at hw
  rcases List.mem_append.1 hw with hw | hw
  · rcases List.mem_append.1 hw with hw | hw
    · simp only [List.mem_cons, List.not_mem_nil, or_false] at hw
      rcases hw with rfl | rfl | rfl <;> rcases h with h | h <;> cases h
    · obtain ⟨x, _, rfl⟩ := List.mem_map.1 hw
      rcases h with h | h <;> cases h; exact ⟨rfl, rfl⟩
  · obtain ⟨x, _, rfl⟩ := List.mem_map.1 hw
    rcases h with h | h <;> cases h; exact ⟨rfl, rfl⟩

/-- The event can no longer be accepted, or is. -/
def Gone (s : Store) (e : REvt) : Prop := (∃ d, s.tels e.regk e.n = some d) ∨ ∃ p, s.before e.regk e.n = some p ∧ p.said ≠ e.prior

theorem gone_ext {s s' : Store} {e : REvt} (hx : Ext s s') (h : Gone s e) : Gone s' e := by
  rcases h with ⟨d, h⟩ | ⟨p, h1, h2⟩
  · exact .inl ⟨d, hx.tels _ _ _ h⟩
  · exact .inr ⟨p, hx.bef h1, h2⟩

theorem commit_taken (s : Store) (e : REvt) (h : s.tels e.regk e.n = none ∨ s.tels e.regk e.n = some e.said) :
    (s.applyAll (commit s e)).tels e.regk e.n = some e.said := by
  rw [commit_tels]; exact tel_set _ _ _ _ h

theorem gone_reason {s : Store} {k : Dig} {n : Nat} {d : Dig} {R : REvt → Prop} {e : REvt} (hr : Reason R s k n d) (hk : k = e.regk) (hn : n = e.n)
    (hd : d = e.said) (he : s.evts e.said = some e) (hR : e.ilk = .rip → ¬ R e) : Gone s e := by
  subst hk hn hd
  rcases hr with h | h | ⟨x, p, h1, h2, h3⟩ | ⟨x, h1, h2, h3⟩
  · rw [he] at h; cases h
  · left
    cases ht : s.tels e.regk e.n with
    | none => unfold Store.seqEvent at h; rw [ht] at h; cases h
    | some d => exact ⟨d, rfl⟩
  · rw [he] at h1; cases h1; exact .inr ⟨p, h2, h3⟩
  · rw [he] at h1; cases h1; exact absurd h3 (hR h2)

theorem kept_blk {V : REvt → Prop} (hnc : NoColl V) {J : REvt → Nat × Dig → Prop} {R : REvt → Prop} {s : Store} {l : List Wr} (h : Blocks V J R s l)
    (hi : SInv V s) {e : REvt} (he : s.evts e.said = some e) (hR : e.ilk = .rip → ¬ R e) :
    (Waits s e → Waits (s.applyAll l) e ∨ Gone (s.applyAll l) e) ∧
    ((e.n, e.said) ∈ s.ooes e.regk → (e.n, e.said) ∈ (s.applyAll l).ooes e.regk ∨ Gone (s.applyAll l) e) := by
  -- a first part that keeps the entry or ends its wait, and the rest
  have glue : ∀ (s s1 s' : Store), Ext s1 s' → ((Waits s e → Waits s1 e) ∧ ((e.n, e.said) ∈ s.ooes e.regk → (e.n, e.said) ∈ s1.ooes e.regk)) ∨ Gone s1 e →
      ((Waits s1 e → Waits s' e ∨ Gone s' e) ∧ ((e.n, e.said) ∈ s1.ooes e.regk → (e.n, e.said) ∈ s'.ooes e.regk ∨ Gone s' e)) →
      (Waits s e → Waits s' e ∨ Gone s' e) ∧ ((e.n, e.said) ∈ s.ooes e.regk → (e.n, e.said) ∈ s'.ooes e.regk ∨ Gone s' e) := by
    intro s s1 s' hx h1 h2
    rcases h1 with ⟨ha, hb⟩ | hg
    · exact ⟨fun h => h2.1 (ha h), fun h => h2.2 (hb h)⟩
    · exact ⟨fun _ => .inr (gone_ext hx hg), fun _ => .inr (gone_ext hx hg)⟩
  have miss : ∀ (s : Store) (l : List Wr), (∀ w ∈ l, ¬ w.hits e.regk e.n e.said) →
      (Waits s e → Waits (s.applyAll l) e) ∧ ((e.n, e.said) ∈ s.ooes e.regk → (e.n, e.said) ∈ (s.applyAll l).ooes e.regk) := fun s l hl => by
    have := keepAll l s hl
    exact ⟨fun h => h.imp this.1 this.2, this.2⟩
  induction h with
  | nil s => exact ⟨.inl, .inl⟩
  | @plain s w l hp ho hb ih =>
    rw [applyAll_cons]
    have hi1 := inv_apply hnc hi ho
    have hx1 := ext_apply hnc hi ho
    refine glue s _ _ (blk_inv hnc hi1 hb).2 (.inl ?_) (ih hi1 (hx1.evts _ _ he))
    refine miss s [w] fun x hx => ?_
    simp only [List.mem_singleton] at hx; subst hx
    rintro (rfl | rfl) <;> cases hp
  | @drop s k n d l hr hb ih =>
    rw [applyAll_append]
    have hg := good_inv hnc hi (good_clear (V := V) (J := J) s k n d)
    refine glue s _ _ (blk_inv hnc hg.1 hb).2 ?_ (ih hg.1 (hg.2.evts _ _ he))
    by_cases hsame : k = e.regk ∧ n = e.n ∧ d = e.said
    · exact .inr (gone_ext hg.2 (gone_reason hr hsame.1 hsame.2.1 hsame.2.2 he hR))
    · refine .inl (miss s _ fun x hx hh => hsame ?_)
      unfold clear at hx
      simp only [List.mem_cons, List.not_mem_nil, or_false] at hx
      rcases hx with rfl | rfl <;> rcases hh with h | h <;> cases h <;> exact ⟨rfl, rfl, rfl⟩
  | @move s e' l ho hb ih =>
    rw [applyAll_append]
    have hg0 : Good V J s [.remM e'.regk e'.n e'.said, .addO e'.regk e'.n e'.said] := ⟨trivial, ho, trivial⟩
    have hg := good_inv hnc hi hg0
    refine glue s _ _ (blk_inv hnc hg.1 hb).2 (.inl ?_) (ih hg.1 (hg.2.evts _ _ he))
    by_cases hsame : e'.regk = e.regk ∧ e'.n = e.n ∧ e'.said = e.said
    · have hin : (e.n, e.said) ∈ (s.applyAll [.remM e'.regk e'.n e'.said, .addO e'.regk e'.n e'.said]).ooes e.regk := by
        rw [hsame.1, hsame.2.1, hsame.2.2]
        show _ ∈ put s.ooes e.regk (ioAdd (s.ooes e.regk) e.n e.said) e.regk
        rw [put_same]; exact (mem_ioAdd _ _ _ _).2 (.inr rfl)
      exact ⟨fun _ => .inr hin, fun _ => hin⟩
    · refine miss s _ fun x hx hh => hsame ?_
      simp only [List.mem_cons, List.not_mem_nil, or_false] at hx
      rcases hx with rfl | rfl <;> rcases hh with h | h <;> simp at h; exact h
  | @take s e' l hr hn hb ih =>
    rw [applyAll_cons, applyAll_append]
    have h1 := inv_apply hnc (J := J) hi (w := .remM e'.regk e'.n e'.said) trivial
    have hx1 := ext_apply hnc (J := J) hi (w := .remM e'.regk e'.n e'.said) trivial
    have hg := good_inv hnc h1 (good_commit hnc (J := J) h1 (hr.remM _ _ _))
    refine glue s _ _ (blk_inv hnc hg.1 hb).2 ?_ (ih hg.1 (hg.2.evts _ _ (hx1.evts _ _ he)))
    by_cases hsame : e.regk = e'.regk ∧ e.n = e'.n
    · right; left
      rw [hsame.1, hsame.2]
      exact ⟨_, commit_taken _ _ (.inl hn)⟩
    · left
      rw [← applyAll_cons]
      refine miss s _ fun x hx hh => hsame ?_
      rcases List.mem_cons.1 hx with rfl | hx
      · rcases hh with h | h <;> simp at h; exact ⟨h.1.symm, h.2.1.symm⟩
      · exact hits_commit hx hh
  | @com s e' l hr hn hb ih =>
    rw [applyAll_append]
    have hg := good_inv hnc hi (good_commit hnc (J := J) hi hr)
    refine glue s _ _ (blk_inv hnc hg.1 hb).2 ?_ (ih hg.1 (hg.2.evts _ _ he))
    by_cases hsame : e.regk = e'.regk ∧ e.n = e'.n
    · right; left
      rw [hsame.1, hsame.2]
      exact ⟨_, commit_taken _ _ hr.free⟩
    · exact .inl (miss s _ fun x hx hh => hsame (hits_commit hx hh))

/-- The steps of C165: no crash, objects act for registries of their own habitat. -/
def Orderly (V : REvt → Prop) (w : World) (i : Inp) : Prop := Within V w i ∧ Rightly V w i ∧ Whole i

theorem orderly_inv {env : Kel.Env} {V : REvt → Prop} (hnc : NoColl V) {w0 w : World} (h0 : WInv V (Own V) w0) (h : Hist env (Orderly V) w0 w) :
    WInv V (Own V) w := by
  induction h with
  | nil => exact h0
  | step i _ g ih => exact (step_inv hnc (fun e hv hk r hr' hrk hs => by rw [hnc r e hr' hv hs]) ih (fun c hc => lic_own hnc g.1 g.2.1 c hc)).1

theorem not_away {V : REvt → Prop} {e : REvt} (he : V e) (hk : e.ilk = .rip) : ¬ AwayP (Own V) e := fun ⟨hab, h1, h2⟩ =>
  h2 (h1 e he hk (by unfold REvt.regk; rw [if_pos hk]))

/-- C165. In histories without crash in which objects act for registries of their own habitat, an event that waits goes on waiting until the number it is
for has an accepted event, or the number before it has another one than it names. -/
theorem c165_kept_partial {env : Kel.Env} {V : REvt → Prop} (hnc : NoColl V) {nd : Node} {habs : List Id} {w w' : World}
    (h : Hist env (Orderly V) (World.start nd habs) w) (h' : Hist env (Orderly V) w w') (e : REvt) (hv : V e) (hw : Waits w.s e) :
    Waits w'.s e ∨ (∃ x, Accepted w'.s e.regk e.n x) ∨ ∃ m p, e.n = m + 1 ∧ Accepted w'.s e.regk m p ∧ p.said ≠ e.prior := by
  have h0 : WInv V (Own V) (World.start nd habs) := ⟨sinv_empty V, fun _ h => by cases h⟩
  have hi := orderly_inv hnc h0 h
  have hst : w.s.evts e.said = some e := by
    obtain ⟨x, hx⟩ : ∃ x, w.s.evts e.said = some x := by
      rcases hw with hw | hw
      · obtain ⟨x, hx, _⟩ := hi.s.mae _ _ _ hw; exact ⟨x, hx⟩
      · obtain ⟨x, hx, _⟩ := hi.s.ooe _ _ _ hw; exact ⟨x, hx⟩
    have := hi.s.evt _ _ hx
    rw [hx, hnc x e this.2 hv this.1]
  have key : WInv V (Own V) w' ∧ w'.s.evts e.said = some e ∧ (Waits w'.s e ∨ Gone w'.s e) := by
    induction h' with
    | nil => exact ⟨hi, hst, .inl hw⟩
    | @step w1 i hh g ih =>
      obtain ⟨hi1, hst1, hw1⟩ := ih
      have hl := fun c hc => lic_own hnc g.1 g.2.1 c hc
      have hs := step_inv (env := env) hnc (fun e hv hk r hr' hrk hs => by rw [hnc r e hr' hv hs]) hi1 hl
      refine ⟨hs.1, hs.2.evts _ _ hst1, ?_⟩
      cases i with
      | kel i => exact hw1
      | config h => exact hw1
      | reopen => rw [reopen_s]; exact hw1
      | crash c m => exact absurd rfl (g.2.2 c m)
      | call c =>
        rcases hw1 with hw1 | hg
        · exact (kept_blk hnc (call_blk hnc hi1.s hi1.o (hl c rfl)).1 hi1.s hst1 (not_away hv)).1 hw1
        · exact .inr (gone_ext hs.2 hg)
  obtain ⟨hi', _, hh⟩ := key
  rcases hh with hh | ⟨d, hd⟩ | ⟨p, h1, h2⟩
  · exact .inl hh
  · obtain ⟨x, hx, _⟩ := hi'.s.tel _ _ _ hd
    have := (hi'.s.evt _ _ hx).1
    exact .inr (.inl ⟨x, by rw [hd, this], by rw [this]; exact hx⟩)
  · right; right
    cases hn : e.n with
    | zero => rw [hn] at h1; cases h1
    | succ m => rw [hn] at h1; exact ⟨m, p, rfl, accepted_of hi'.s h1, h2⟩

/-! ## What the result of a delivery tells -/

theorem true_processEvent {V : REvt → Prop} (hnc : NoColl V) (nd : Node) {s : Store} (hi : SInv V s) (o : Obj) {e : REvt} (he : V e)
    (h : (processEvent nd s o e).out = some true) : (s.applyAll (processEvent nd s o e).ws).tels e.regk e.n = some e.said := by
  have hb := blk_processEvent hnc (R := fun _ => True) nd hi o he
  unfold processEvent at h hb ⊢
  cases hv : validate s o e with
  | none => rw [hv] at h; cases h
  | some r =>
    obtain ⟨x, prior⟩ := r
    have hval := validate_some hv
    rw [hv] at h hb
    cases x with
    | some x =>
      have h1 := accepted_of hi hval.2.2.2.1.symm
      show s.tels _ _ = _
      rw [h1.1, hval.2.2.2.2.1 x rfl]
    | none =>
      dsimp only at h hb ⊢
      split at h
      · cases h
      · rename_i hc
        rw [if_neg hc] at hb ⊢
        unfold advance at h hb ⊢
        split at h
        · rename_i hc'
          rw [if_pos hc'] at hb ⊢
          dsimp only at hb ⊢
          have hgood := hb.good hnc hi
          unfold commitAll at hgood ⊢
          rw [← List.cons_append, ← List.append_assoc] at hgood ⊢
          generalize hpre : ((.evt e :: anchorWrites nd s o.hab e) ++ .remM e.regk e.n e.said :: commit ((s.applyAll (.evt e :: anchorWrites nd s o.hab e)).apply
            (.remM e.regk e.n e.said)) e : List Wr) = pre at hgood ⊢
          have hg1 := good_take hgood pre.length
          rw [List.take_left'] at hg1
          · rw [applyAll_append]
            have hi1 := (good_inv hnc hi hg1).1
            have hx : Ext (s.applyAll pre) _ := (blk_inv hnc hi1 (blk_drain hnc (J := fun _ _ => True) (R := fun _ => True)
              (((((s.applyAll (.evt e :: anchorWrites nd s o.hab e)).apply (.remM e.regk e.n e.said)).applyAll
              (commit ((s.applyAll (.evt e :: anchorWrites nd s o.hab e)).apply (.remM e.regk e.n e.said)) e)).ooes e.regk).length + 1) hi1 e.regk)).2
            have hpre' : s.applyAll pre = (((s.applyAll (.evt e :: anchorWrites nd s o.hab e)).apply (.remM e.regk e.n e.said)).applyAll
              (commit ((s.applyAll (.evt e :: anchorWrites nd s o.hab e)).apply (.remM e.regk e.n e.said)) e)) := by
              rw [← hpre, applyAll_append, applyAll_cons]
            unfold processQueued
            rw [← hpre'] at hx ⊢
            refine hx.tels _ _ _ ?_
            rw [hpre']
            refine commit_taken _ _ (.inl ?_)
            show (s.applyAll (.evt e :: anchorWrites nd s o.hab e)).tels e.regk e.n = none
            rw [applyAll_cons, (anchorWrites_frame _ _ _ _ _).1]
            show s.tels e.regk e.n = none
            cases ht : s.tels e.regk e.n with
            | none => rfl
            | some d =>
              obtain ⟨y, hy, _⟩ := hi.tel _ _ _ ht
              have := hval.2.2.2.1
              simp [Store.seqEvent, ht, hy] at this
          · rfl
        · cases h

theorem false_processEvent (nd : Node) (s : Store) (o : Obj) (e : REvt) (h : (processEvent nd s o e).out = some false) :
    Waits (s.applyAll (processEvent nd s o e).ws) e := by
  unfold processEvent at h ⊢
  cases hv : validate s o e with
  | none => rw [hv] at h; cases h
  | some r =>
    obtain ⟨x, prior⟩ := r
    rw [hv] at h
    cases x with
    | some x => cases h
    | none =>
      dsimp only at h ⊢
      split at h
      · rename_i hc
        rw [if_pos hc]
        left
        rw [applyAll_append]
        show _ ∈ put _ e.regk (ioAdd _ e.n e.said) e.regk
        rw [put_same]; exact (mem_ioAdd _ _ _ _).2 (.inr rfl)
      · rename_i hc
        rw [if_neg hc]
        unfold advance at h ⊢
        split at h
        · cases h
        · rename_i hc'
          rw [if_neg hc']
          right
          dsimp only
          rw [applyAll_append]
          show _ ∈ put _ e.regk (ioAdd _ e.n e.said) e.regk
          rw [put_same]; exact (mem_ioAdd _ _ _ _).2 (.inr rfl)

/-- C165. The result of handing an event to a registry tells what became of it: after `True` it is the accepted event of its number, after `False` it
waits in an escrow. -/
theorem c165_result {env : Kel.Env} {V : REvt → Prop} (hnc : NoColl V) {w : World} (hr : Reached env V w) (h : Nat) (e : REvt) (hv : V e) :
    ((w.call (.event h e)).out = .done true → Accepted (w.step env (.call (.event h e))).s e.regk e.n e) ∧
    ((w.call (.event h e)).out = .done false → Waits (w.step env (.call (.event h e))).s e) := by
  have hi := hr.inv hnc
  show ((w.onObj h _).out = _ → Accepted (w.s.applyAll (w.onObj h _).ws) _ _ _) ∧ ((w.onObj h _).out = _ → Waits (w.s.applyAll (w.onObj h _).ws) _)
  cases ho : w.objs[h]? with
  | none => rw [onObj_none ho]; exact ⟨fun h => (by cases h), fun h => (by cases h)⟩
  | some o =>
    rw [onObj_some ho]
    dsimp only
    have hne : ∀ b, outOf (processEvent w.nd w.s o e).out = .done b → (processEvent w.nd w.s o e).out = some b := fun b hb => by
      cases hp : (processEvent w.nd w.s o e).out with
      | none => rw [hp] at hb; cases hb
      | some b' => rw [hp] at hb; cases hb; rfl
    exact ⟨fun hb => ⟨true_processEvent hnc _ hi o hv (hne _ hb), stored_processEvent hnc _ hi o hv (by rw [hne _ hb]; simp)⟩,
      fun hb => false_processEvent _ _ _ _ (hne _ hb)⟩

end Verif.Bsr
