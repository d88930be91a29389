import Verif.Bsr.PropsLog

/-! # Calls on one registry leave the others alone; what a commit does to the log -/

namespace Verif.Bsr

open Verif.Kel (Id Dig Node Seal)

/-- The write is about registry `k`, or about no registry. -/
def Wr.only (k : Dig) : Wr → Prop
  | .tel k' _ _ => k' = k
  | .head k' _ => k' = k
  | .addM k' _ _ => k' = k
  | .addO k' _ _ => k' = k
  | .remM k' _ _ => k' = k
  | .remO k' _ _ => k' = k
  | _ => True

def Only (k : Dig) (ws : List Wr) : Prop := ∀ w ∈ ws, w.only k

theorem Only.append {k : Dig} {a b : List Wr} (ha : Only k a) (hb : Only k b) : Only k (a ++ b) := fun w hw => by
  rcases List.mem_append.1 hw with h | h
  · exact ha w h
  · exact hb w h

theorem Only.cons {k : Dig} {w : Wr} {l : List Wr} (hw : w.only k) (hl : Only k l) : Only k (w :: l) := fun x hx => by
  rcases List.mem_cons.1 hx with rfl | h
  · exact hw
  · exact hl x h

theorem only_nil (k : Dig) : Only k [] := fun _ h => by cases h

theorem only_commit (s : Store) (e : REvt) : Only e.regk (commit s e) := by
  unfold commit
  refine Only.append (Only.append ?_ fun w hw => ?_) fun w hw => ?_
  · intro w hw; simp only [List.mem_cons, List.not_mem_nil, or_false] at hw
    rcases hw with rfl | rfl | rfl <;> simp [Wr.only]
  · obtain ⟨d, _, rfl⟩ := List.mem_map.1 hw; rfl
  · obtain ⟨d, _, rfl⟩ := List.mem_map.1 hw; rfl

theorem only_clear (k : Dig) (n : Nat) (d : Dig) : Only k (clear k n d) := Only.cons rfl (Only.cons rfl (only_nil k))

theorem only_walk {V : REvt → Prop} (hnc : NoColl V) {k : Dig} {n : Nat} (l : List Dig) {s : Store} (hi : SInv V s) (hq : Queued s k n l) :
    Only k (walk s k n l).1 ∧ ∀ e, (walk s k n l).2 = some e → e.regk = k := by
  induction l generalizing s with
  | nil => exact ⟨only_nil k, by simp [walk]⟩
  | cons d l ih =>
    have hq' : ∀ s', Ext s s' → Queued s' k n l := fun s' hx =>
      ⟨hq.1, fun d hd => let ⟨e, a, b⟩ := hq.2 d (List.mem_cons_of_mem _ hd); ⟨e, hx.evts _ _ a, b⟩⟩
    unfold walk
    cases hv : verdict s k n d with
    | clear =>
      have hg := good_inv hnc hi (good_clear (V := V) (J := fun _ _ => True) s k n d)
      have := ih hg.1 (hq' _ hg.2)
      exact ⟨(only_clear k n d).append this.1, this.2⟩
    | wait => exact ih hi (hq' _ (Ext.refl s))
    | commit e =>
      obtain ⟨e0, h0, hs⟩ := hq.2 d List.mem_cons_self
      obtain ⟨rfl, _, _⟩ := verdict_ready hi h0 hs hq.1 hv
      refine ⟨?_, fun e' he => by cases he; exact hs.regk⟩
      have := only_commit s e; rw [hs.regk] at this; exact this

theorem only_drain {V : REvt → Prop} (hnc : NoColl V) (f : Nat) {s : Store} (hi : SInv V s) (k : Dig) : Only k (drain f s k) := by
  induction f generalizing s with
  | zero => exact only_nil k
  | succ f ih =>
    unfold drain
    by_cases h : at' (s.ooes k) (s.next k) = []
    · rw [if_pos h]; exact only_nil k
    · rw [if_neg h]
      have hq := queued_of hi k _ h
      have hw := only_walk hnc _ hi hq
      have hb := blk_walk hnc (J := fun _ _ => True) (R := fun _ => True) _ hi hq rfl
      split
      · rename_i ws he; rw [he] at hw; exact hw.1
      · rename_i ws e he; rw [he] at hw hb
        rw [hw.2 e rfl]
        exact hw.1.append (ih (blk_inv hnc hi hb.1).1)

theorem only_anchorWrites (nd : Node) (s : Store) (hab : Id) (e : REvt) (k : Dig) : Only k (anchorWrites nd s hab e) := by
  unfold anchorWrites
  split
  · exact only_nil k
  · split
    · exact only_nil k
    · split
      · exact Only.cons trivial (only_nil k)
      · exact only_nil k

theorem processEvent_inv {V : REvt → Prop} (hnc : NoColl V) (nd : Node) {s : Store} (hi : SInv V s) (o : Obj) {e : REvt} (he : V e) :
    SInv V (s.applyAll (processEvent nd s o e).ws) ∧ Ext s (s.applyAll (processEvent nd s o e).ws) :=
  blk_inv hnc hi (blk_processEvent hnc (R := fun _ => True) nd hi o he)

theorem only_processEvent {V : REvt → Prop} (hnc : NoColl V) (nd : Node) {s : Store} (hi : SInv V s) (o : Obj) {e : REvt} (he : V e) :
    Only e.regk (processEvent nd s o e).ws := by
  have hb := blk_processEvent hnc (R := fun _ => True) nd hi o he
  unfold processEvent at hb ⊢
  cases hv : validate s o e with
  | none => exact only_nil _
  | some r =>
    rw [hv] at hb
    obtain ⟨x, prior⟩ := r
    cases x with
    | some x => exact only_nil _
    | none =>
      dsimp only at hb ⊢
      have h1 : Only e.regk (.evt e :: anchorWrites nd s o.hab e) := Only.cons trivial (only_anchorWrites _ _ _ _ _)
      split
      · exact h1.append (Only.cons rfl (only_nil _))
      · rename_i hc
        rw [if_neg hc] at hb
        unfold advance at hb ⊢
        split
        · rename_i hc'
          rw [if_pos hc'] at hb
          refine h1.append (Only.cons rfl ((only_commit _ e).append ?_))
          have hgood := hb.good hnc hi
          have : Good V (Anch nd o.hab e.regk) s ((.evt e :: anchorWrites nd s o.hab e) ++ (.remM e.regk e.n e.said ::
              commit ((s.applyAll (.evt e :: anchorWrites nd s o.hab e)).apply (.remM e.regk e.n e.said)) e)) := by
            have h2 := good_take hgood (((.evt e :: anchorWrites nd s o.hab e) ++ (.remM e.regk e.n e.said ::
              commit ((s.applyAll (.evt e :: anchorWrites nd s o.hab e)).apply (.remM e.regk e.n e.said)) e)).length)
            unfold commitAll at h2
            dsimp only at h2
            rw [← List.cons_append (a := Wr.remM e.regk e.n e.said), ← List.append_assoc, List.take_left'] at h2
            · exact h2
            · rfl
          have h3 := (good_inv hnc hi this).1
          rw [applyAll_append, applyAll_cons] at h3
          exact only_drain hnc _ h3 _
        · exact h1.append (Only.cons rfl (Only.cons rfl (only_nil _)))

theorem only_missOne {V : REvt → Prop} (hnc : NoColl V) (nd : Node) {s : Store} (hi : SInv V s) (o : Obj) (k : Dig) (x : Nat × Dig)
    (hx : ∃ e, s.evts x.2 = some e ∧ Slot e k x.1) : Only k (missOne nd s o k x).1 := by
  unfold missOne
  split
  · exact only_clear _ _ _
  · rename_i e he
    obtain ⟨e', he', hs⟩ := hx
    rw [he] at he'; cases he'
    split
    · exact only_clear _ _ _
    · split
      · exact only_clear _ _ _
      · have := only_processEvent hnc nd hi o (hi.evt _ _ he).2
        rw [hs.regk] at this; exact this

theorem only_missAll {V : REvt → Prop} (hnc : NoColl V) (nd : Node) (k : Dig) (l : List (Nat × Dig)) {s : Store} (hi : SInv V s) (o : Obj)
    (hk : o.regk = some k) (hl : ∀ x ∈ l, ∃ e, s.evts x.2 = some e ∧ Slot e k x.1) : Only k (missAll nd k l s o).1 := by
  induction l generalizing s o with
  | nil => exact only_nil k
  | cons x l ih =>
    have h1 := missOne_blk hnc nd hi o k hk x (hl x List.mem_cons_self)
    have h2 := missOne_obj nd s o k hk x
    have hx := blk_inv hnc hi h1
    exact (only_missOne hnc nd hi o k x (hl x List.mem_cons_self)).append
      (ih hx.1 _ h2.2 (fun y hy => let ⟨e, a, b⟩ := hl y (List.mem_cons_of_mem _ hy); ⟨e, hx.2.evts _ _ a, b⟩))

theorem only_escrows {V : REvt → Prop} (hnc : NoColl V) (nd : Node) {s : Store} (hi : SInv V s) (o : Obj) (k : Dig) (hk : o.regk = some k) :
    Only k (escrows nd s o).1 := by
  unfold escrows
  rw [hk]
  have hm := missAll_blk hnc nd k (s.maes k) hi o hk (fun x hx => hi.mae k x.1 x.2 hx)
  exact (only_missAll hnc nd k _ hi o hk (fun x hx => hi.mae k x.1 x.2 hx)).append (only_drain hnc _ (blk_inv hnc hi hm.1).1 k)

/-- The parts of the store about `k` agree. -/
structure Same (k : Dig) (s s' : Store) : Prop where
  tels : s'.tels k = s.tels k
  heads : s'.heads k = s.heads k
  maes : s'.maes k = s.maes k
  ooes : s'.ooes k = s.ooes k

theorem Same.refl (k : Dig) (s : Store) : Same k s s := ⟨rfl, rfl, rfl, rfl⟩

theorem Same.trans {k : Dig} {a b c : Store} (h : Same k a b) (h' : Same k b c) : Same k a c :=
  ⟨h'.tels.trans h.tels, h'.heads.trans h.heads, h'.maes.trans h.maes, h'.ooes.trans h.ooes⟩

theorem same_apply {k k' : Dig} (hne : k ≠ k') (s : Store) (w : Wr) (h : w.only k') : Same k s (s.apply w) := by
  cases w with
  | tel a n d =>
    simp only [Wr.only] at h; subst h
    simp only [Store.apply]
    split
    · exact Same.refl _ _
    · exact ⟨put_ne _ _ hne, rfl, rfl, rfl⟩
  | head a d => simp only [Wr.only] at h; subst h; exact ⟨rfl, put_ne _ _ hne, rfl, rfl⟩
  | addM a n d => simp only [Wr.only] at h; subst h; exact ⟨rfl, rfl, put_ne _ _ hne, rfl⟩
  | addO a n d => simp only [Wr.only] at h; subst h; exact ⟨rfl, rfl, rfl, put_ne _ _ hne⟩
  | remM a n d => simp only [Wr.only] at h; subst h; exact ⟨rfl, rfl, put_ne _ _ hne, rfl⟩
  | remO a n d => simp only [Wr.only] at h; subst h; exact ⟨rfl, rfl, rfl, put_ne _ _ hne⟩
  | _ => exact ⟨rfl, rfl, rfl, rfl⟩

theorem same_only {k k' : Dig} (hne : k ≠ k') (ws : List Wr) (s : Store) (h : Only k' ws) : Same k s (s.applyAll ws) := by
  induction ws generalizing s with
  | nil => exact Same.refl _ _
  | cons w l ih => exact (same_apply hne s w (h w List.mem_cons_self)).trans (ih _ fun x hx => h x (List.mem_cons_of_mem _ hx))

/-! ## What a commit does -/

theorem rems_frame (l : List Wr) (h : ∀ w ∈ l, (∃ k n d, w = .remM k n d) ∨ ∃ k n d, w = .remO k n d) (s : Store) :
    (s.applyAll l).tels = s.tels ∧ (s.applyAll l).heads = s.heads ∧ (s.applyAll l).evts = s.evts ∧ (s.applyAll l).ancs = s.ancs ∧
      (s.applyAll l).records = s.records := by
  induction l generalizing s with
  | nil => exact ⟨rfl, rfl, rfl, rfl, rfl⟩
  | cons w l ih =>
    have := ih (fun x hx => h x (List.mem_cons_of_mem _ hx)) (s.apply w)
    rw [applyAll_cons]
    rcases h w List.mem_cons_self with ⟨_, _, _, rfl⟩ | ⟨_, _, _, rfl⟩ <;> exact this

theorem commit_parts (s : Store) (e : REvt) : ∃ l, commit s e = [.evt e, .tel e.regk e.n e.said, .head e.regk e.said] ++ l ∧
    (∀ w ∈ l, (∃ k n d, w = .remM k n d) ∨ ∃ k n d, w = .remO k n d) := by
  refine ⟨(at' (s.maes e.regk) e.n).map (.remM e.regk e.n) ++ (at' (s.ooes e.regk) e.n).map (.remO e.regk e.n), ?_, fun w hw => ?_⟩
  · unfold commit; rw [List.append_assoc]
  · rcases List.mem_append.1 hw with hw | hw <;> obtain ⟨d, _, rfl⟩ := List.mem_map.1 hw
    · exact .inl ⟨_, _, _, rfl⟩
    · exact .inr ⟨_, _, _, rfl⟩

theorem commit_heads (s : Store) (e : REvt) : (s.applyAll (commit s e)).heads = put s.heads e.regk (some e.said) := by
  obtain ⟨l, h1, h2⟩ := commit_parts s e
  rw [h1, applyAll_append, (rems_frame l h2 _).2.1]
  show (((s.apply (.evt e)).apply (.tel e.regk e.n e.said)).apply (.head e.regk e.said)).heads = _
  have : ((s.apply (.evt e)).apply (.tel e.regk e.n e.said)).heads = s.heads := by simp only [Store.apply]; split <;> rfl
  simp only [Store.apply] at this ⊢
  rw [this]

theorem commit_tels (s : Store) (e : REvt) : (s.applyAll (commit s e)).tels = (s.apply (.tel e.regk e.n e.said)).tels := by
  obtain ⟨l, h1, h2⟩ := commit_parts s e
  rw [h1, applyAll_append, (rems_frame l h2 _).1]
  show (((s.apply (.evt e)).apply (.tel e.regk e.n e.said)).apply (.head e.regk e.said)).tels = _
  simp only [Store.apply]
  split <;> rfl

theorem tel_cases {s : Store} {k : Dig} {n : Nat} {d : Dig} {k' : Dig} {n' : Nat} {d' : Dig} (h : (s.apply (.tel k n d)).tels k' n' = some d') :
    s.tels k' n' = some d' ∨ (k' = k ∧ n' = n ∧ d' = d ∧ s.tels k n = none) := by
  simp only [Store.apply] at h
  split at h
  · exact .inl h
  · rename_i hn
    simp only [put] at h
    split at h
    · rename_i hk
      simp only [put] at h
      split at h
      · rename_i hn'; cases h; exact .inr ⟨hk, hn', rfl, hn⟩
      · exact .inl (by rw [hk]; exact h)
    · exact .inl h

/-- The log has no gaps. -/
theorem gapless {V : REvt → Prop} {s : Store} (hi : SInv V s) {k : Dig} {n : Nat} (h : (s.tels k n).isSome = true) (m : Nat) (hm : m ≤ n) :
    (s.tels k m).isSome = true := by
  induction n with
  | zero => have : m = 0 := by omega
            rw [this]; exact h
  | succ n ih =>
    by_cases hmn : m = n + 1
    · rw [hmn]; exact h
    · refine ih ?_ (by omega)
      cases ht : s.tels k (n + 1) with
      | none => rw [ht] at h; cases h
      | some d =>
        obtain ⟨e, _, _, _, hp⟩ := hi.tel _ _ _ ht
        obtain ⟨p, hp, _⟩ := hp (by omega)
        have := (accepted_of hi (show s.seqEvent k n = some p from hp)).1
        rw [this]; rfl

end Verif.Bsr
