import Verif.Grp.Whole

/-!
# Properties of group events: they are not forgotten, and are completed
-/

namespace Verif.Grp

open Verif.Kel (Id Dig Event Kever Seal Ilk)

theorem Held.step {env : Env} {x : Entry} {w : World} (h : Held x w) {i : Inp} (g : Calm w i) : Held x (w.step env i) := by
  cases i with
  | start p num d =>
    rcases h with ⟨h1, h2, h3⟩ | h
    · have hne : x.1 ≠ p := g x h1
      simp only [World.step]
      split
      · refine .inl ⟨?_, h2, fun y hy he => ?_⟩
        · rcases h1 with h | h | h
          · exact .inl (mem_entAdd.2 (.inr h))
          · exact .inr (.inl h)
          · exact .inr (.inr h)
        · rcases hy with h | h | h
          · rcases mem_entAdd.1 h with rfl | h
            · exact absurd he.symm hne
            · exact h3 y (.inl h) he
          · exact h3 y (.inr (.inl h)) he
          · exact h3 y (.inr (.inr h)) he
      · exact .inl ⟨h1, h2, h3⟩
    · refine .inr ?_
      simp only [World.step]
      split <;> exact h
  | delegation p sn => exact writes_keep (P := Held x) (fun _ _ h l => h.deleg l) _ delegation_deleg h
  | counsel => exact h.counsel g.1 g.2
  | anchor => exact anchor_keeps_all (P := Held x) (fun _ _ h l => Held.deleg h l) h
  | pubStart p => simp only [World.step]; split <;> exact h
  | pubDone p => simp only [World.step]; split <;> exact h
  | crashCounsel n => exact g.elim
  | crashAnchor n => exact anchor_keeps (env := env) (P := Held x) (fun _ _ h l => Held.deleg h l) h n
  | _ => exact h

/-- C138, full statement: an event that was started waits or has been completed, ever after. Proved if events of a group are started one after the other, passes of the Counselor
raise nothing and are not interrupted, and logged events have signatures. Without that events are lost: see `c138_two`, `c138_crash`, `c138_raise`. -/
theorem c138_kept_partial {env : Env} {w1 w : World} {p : Id} {num : Num} {d : Dig} (hok : startOk w1 p num = true) (hcalm : Calm w1 (.start p num d))
    (hnew : w1.cgms p num = none) (h : Hist env Calm (w1.step env (.start p num d)) w) : Waits w (p, num, d) ∨ w.cgms p num = some d := by
  have h0 : Held (p, num, d) (w1.step env (.start p num d)) := by
    simp only [World.step, hok, if_true]
    refine .inl ⟨.inl (mem_entAdd.2 (.inl rfl)), hnew, fun y hy he => ?_⟩
    rcases hy with h | h | h
    · rcases mem_entAdd.1 h with h | h
      · exact h
      · exact absurd he (hcalm y (.inl h))
    · exact absurd he (hcalm y (.inr (.inl h)))
    · exact absurd he (hcalm y (.inr (.inr h)))
  have hw : Held (p, num, d) w := by
    clear hok hcalm hnew
    induction h with
    | nil => exact h0
    | step i _ g ih => exact ih.step g
  rcases hw with h | h
  · exact .inl h.1
  · exact .inr h

/-! ## Completion -/

/-- There are as many receipts as witnesses, and the receiptor of the elected member has reported that it is done. -/
def Receipts (w : World) (x : Entry) (k : Kever) (el : Bool) : Prop :=
  (w.node.db.wigs x.1 x.2.2).length = k.wits.length ∧ (el = false ∨ k.wits = [] ∨ (x.1, x.2.1.num) ∈ w.ccues)

/-- All an event needs is there: it waits for signatures, is logged with signatures and needs no approval, or waits for approval and it was found, and has its receipts, or its
delegation is complete. -/
inductive Ready (w : World) (x : Entry) : Prop
  | signed (k : Kever) (el : Bool) (hk : w.node.kevers x.1 = some k) (hel : elected w x.1 k = .ok el) (hx : x ∈ w.gpse) (sd : Dig)
      (hl : lastAt w.node x.1 x.2.1.num = some sd) (hs : w.node.db.sigs x.1 sd ≠ []) (hn : k.delpre = none ∨ (k.ilk ≠ .dip ∧ k.ilk ≠ .drt))
      (hr : Receipts w x k el)
  | approved (k : Kever) (hk : w.node.kevers x.1 = some k) (hel : elected w x.1 k = .ok false) (hx : x ∈ w.gdee) (dp : Id) (hd : k.delpre = some dp)
      (hf : (w.node.findSeal dp ⟨x.1, x.2.1.num, x.2.2⟩).isSome = true) (hr : Receipts w x k false)
  | delegated (k : Kever) (hk : w.node.kevers x.1 = some k) (hel : elected w x.1 k = .ok true) (hx : x ∈ w.gdee) (hd : (w.cdel x.1 k.sn).isSome = true)
  | receipted (k : Kever) (el : Bool) (hk : w.node.kevers x.1 = some k) (hel : elected w x.1 k = .ok el) (hx : x ∈ w.gpwe) (hr : Receipts w x k el)

theorem isSome_apply {w : World} {p : Id} {num : Num} (h : (w.cgms p num).isSome = true) (ws : List Wr) : ((w.applyAll ws).cgms p num).isSome = true := by
  obtain ⟨d, hd⟩ := Option.isSome_iff_exists.1 h
  rw [applyAll_cgms hd]; rfl

theorem put_isSome {w : World} {x : Entry} {ws : List Wr} : ((w.applyAll (ws ++ [.cgmsPut x])).cgms x.1 x.2.1).isSome = true := by
  rw [applyAll_append]
  show (((w.applyAll ws).apply (.cgmsPut x)).cgms x.1 x.2.1).isSome = true
  simp only [World.apply]
  split
  · simp [Kel.upd2]
  · rename_i h; rw [h]; rfl

/-- What waits for receipts and has them is completed. -/
theorem receipts_done {w : World} {x : Entry} {k : Kever} {el : Bool} (hk : w.node.kevers x.1 = some k) (hel : elected w x.1 k = .ok el) (hx : x ∈ w.gpwe)
    (hr : Receipts w x k el) (he : (pass partialWitness w w.gpwe).2 = none) : ((w.applyAll (pass partialWitness w w.gpwe).1).cgms x.1 x.2.1).isSome = true := by
  refine (pass_reach (P := fun _ => True) (Q := fun w => (w.cgms x.1 x.2.1).isSome = true) _ he (by intros; trivial) (fun w' _ _ hq y _ _ => isSome_apply hq _)
    (.inr ⟨x, hx, fun w' fr _ hn => ?_⟩) trivial).2
  obtain ⟨h1, h2⟩ := hr
  rw [← fr.elected] at hel
  rw [← fr.kevers] at hk
  unfold partialWitness at hn ⊢
  rw [hk] at hn ⊢
  dsimp only at hn ⊢
  split
  · rename_i hh; rw [hh] at hn; cases hn
  rw [hel]
  dsimp only
  rw [if_pos (by rw [fr.wigs]; exact h1)]
  rw [if_neg]
  · exact put_isSome (ws := [.gpweRem x.1])
  · rw [fr.ccues]
    rcases h2 with rfl | h2 | h2
    · simp
    · simp [h2]
    · simp [h2]

theorem in_gpwe_later {f : World → Entry → List Wr × Option Err} (hf : ∀ w y, ∀ z ∈ (f w y).1, ∀ p, z ≠ .gpweRem p) {w : World} {x : Entry} (xs : List Entry)
    (he : (pass f w xs).2 = none)
    (hR : x ∈ w.gpwe ∨ ∃ y ∈ xs, ∀ w', Frame w w' → (f w' y).2 = none → ∃ ws, (f w' y).1 = ws ++ [.gpweAdd x]) : x ∈ (w.applyAll (pass f w xs).1).gpwe := by
  have one : ∀ (w : World) (z : Wr), x ∈ w.gpwe → (∀ p, z ≠ .gpweRem p) → x ∈ (w.apply z).gpwe := by
    intro w z hx hz
    cases z with
    | gpweRem p => exact absurd rfl (hz p)
    | gpweAdd y => exact mem_entAdd.2 (.inr hx)
    | cgmsPut y => simp only [World.apply]; split <;> exact hx
    | cdelPut q sn d => simp only [World.apply]; split <;> exact hx
    | pubFeed q n => simp only [World.apply]; split <;> exact hx
    | _ => exact hx
  refine (pass_reach (P := fun _ => True) (Q := fun w => x ∈ w.gpwe) _ he (by intros; trivial)
    (fun w' _ _ hq y _ _ => writes_keep (P := fun w => x ∈ w.gpwe) (fun w z h l => one w z h l) _ (hf w' y) hq) ?_ trivial).2
  rcases hR with h | ⟨y, hy, h⟩
  · exact .inl h
  · refine .inr ⟨y, hy, fun w' fr _ hn => ?_⟩
    obtain ⟨ws, hws⟩ := h w' fr hn
    rw [hws, applyAll_append]
    exact mem_entAdd.2 (.inl rfl)

theorem partialSigned_kinds {w : World} {y : Entry} : ∀ z ∈ (partialSigned w y).1, z = .gpseRem y.1 ∨ z = .gdeeAdd y ∨ z = .gpweAdd y ∨ z.deleg := by
  intro z hz
  unfold partialSigned at hz
  split at hz
  · simp at hz
  split at hz
  · simp at hz; exact .inl hz
  split at hz
  · simp at hz; exact .inl hz
  split at hz
  · simp at hz; exact .inl hz
  split at hz
  · simp at hz; exact .inl hz
  split at hz
  · simp at hz; exact .inl hz
  split at hz
  · split at hz
    · split at hz
      · rename_i ws e hd
        rcases List.mem_cons.1 hz with h | h
        · exact .inl h
        · exact .inr (.inr (.inr (delegation_deleg (w := w) (p := y.1) (sn := some y.2.1.num) _ (by rw [hd]; exact h))))
      · rename_i ws hd
        simp only [List.cons_append, List.mem_cons, List.mem_append, List.not_mem_nil, or_false] at hz
        rcases hz with h | h | h
        · exact .inl h
        · exact .inr (.inr (.inr (delegation_deleg (w := w) (p := y.1) (sn := some y.2.1.num) _ (by rw [hd]; exact h))))
        · exact .inr (.inl h)
    · simp at hz; rcases hz with h | h
      · exact .inl h
      · exact .inr (.inl h)
  · split at hz
    · simp at hz; rcases hz with h | rfl | h
      · exact .inl h
      · exact .inr (.inr (.inr trivial))
      · exact .inr (.inr (.inl h))
    · simp at hz; rcases hz with h | h
      · exact .inl h
      · exact .inr (.inr (.inl h))

theorem partialSigned_noRem {w : World} {y : Entry} : ∀ z ∈ (partialSigned w y).1, ∀ p, z ≠ .gpweRem p := by
  rintro z hz p rfl
  rcases partialSigned_kinds _ hz with h | h | h | h <;> cases h

theorem partialSigned_noRemD {w : World} {y : Entry} : ∀ z ∈ (partialSigned w y).1, ∀ p, z ≠ .gdeeRem p := by
  rintro z hz p rfl
  rcases partialSigned_kinds _ hz with h | h | h | h <;> cases h

theorem in_gdee_later {w : World} {x : Entry} (hx : x ∈ w.gdee) (h : (pass partialSigned w w.gpse).2 = none) :
    x ∈ (w.applyAll (pass partialSigned w w.gpse).1).gdee ∧ (w.applyAll (pass partialSigned w w.gpse).1).cdel = w.cdel := by
  refine pass_whole (P := fun w' => x ∈ w'.gdee ∧ w'.cdel = w.cdel) _ h (fun w' fr hq y hy hn => ?_) ⟨hx, rfl⟩
  have one : ∀ (w : World) (z : Wr), x ∈ w.gdee → (∀ p, z ≠ .gdeeRem p) → x ∈ (w.apply z).gdee := by
    intro w z hx hz
    cases z with
    | gdeeRem p => exact absurd rfl (hz p)
    | gdeeAdd y => exact mem_entAdd.2 (.inr hx)
    | cgmsPut y => simp only [World.apply]; split <;> exact hx
    | cdelPut q sn d => simp only [World.apply]; split <;> exact hx
    | pubFeed q n => simp only [World.apply]; split <;> exact hx
    | _ => exact hx
  exact ⟨writes_keep (P := fun w => x ∈ w.gdee) (fun w z h l => one w z h l) _ partialSigned_noRemD hq.1, (applyAll_cdel partialSigned_noCdel).trans hq.2⟩

theorem delegateEsc_noRem {w : World} {y : Entry} : ∀ z ∈ (delegateEsc w y).1, ∀ p, z ≠ .gpweRem p := by
  intro z hz p he
  subst he
  unfold delegateEsc at hz
  split at hz
  · simp at hz
  split at hz
  · simp at hz
  split at hz
  · simp at hz
  · split at hz <;> simp at hz
  · split at hz
    · simp at hz
    split at hz <;> simp at hz

/-- C139. A group event that has all it needs is complete after the next pass of the Counselor, unless the pass raises an exception. -/
theorem c139_completed {env : Env} {w : World} {x : Entry} (hr : Ready w x) (he : (counsel w).2 = none) : ((w.step env .counsel).cgms x.1 x.2.1).isSome = true := by
  obtain ⟨w1, w2, e1, n1, e2, n2, n3, e3⟩ := counsel_parts he
  show ((w.applyAll (counsel w).1).cgms x.1 x.2.1).isSome = true
  rw [e3]
  have f1 : Frame w w1 := e1 ▸ frame_applyAll _ _
  have f2 : Frame w w2 := f1.trans (e2 ▸ frame_applyAll _ _)
  have fin : ∀ k el, w.node.kevers x.1 = some k → elected w x.1 k = .ok el → x ∈ w2.gpwe → Receipts w x k el →
      ((w2.applyAll (pass partialWitness w2 w2.gpwe).1).cgms x.1 x.2.1).isSome = true := by
    intro k el hk hel hx ⟨h1, h2⟩
    exact receipts_done (k := k) (el := el) (by rw [f2.kevers]; exact hk) (by rw [f2.elected]; exact hel) hx
      ⟨by rw [f2.wigs]; exact h1, by rw [f2.ccues]; exact h2⟩ n3
  cases hr with
  | signed k el hk hel hx sd hl hs hn hr =>
    refine fin k el hk hel ?_ hr
    have : x ∈ w1.gpwe := by
      rw [e1]
      refine in_gpwe_later (fun _ _ => partialSigned_noRem) _ n1 (.inr ⟨x, hx, fun w' fr h => ?_⟩)
      unfold partialSigned at h ⊢
      rw [fr.last, hl] at h ⊢
      dsimp only at h ⊢
      split
      · rename_i hh; rw [hh] at h; cases h
      rename_i hb hh
      rw [hh, fr.kevers, hk] at h
      rw [fr.kevers, hk]
      dsimp only at h ⊢
      split
      · rename_i hm; rw [fr.sigs] at hm; exact absurd (minIndex_none hm) hs
      rename_i i hi
      rw [hi] at h
      dsimp only at h
      split
      · rename_i hm; rw [hm] at h; cases h
      rename_i mk hm
      rw [hm] at h
      dsimp only at h
      split
      · rename_i hki; rw [hki] at h; cases h
      rw [if_neg]
      · split
        · exact ⟨[_, _], rfl⟩
        · exact ⟨[_], rfl⟩
      · rintro ⟨h1, h2⟩
        rcases hn with hn | hn
        · rw [hn] at h1; cases h1
        · rcases h2 with h2 | h2
          · exact hn.1 h2
          · exact hn.2 h2
    rw [e2]
    exact in_gpwe_later (fun _ _ => delegateEsc_noRem) _ n2 (.inl this)
  | approved k hk hel hx dp hd hf hr =>
    have hx1 : x ∈ w1.gdee := by
      rw [e1]
      exact (in_gdee_later hx n1).1
    refine fin k false hk hel ?_ hr
    rw [e2]
    refine in_gpwe_later (fun _ _ => delegateEsc_noRem) _ n2 (.inr ⟨x, hx1, fun w' fr h => ?_⟩)
    have fr := f1.trans fr
    unfold delegateEsc at h ⊢
    split
    · rename_i hh; rw [hh] at h; cases h
    rw [fr.kevers, hk]
    dsimp only
    rw [fr.elected, hel]
    dsimp only
    rw [hd]
    dsimp only
    rw [fr.findSeal]
    cases hf' : w.node.findSeal dp ⟨x.1, x.2.1.num, x.2.2⟩ with
    | none => rw [hf'] at hf; cases hf
    | some de => exact ⟨[_, _, _], rfl⟩
  | delegated k hk hel hx hd =>
    obtain ⟨hx1, hcd⟩ := in_gdee_later hx n1
    rw [← e1] at hx1 hcd
    refine isSome_apply ?_ _
    rw [e2]
    refine (pass_reach (P := fun w' => w'.cdel = w.cdel) (Q := fun w => (w.cgms x.1 x.2.1).isSome = true) _ n2
      (fun w' _ hp y _ _ => (applyAll_cdel delegateEsc_noCdel).trans hp) (fun w' _ _ hq y _ _ => isSome_apply hq _)
      (.inr ⟨x, hx1, fun w' fr hp h => ?_⟩) hcd).2
    have fr := f1.trans fr
    unfold delegateEsc at h ⊢
    split
    · rename_i hh; rw [hh] at h; cases h
    rw [fr.kevers, hk]
    dsimp only
    rw [fr.elected, hel]
    dsimp only
    rw [hp, if_pos hd]
    exact put_isSome (ws := [.gdeeRem x.1])
  | receipted k el hk hel hx hr =>
    refine fin k el hk hel ?_ hr
    have : x ∈ w1.gpwe := by
      rw [e1]
      exact in_gpwe_later (fun _ _ => partialSigned_noRem) _ n1 (.inl hx)
    rw [e2]
    exact in_gpwe_later (fun _ _ => delegateEsc_noRem) _ n2 (.inl this)

end Verif.Grp
