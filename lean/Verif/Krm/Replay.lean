import Verif.Krm.Frames

/-! # No message of no exchange is handed on twice: the induction -/

namespace Verif.Krm

open Verif.Kel (Id Dig Sig)

/-- The ways the sender of the message can authenticate in a history. -/
def Ways (A : Auth → Prop) (m : Msg) (l : List Step) : Prop :=
  ∀ x ∈ delivered l, x.2.2.1 = m → (HasSeal m x.2.2.2 → A .asr) ∧ ∀ ks, x.1.kevers m.sender = some ks → A (sigAuth ks)

/-- What is in the cache of the message protects it from what comes. -/
def Kept (A : Auth → Prop) (m : Msg) (mdt t : Int) (k : Krm) (l : List Step) : Prop :=
  ∀ c, ((m.sender, m.said), c) ∈ k.msgc → c.mdt = mdt ∧ mdt ≤ t + 1000 * c.d ∧ ∀ r ∈ inForce m k l, ∀ b, A b → r.d + (lags r b).1 ≤ c.d + c.pml

/-- In the cache, or too old for good. -/
def Spent (A : Auth → Prop) (m : Msg) (mdt t : Int) (k : Krm) (l : List Step) : Prop :=
  k.msgc.get (m.sender, m.said) ≠ none ∨ ∀ r ∈ inForce m k l, ∀ b, A b → mdt < t - 1000 * (r.d + (lags r b).1)

/-- Each window of acceptance that applies to the message lies inside the windows of pruning that applied to it before. -/
def Nested (A : Auth → Prop) (l : List Rec) : Prop := List.Pairwise (fun r r' => ∀ a, A a → ∀ b, A b → r'.d + (lags r' b).1 ≤ r.d + (lags r a).2) l

theorem delivered_tail {x : Env × Int × Msg × Kwa} {a : Step} {l : List Step} (h : x ∈ delivered l) : x ∈ delivered (a :: l) := by
  cases a with
  | deliver env now m kwa => exact List.mem_cons_of_mem _ h
  | _ => exact h

theorem Ways.tail {A : Auth → Prop} {m : Msg} {a : Step} {l : List Step} (h : Ways A m (a :: l)) : Ways A m l :=
  fun x hx => h x (delivered_tail hx)

theorem Binds.tail {m : Msg} {a : Step} {l : List Step} (h : Binds m (a :: l)) : Binds m l := fun x hx => h x (delivered_tail hx)

theorem inForce_tail {m : Msg} {k : Krm} {a : Step} {l : List Step} {r : Rec} (h : r ∈ inForce m (step k a) l) : r ∈ inForce m k (a :: l) :=
  List.mem_append_right _ h

theorem Nested.tail {A : Auth → Prop} {m : Msg} {k : Krm} {a : Step} {l : List Step} (h : Nested A (inForce m k (a :: l))) : Nested A (inForce m (step k a) l) :=
  (List.pairwise_append.1 h).2.1

/-- A step that leaves the cache of the message alone, or lets it expire. -/
theorem Kept.step {A : Auth → Prop} {m : Msg} {mdt t : Int} {k : Krm} {a : Step} {l : List Step} (ht : t ≤ a.now) (h : Kept A m mdt t k (a :: l))
    (hm : ∀ c, ((m.sender, m.said), c) ∈ (Verif.Krm.step k a).msgc → ((m.sender, m.said), c) ∈ k.msgc) : Kept A m mdt a.now (Verif.Krm.step k a) l := by
  intro c hc
  obtain ⟨h1, h2, h3⟩ := h c (hm c hc)
  exact ⟨h1, by omega, fun r hr => h3 r (inForce_tail hr)⟩

theorem Spent.step {A : Auth → Prop} {m : Msg} {mdt t : Int} {k : Krm} {a : Step} {l : List Step} (ht : t ≤ a.now) (h : Spent A m mdt t k (a :: l))
    (hm : (Verif.Krm.step k a).msgc.get (m.sender, m.said) = k.msgc.get (m.sender, m.said)) : Spent A m mdt a.now (Verif.Krm.step k a) l := by
  rcases h with h | h
  · exact Or.inl (by rw [hm]; exact h)
  · refine Or.inr fun r hr b hb => ?_
    have := h r (inForce_tail hr) b hb
    omega

/-- Pruning. -/
theorem Spent.prune {A : Auth → Prop} {m : Msg} {mdt t now : Int} {k : Krm} {l : List Step} (ht : t ≤ now) (hk : Kept A m mdt t k (.prune now :: l))
    (h : Spent A m mdt t k (.prune now :: l)) : Spent A m mdt now (Verif.Krm.prune now k) l := by
  rcases prune_msgc now k (m.sender, m.said) with h1 | ⟨c, h1, h2⟩
  · exact Spent.step (a := .prune now) ht h h1
  · obtain ⟨e, h3, h4⟩ := hk c h1
    refine Or.inr fun r hr b hb => ?_
    have h5 := h4 r (inForce_tail (a := .prune now) hr) b hb
    have h6 : ¬ (now / 1000 - c.d - c.pml ≤ c.mdt / 1000 ∧ c.mdt / 1000 ≤ now / 1000 + c.d) := by
      intro h7
      unfold keepMsg at h2
      rw [decide_eq_true h7] at h2
      exact absurd h2 (by simp)
    omega

/-- What a delivery of another message does to the tables. -/
theorem deliver_apart (env : Env) (now : Int) (k : Krm) (m' : Msg) (kwa : Kwa) : ∃ k1, Held k k1 ∧ Apart m' k1 (deliver env now k m' kwa).1 := by
  have h := reconcile_held now k
  unfold deliver
  generalize reconcile now k = e at *
  obtain ⟨k1, e⟩ := e
  refine ⟨k1, h, ?_⟩
  cases e with
  | error e => exact .refl _ _
  | ok u =>
    show Apart m' k1 (intake env now k1 m' kwa).1
    unfold intake
    split
    · split
      · exact .refl _ _
      · exact kramit_apart ..
    · exact .refl _ _

/-- A delivery of the message, when it is checked. -/
theorem deliver_done {env : Env} {now : Int} {k : Krm} {m : Msg} {kwa : Kwa} (hx : exId m = none) (hg : Guards m k) :
    ∃ k1, Held k k1 ∧ k1 = (reconcile now k).1 ∧ Done (HasSeal m kwa) env now k1 m (deliver env now k m kwa).1 (isPass (deliver env now k m kwa).2) := by
  have h := reconcile_held now k
  unfold deliver
  generalize reconcile now k = e at *
  obtain ⟨k1, e⟩ := e
  refine ⟨k1, h, rfl, ?_⟩
  cases e with
  | error e => exact .same
  | ok u =>
    show Done (HasSeal m kwa) env now k1 m (intake env now k1 m kwa).1 (isPass (intake env now k1 m kwa).2)
    unfold intake
    rw [h.enabled, hg.1, if_pos rfl, h.denials, hg.2, if_neg (by simp)]
    exact kramit_done env now k1 m kwa hx

theorem handed_deliver {k : Krm} {env : Env} {now : Int} {m' : Msg} {kwa : Kwa} :
    handed k (.deliver env now m' kwa) = if isPass (deliver env now k m' kwa).2 then some m' else none := by
  show (match (deliver env now k m' kwa).2 with | .ok (some _) => some m' | _ => none) = _
  generalize (deliver env now k m' kwa).2 = o
  cases o with
  | error e => rfl
  | ok o => cases o <;> rfl

/-- What the steps do that are no delivery of the message. -/
theorem step_other {m : Msg} {k : Krm} {a : Step} (h : ∀ env now m' kwa, a = .deliver env now m' kwa → ¬ (m'.sender = m.sender ∧ m'.said = m.said)) :
    (∀ c, ((m.sender, m.said), c) ∈ (step k a).msgc → ((m.sender, m.said), c) ∈ k.msgc) ∧
      ((∀ now, a ≠ .prune now) → (step k a).msgc.get (m.sender, m.said) = k.msgc.get (m.sender, m.said)) := by
  cases a with
  | deliver env now m' kwa =>
    have hne : (m.sender, m.said) ≠ (m'.sender, m'.said) := fun e => h env now m' kwa rfl ⟨(congrArg Prod.fst e).symm, (congrArg Prod.snd e).symm⟩
    obtain ⟨k1, h1, h2⟩ := deliver_apart env now k m' kwa
    refine ⟨fun c hc => ?_, fun _ => ?_⟩
    · have := (h2.msgc _ hne c).1 hc
      rwa [h1.msgc] at this
    · exact (h2.getm _ hne).trans (by rw [h1.msgc])
  | prune now => exact ⟨fun c => (prune_less now k).msgc _, fun h => absurd rfl (h now)⟩
  | change now cf o =>
    have h1 := (changeConfig_held now k cf o).msgc
    refine ⟨fun c hc => ?_, fun _ => ?_⟩
    · rw [← h1]; exact hc
    · show (changeConfig now k cf o).1.msgc.get _ = _
      rw [h1]
  | restart now e d cf =>
    have h1 : (step k (.restart now e d cf)).msgc = k.msgc := by
      show (match open_ k e d cf with | .ok k => k | .error _ => k).msgc = _
      unfold open_
      split
      · rename_i h; split at h <;> simp at h; rw [← h]
      · rfl
    refine ⟨fun c hc => ?_, fun _ => ?_⟩
    · rw [← h1]; exact hc
    · rw [h1]

/-- A step that is no delivery of the message does not hand it on. -/
theorem passes_skip {m : Msg} {k : Krm} {a : Step} {l : List Step}
    (hm : ∀ env now m' kwa, a = .deliver env now m' kwa → ¬ (m'.sender = m.sender ∧ m'.said = m.said)) :
    passes m.sender m.said k (a :: l) = passes m.sender m.said (step k a) l := by
  show _ + passes m.sender m.said (step k a) l = _
  cases a with
  | deliver env now m' kwa =>
    rw [handed_deliver]
    split
    · rename_i h
      split at h <;> simp at h
      rw [← h, if_neg (hm env now m' kwa rfl)]
      exact Nat.zero_add _
    · exact Nat.zero_add _
  | _ => exact Nat.zero_add _

/-- After it was handed on, or when it is too old, it is not handed on. -/
theorem spent_passes {A : Auth → Prop} {m : Msg} {mdt : Int} (hs : m.stamp = some mdt) (hx : exId m = none) : ∀ (l : List Step) (t : Int) (k : Krm),
    Clock t l → Binds m l → Ways A m l → Along (Guards m) k l → Along (NotWaiting m) k l → Kept A m mdt t k l → Spent A m mdt t k l → passes m.sender m.said k l = 0
  | [], _, _, _, _, _, _, _, _, _ => rfl
  | a :: l, t, k, hc, hb, hw, hg, hn, hk, hsp => by
    have ih := fun hk hsp => spent_passes hs hx l a.now (step k a) hc.2 hb.tail hw.tail hg.2 hn.2 hk hsp
    by_cases hm : ∃ env now m' kwa, a = .deliver env now m' kwa ∧ m'.sender = m.sender ∧ m'.said = m.said
    · obtain ⟨env, now, m', kwa, ha, hm1, hm2⟩ := hm
      subst ha
      have he : m' = m := hb (env, now, m', kwa) List.mem_cons_self hm1 hm2
      subst he
      obtain ⟨k1, h1, h2, h3⟩ := deliver_done (env := env) (now := now) (kwa := kwa) hx hg.1
      have hst : step k (.deliver env now m' kwa) = (deliver env now k m' kwa).1 := rfl
      have hf : ∀ r, fetch k1.ctyp m' = .ok r → r ∈ inForce m' k (.deliver env now m' kwa :: l) := by
        intro r hr
        unfold inForce
        simp only [and_self, if_true]
        rw [← h2, hr]
        exact List.mem_append_left _ (List.mem_singleton.2 rfl)
      unfold passes
      rw [handed_deliver]
      rw [hst] at ih ⊢
      generalize hbb : isPass (deliver env now k m' kwa).2 = b at h3
      generalize hkk : (deliver env now k m' kwa).1 = k' at h3 ih
      have hst2 : step k (.deliver env now m' kwa) = k' := by rw [hst, hkk]
      cases h3 with
      | same =>
        simp only [Bool.false_eq_true, if_false, Nat.zero_add]
        refine ih ?_ ?_
        · rw [← hst2]; refine hk.step hc.1 ?_; rw [hst2, h1.msgc]; exact fun _ => id
        · rw [← hst2]; refine hsp.step hc.1 ?_; rw [hst2, h1.msgc]
      | waits h4 h5 h6 =>
        exfalso
        rcases h4 with h4 | ⟨c, mdt', h4, h7, h8⟩
        · rw [h1.pmkm] at h4
          exact h4 hn.1
        · rw [h1.msgc] at h4
          have := (hk c (get_mem h4)).1
          rw [hs] at h7
          injection h7 with h7
          omega
      | @pass mdt' r auth ks _ _ h4 h5 h6 h7 h8 h9 h10 h11 h12 =>
        exfalso
        rcases hsp with h13 | h13
        · rw [h1.msgc] at h5
          exact h13 h5
        · rw [hs] at h4
          injection h4 with h4
          have h14 := h13 r (hf r h6) auth (by
            rcases h8 with h8 | h8
            · rw [h8.1]; exact (hw (env, now, m', kwa) List.mem_cons_self rfl).1 h8.2
            · rw [h8]; exact (hw (env, now, m', kwa) List.mem_cons_self rfl).2 ks h7)
          have h15 : now - 1000 * r.d - 1000 * (lags r auth).1 ≤ mdt' ∧ mdt' ≤ now + 1000 * r.d := of_decide_eq_true h9
          have h16 : t ≤ now := hc.1
          omega
    · have ho := step_other (m := m) (k := k) (a := a) (fun env now m' kwa ha h => hm ⟨env, now, m', kwa, ha, h⟩)
      rw [passes_skip (fun env now m' kwa ha h => hm ⟨env, now, m', kwa, ha, h⟩)]
      refine ih (hk.step hc.1 ho.1) ?_
      cases a with
      | prune now => exact hsp.prune hc.1 hk
      | deliver env now m' kwa => exact hsp.step hc.1 (ho.2 (by simp))
      | change now cf o => exact hsp.step hc.1 (ho.2 (by simp))
      | restart now e d cf => exact hsp.step hc.1 (ho.2 (by simp))

/-- At most once. -/
theorem passes_once {A : Auth → Prop} {m : Msg} {mdt : Int} (hs : m.stamp = some mdt) (hx : exId m = none) : ∀ (l : List Step) (t : Int) (k : Krm),
    Clock t l → Binds m l → Ways A m l → Along (Guards m) k l → Along (NotWaiting m) k l → Kept A m mdt t k l → Nested A (inForce m k l) →
      passes m.sender m.said k l ≤ 1
  | [], _, _, _, _, _, _, _, _, _ => Nat.zero_le _
  | a :: l, t, k, hc, hb, hw, hg, hn, hk, hne => by
    have ih := fun hk => passes_once hs hx l a.now (step k a) hc.2 hb.tail hw.tail hg.2 hn.2 hk hne.tail
    by_cases hm : ∃ env now m' kwa, a = .deliver env now m' kwa ∧ m'.sender = m.sender ∧ m'.said = m.said
    · obtain ⟨env, now, m', kwa, ha, hm1, hm2⟩ := hm
      subst ha
      have he : m' = m := hb (env, now, m', kwa) List.mem_cons_self hm1 hm2
      subst he
      obtain ⟨k1, h1, h2, h3⟩ := deliver_done (env := env) (now := now) (kwa := kwa) hx hg.1
      have hst : step k (.deliver env now m' kwa) = (deliver env now k m' kwa).1 := rfl
      generalize hbb : isPass (deliver env now k m' kwa).2 = b at h3
      generalize hkk : (deliver env now k m' kwa).1 = k' at h3
      have hst2 : step k (.deliver env now m' kwa) = k' := by rw [hst, hkk]
      unfold passes
      rw [handed_deliver, hbb]
      cases h3 with
      | same =>
        simp only [Bool.false_eq_true, if_false, Nat.zero_add]
        refine ih (hk.step hc.1 ?_)
        rw [hst2, h1.msgc]
        exact fun _ => id
      | waits h4 h5 h6 =>
        exfalso
        rcases h4 with h4 | ⟨c, mdt', h4, h7, h8⟩
        · rw [h1.pmkm] at h4
          exact h4 hn.1
        · rw [h1.msgc] at h4
          have := (hk c (get_mem h4)).1
          rw [hs] at h7
          injection h7 with h7
          omega
      | @pass mdt' r auth ks _ _ h4 h5 h6 h7 h8 h9 h10 h11 h12 =>
        rw [hs] at h4
        injection h4 with h4
        have hA : A auth := by
          rcases h8 with h8 | h8
          · rw [h8.1]; exact (hw (env, now, m', kwa) List.mem_cons_self rfl).1 h8.2
          · rw [h8]; exact (hw (env, now, m', kwa) List.mem_cons_self rfl).2 ks h7
        have h15 : now - 1000 * r.d - 1000 * (lags r auth).1 ≤ mdt' ∧ mdt' ≤ now + 1000 * r.d := of_decide_eq_true h9
        have hgt : k'.msgc.get (m'.sender, m'.said) ≠ none := by
          rw [h10.msgc]
          show Tab.get (Tab.pin _ _ _) _ ≠ none
          rw [get_pin, if_pos rfl]
          simp
        have hkept : Kept A m' mdt now k' l := by
          intro c hc'
          rw [h10.msgc] at hc'
          have hcv := mem_pin_self h5 hc'
          subst hcv
          refine ⟨h4.symm, by dsimp only; omega, fun r' hr' b' hb' => ?_⟩
          have hpw : Nested A ([r] ++ inForce m' k' l) := by
            have : inForce m' k (.deliver env now m' kwa :: l) = [r] ++ inForce m' k' l := by
              rw [← hst2]
              conv => lhs; unfold inForce
              simp only [and_self, if_true]
              rw [← h2, h6]
            rw [← this]
            exact hne
          exact (List.pairwise_append.1 hpw).2.2 r (List.mem_singleton.2 rfl) r' hr' auth hA b' hb'
        have := spent_passes hs hx l now (step k (.deliver env now m' kwa)) hc.2 hb.tail hw.tail hg.2 hn.2 (by rw [hst2]; exact hkept) (Or.inl (by rw [hst2]; exact hgt))
        rw [this]
        split
        · split <;> simp
        · simp
    · have ho := step_other (m := m) (k := k) (a := a) (fun env now m' kwa ha h => hm ⟨env, now, m', kwa, ha, h⟩)
      rw [passes_skip (fun env now m' kwa ha h => hm ⟨env, now, m', kwa, ha, h⟩)]
      exact ih (hk.step hc.1 ho.1)

end Verif.Krm
