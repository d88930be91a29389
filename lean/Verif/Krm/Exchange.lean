import Verif.Krm.Replay

/-! # No message of an exchange is handed on twice: the induction -/

namespace Verif.Krm

open Verif.Kel (Id Dig Sig)

/-- The message is never delivered before the time it is stamped with. -/
def Arrived (m : Msg) (mdt : Int) (l : List Step) : Prop := ∀ x ∈ delivered l, x.2.2.1 = m → mdt ≤ x.2.1

theorem Arrived.tail {m : Msg} {mdt : Int} {a : Step} {l : List Step} (h : Arrived m mdt (a :: l)) : Arrived m mdt l := fun x hx => h x (delivered_tail hx)

/-- How long after the beginning of an exchange a message of it can be sent. -/
def reach (m : Msg) (r : Rec) : Int := if m.ilk = xip then 0 else r.xl

/-- What is in the cache of the message protects it from what comes. -/
def Kept2 (A : Auth → Prop) (m : Msg) (x : Dig) (mdt t : Int) (k : Krm) (l : List Step) : Prop :=
  ∀ c, ((m.sender, x, m.said), c) ∈ k.tmsc → c.mdt = mdt ∧ c.xdt ≤ t ∧ ∀ r ∈ inForce m k l, ∀ b, A b → mdt + 1000 * (r.d + (lags r b).1) ≤ c.xdt + 1000 * c.pxl

/-- In the cache, or too old for good. -/
def Spent2 (A : Auth → Prop) (m : Msg) (x : Dig) (mdt t : Int) (k : Krm) (l : List Step) : Prop :=
  k.tmsc.get (m.sender, x, m.said) ≠ none ∨ ∀ r ∈ inForce m k l, ∀ b, A b → mdt < t - 1000 * (r.d + (lags r b).1)

/-- Exchanges are kept until no message of them can be accepted. -/
def Nested2 (A : Auth → Prop) (m : Msg) (l : List Rec) : Prop := List.Pairwise (fun r r' => ∀ b, A b → reach m r + r'.d + (lags r' b).1 ≤ r.pxl) l

theorem Nested2.tail {A : Auth → Prop} {m : Msg} {k : Krm} {a : Step} {l : List Step} (h : Nested2 A m (inForce m k (a :: l))) : Nested2 A m (inForce m (step k a) l) :=
  (List.pairwise_append.1 h).2.1

theorem Kept2.step {A : Auth → Prop} {m : Msg} {x : Dig} {mdt t : Int} {k : Krm} {a : Step} {l : List Step} (ht : t ≤ a.now) (h : Kept2 A m x mdt t k (a :: l))
    (hm : ∀ c, ((m.sender, x, m.said), c) ∈ (Verif.Krm.step k a).tmsc → ((m.sender, x, m.said), c) ∈ k.tmsc) : Kept2 A m x mdt a.now (Verif.Krm.step k a) l := by
  intro c hc
  obtain ⟨h1, h2, h3⟩ := h c (hm c hc)
  exact ⟨h1, by omega, fun r hr => h3 r (inForce_tail hr)⟩

theorem Spent2.step {A : Auth → Prop} {m : Msg} {x : Dig} {mdt t : Int} {k : Krm} {a : Step} {l : List Step} (ht : t ≤ a.now) (h : Spent2 A m x mdt t k (a :: l))
    (hm : (Verif.Krm.step k a).tmsc.get (m.sender, x, m.said) = k.tmsc.get (m.sender, x, m.said)) : Spent2 A m x mdt a.now (Verif.Krm.step k a) l := by
  rcases h with h | h
  · exact Or.inl (by rw [hm]; exact h)
  · refine Or.inr fun r hr b hb => ?_
    have := h r (inForce_tail hr) b hb
    omega

theorem Spent2.prune {A : Auth → Prop} {m : Msg} {x : Dig} {mdt t now : Int} {k : Krm} {l : List Step} (ht : t ≤ now) (hk : Kept2 A m x mdt t k (.prune now :: l))
    (h : Spent2 A m x mdt t k (.prune now :: l)) : Spent2 A m x mdt now (Verif.Krm.prune now k) l := by
  rcases prune_tmsc now k (m.sender, x, m.said) with h1 | ⟨c, h1, h2⟩
  · exact Spent2.step (a := .prune now) ht h h1
  · obtain ⟨e, h3, h4⟩ := hk c h1
    refine Or.inr fun r hr b hb => ?_
    have h5 := h4 r (inForce_tail (a := .prune now) hr) b hb
    have h6 : ¬ (c.xdt / 1000 ≤ now / 1000 ∧ now / 1000 ≤ c.xdt / 1000 + c.pxl) := by
      intro h7
      unfold keepExchange at h2
      rw [decide_eq_true h7] at h2
      exact absurd h2 (by simp)
    omega

theorem deliver_done2 {env : Env} {now : Int} {k : Krm} {m : Msg} {x : Dig} {kwa : Kwa} (hx : exId m = some x) (hg : Guards m k) :
    ∃ k1, Held k k1 ∧ k1 = (reconcile now k).1 ∧ Done2 (HasSeal m kwa) env now k1 m x (deliver env now k m kwa).1 (isPass (deliver env now k m kwa).2) := by
  have h := reconcile_held now k
  unfold deliver
  generalize reconcile now k = e at *
  obtain ⟨k1, e⟩ := e
  refine ⟨k1, h, rfl, ?_⟩
  cases e with
  | error e => exact .same
  | ok u =>
    show Done2 (HasSeal m kwa) env now k1 m x (intake env now k1 m kwa).1 (isPass (intake env now k1 m kwa).2)
    unfold intake
    rw [h.enabled, hg.1, if_pos rfl, h.denials, hg.2, if_neg (by simp)]
    exact kramit_done2 env now k1 m x kwa hx

theorem began_reach {k : Krm} {m : Msg} {x : Dig} {mdt xdt : Int} {r : Rec} (h : began k m x mdt = some xdt) (h1 : mdt ≤ xdt + 1000 * r.xl) : mdt ≤ xdt + 1000 * reach m r := by
  unfold reach
  split
  · rename_i hi
    unfold began at h
    rw [if_pos hi] at h
    injection h with h
    omega
  · exact h1

/-- What the steps do that are no delivery of the message. -/
theorem step_other2 {m : Msg} {x : Dig} {k : Krm} {a : Step} (h : ∀ env now m' kwa, a = .deliver env now m' kwa → ¬ (m'.sender = m.sender ∧ m'.said = m.said)) :
    (∀ c, ((m.sender, x, m.said), c) ∈ (step k a).tmsc → ((m.sender, x, m.said), c) ∈ k.tmsc) ∧
      ((∀ now, a ≠ .prune now) → (step k a).tmsc.get (m.sender, x, m.said) = k.tmsc.get (m.sender, x, m.said)) := by
  cases a with
  | deliver env now m' kwa =>
    have hne : (m.sender, m.said) ≠ (m'.sender, m'.said) := fun e => h env now m' kwa rfl ⟨(congrArg Prod.fst e).symm, (congrArg Prod.snd e).symm⟩
    obtain ⟨k1, h1, h2⟩ := deliver_apart env now k m' kwa
    refine ⟨fun c hc => ?_, fun _ => ?_⟩
    · have := (h2.tmsc (m.sender, x, m.said) hne c).1 hc
      rwa [h1.tmsc] at this
    · exact (h2.gett (m.sender, x, m.said) hne).trans (by rw [h1.tmsc])
  | prune now => exact ⟨fun c => (prune_less now k).tmsc _, fun h => absurd rfl (h now)⟩
  | change now cf o =>
    have h1 := (changeConfig_held now k cf o).tmsc
    refine ⟨fun c hc => ?_, fun _ => ?_⟩
    · rw [← h1]; exact hc
    · show (changeConfig now k cf o).1.tmsc.get _ = _
      rw [h1]
  | restart now e d cf =>
    have h1 : (step k (.restart now e d cf)).tmsc = k.tmsc := by
      show (match open_ k e d cf with | .ok k => k | .error _ => k).tmsc = _
      unfold open_
      split
      · rename_i h; split at h <;> simp at h; rw [← h]
      · rfl
    refine ⟨fun c hc => ?_, fun _ => ?_⟩
    · rw [← h1]; exact hc
    · rw [h1]

/-- After it was handed on, or when it is too old, it is not handed on. -/
theorem spent_passes2 {A : Auth → Prop} {m : Msg} {x : Dig} {mdt : Int} (hs : m.stamp = some mdt) (hx : exId m = some x) : ∀ (l : List Step) (t : Int) (k : Krm),
    Clock t l → Binds m l → Ways A m l → Along (Guards m) k l → Along (NotWaiting m) k l → Arrived m mdt l → Kept2 A m x mdt t k l → Spent2 A m x mdt t k l → passes m.sender m.said k l = 0
  | [], _, _, _, _, _, _, _, _, _, _ => rfl
  | a :: l, t, k, hc, hb, hw, hg, hn, har, hk, hsp => by
    have ih := fun hk hsp => spent_passes2 hs hx l a.now (step k a) hc.2 hb.tail hw.tail hg.2 hn.2 har.tail hk hsp
    by_cases hm : ∃ env now m' kwa, a = .deliver env now m' kwa ∧ m'.sender = m.sender ∧ m'.said = m.said
    · obtain ⟨env, now, m', kwa, ha, hm1, hm2⟩ := hm
      subst ha
      have he : m' = m := hb (env, now, m', kwa) List.mem_cons_self hm1 hm2
      subst he
      obtain ⟨k1, h1, h2, h3⟩ := deliver_done2 (env := env) (now := now) (kwa := kwa) hx hg.1
      have hst : step k (.deliver env now m' kwa) = (deliver env now k m' kwa).1 := rfl
      have hf : ∀ r, fetch k1.ctyp m' = .ok r → r ∈ inForce m' k (.deliver env now m' kwa :: l) := by
        intro r hr
        unfold inForce
        simp only [and_self, if_true]
        rw [← h2, hr]
        exact List.mem_append_left _ (List.mem_singleton.2 rfl)
      unfold passes
      rw [handed_deliver]
      rw [hst] at ih ⊢
      generalize hbb : isPass (deliver env now k m' kwa).2 = b at h3
      generalize hkk : (deliver env now k m' kwa).1 = k' at h3 ih
      have hst2 : step k (.deliver env now m' kwa) = k' := by rw [hst, hkk]
      cases h3 with
      | same =>
        simp only [Bool.false_eq_true, if_false, Nat.zero_add]
        refine ih ?_ ?_
        · rw [← hst2]; refine hk.step hc.1 ?_; rw [hst2, h1.tmsc]; exact fun _ => id
        · rw [← hst2]; refine hsp.step hc.1 ?_; rw [hst2, h1.tmsc]
      | waits h4 h5 h6 =>
        exfalso
        rcases h4 with h4 | ⟨c, mdt', h4, h7, h8⟩
        · rw [h1.pmkm] at h4
          exact h4 hn.1
        · rw [h1.tmsc] at h4
          have := (hk c (get_mem h4)).1
          rw [hs] at h7
          injection h7 with h7
          omega
      | @pass mdt' xdt r auth ks _ _ h4 h5 h6 h7 h8 h9 hbg hle hre h10 h11 h12 =>
        exfalso
        rcases hsp with h13 | h13
        · rw [h1.tmsc] at h5
          exact h13 h5
        · rw [hs] at h4
          injection h4 with h4
          have h14 := h13 r (hf r h6) auth (by
            rcases h8 with h8 | h8
            · rw [h8.1]; exact (hw (env, now, m', kwa) List.mem_cons_self rfl).1 h8.2
            · rw [h8]; exact (hw (env, now, m', kwa) List.mem_cons_self rfl).2 ks h7)
          have h15 : now - 1000 * r.d - 1000 * (lags r auth).1 ≤ mdt' ∧ mdt' ≤ now + 1000 * r.d := of_decide_eq_true h9
          have h16 : t ≤ now := hc.1
          omega
    · have ho := step_other2 (x := x) (m := m) (k := k) (a := a) (fun env now m' kwa ha h => hm ⟨env, now, m', kwa, ha, h⟩)
      rw [passes_skip (fun env now m' kwa ha h => hm ⟨env, now, m', kwa, ha, h⟩)]
      refine ih (hk.step hc.1 ho.1) ?_
      cases a with
      | prune now => exact hsp.prune hc.1 hk
      | deliver env now m' kwa => exact hsp.step hc.1 (ho.2 (by simp))
      | change now cf o => exact hsp.step hc.1 (ho.2 (by simp))
      | restart now e d cf => exact hsp.step hc.1 (ho.2 (by simp))

/-- At most once. -/
theorem passes_once2 {A : Auth → Prop} {m : Msg} {x : Dig} {mdt : Int} (hs : m.stamp = some mdt) (hx : exId m = some x) : ∀ (l : List Step) (t : Int) (k : Krm),
    Clock t l → Binds m l → Ways A m l → Along (Guards m) k l → Along (NotWaiting m) k l → Arrived m mdt l → Kept2 A m x mdt t k l → Nested2 A m (inForce m k l) →
      passes m.sender m.said k l ≤ 1
  | [], _, _, _, _, _, _, _, _, _, _ => Nat.zero_le _
  | a :: l, t, k, hc, hb, hw, hg, hn, har, hk, hne => by
    have ih := fun hk => passes_once2 hs hx l a.now (step k a) hc.2 hb.tail hw.tail hg.2 hn.2 har.tail hk hne.tail
    by_cases hm : ∃ env now m' kwa, a = .deliver env now m' kwa ∧ m'.sender = m.sender ∧ m'.said = m.said
    · obtain ⟨env, now, m', kwa, ha, hm1, hm2⟩ := hm
      subst ha
      have he : m' = m := hb (env, now, m', kwa) List.mem_cons_self hm1 hm2
      subst he
      obtain ⟨k1, h1, h2, h3⟩ := deliver_done2 (env := env) (now := now) (kwa := kwa) hx hg.1
      have hst : step k (.deliver env now m' kwa) = (deliver env now k m' kwa).1 := rfl
      generalize hbb : isPass (deliver env now k m' kwa).2 = b at h3
      generalize hkk : (deliver env now k m' kwa).1 = k' at h3
      have hst2 : step k (.deliver env now m' kwa) = k' := by rw [hst, hkk]
      unfold passes
      rw [handed_deliver, hbb]
      cases h3 with
      | same =>
        simp only [Bool.false_eq_true, if_false, Nat.zero_add]
        refine ih (hk.step hc.1 ?_)
        rw [hst2, h1.tmsc]
        exact fun _ => id
      | waits h4 h5 h6 =>
        exfalso
        rcases h4 with h4 | ⟨c, mdt', h4, h7, h8⟩
        · rw [h1.pmkm] at h4
          exact h4 hn.1
        · rw [h1.tmsc] at h4
          have := (hk c (get_mem h4)).1
          rw [hs] at h7
          injection h7 with h7
          omega
      | @pass mdt' xdt r auth ks _ _ h4 h5 h6 h7 h8 h9 hbg hle hre h10 h11 h12 =>
        rw [hs] at h4
        injection h4 with h4
        have hA : A auth := by
          rcases h8 with h8 | h8
          · rw [h8.1]; exact (hw (env, now, m', kwa) List.mem_cons_self rfl).1 h8.2
          · rw [h8]; exact (hw (env, now, m', kwa) List.mem_cons_self rfl).2 ks h7
        have h15 : now - 1000 * r.d - 1000 * (lags r auth).1 ≤ mdt' ∧ mdt' ≤ now + 1000 * r.d := of_decide_eq_true h9
        have hgt : k'.tmsc.get (m'.sender, x, m'.said) ≠ none := by
          rw [h10.tmsc]
          show Tab.get (Tab.pin _ _ _) _ ≠ none
          rw [get_pin, if_pos rfl]
          simp
        have hkept : Kept2 A m' x mdt now k' l := by
          intro c hc'
          rw [h10.tmsc] at hc'
          have hcv := mem_pin_self h5 hc'
          subst hcv
          have harr := har (env, now, m', kwa) List.mem_cons_self rfl
          dsimp only at harr
          have hrr := began_reach (r := r) hbg hre
          refine ⟨h4.symm, by dsimp only; omega, fun r' hr' b' hb' => ?_⟩
          have hpw : Nested2 A m' ([r] ++ inForce m' k' l) := by
            have : inForce m' k (.deliver env now m' kwa :: l) = [r] ++ inForce m' k' l := by
              rw [← hst2]
              conv => lhs; unfold inForce
              simp only [and_self, if_true]
              rw [← h2, h6]
            rw [← this]
            exact hne
          have := (List.pairwise_append.1 hpw).2.2 r (List.mem_singleton.2 rfl) r' hr' b' hb'
          dsimp only
          omega
        have := spent_passes2 hs hx l now (step k (.deliver env now m' kwa)) hc.2 hb.tail hw.tail hg.2 hn.2 har.tail (by rw [hst2]; exact hkept) (Or.inl (by rw [hst2]; exact hgt))
        rw [this]
        split
        · split <;> simp
        · simp
    · have ho := step_other2 (x := x) (m := m) (k := k) (a := a) (fun env now m' kwa ha h => hm ⟨env, now, m', kwa, ha, h⟩)
      rw [passes_skip (fun env now m' kwa ha h => hm ⟨env, now, m', kwa, ha, h⟩)]
      exact ih (hk.step hc.1 ho.1)

end Verif.Krm
