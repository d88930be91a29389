import Verif.Krm.Uniform

/-!
# C91: no message is handed on twice

Over every history of deliveries (with whatever is known of key events then), prunings, restarts and changes of settings in which the clock does not go
back and digests bind messages.
-/

namespace Verif.Krm

open Verif.Kel (Id Dig Sig)

theorem fresh_kept {A : Auth → Prop} {m : Msg} {mdt t : Int} {k : Krm} {l : List Step} (h : Fresh k) : Kept A m mdt t k l := by
  intro c hc; rw [h.1] at hc; simp at hc

theorem fresh_kept2 {A : Auth → Prop} {m : Msg} {x : Dig} {mdt t : Int} {k : Krm} {l : List Step} (h : Fresh k) : Kept2 A m x mdt t k l := by
  intro c hc; rw [h.2.1] at hc; simp at hc

/-- What else can wait. -/
theorem step_waiting {m : Msg} {k : Krm} {a : Step} (h : ∀ env now m' kwa, a = .deliver env now m' kwa → ¬ (m'.sender = m.sender ∧ m'.said = m.said))
    (hn : NotWaiting m k) : NotWaiting m (step k a) := by
  unfold NotWaiting at *
  cases a with
  | deliver env now m' kwa =>
    have hne : (m.sender, m.said) ≠ (m'.sender, m'.said) := fun e => h env now m' kwa rfl ⟨(congrArg Prod.fst e).symm, (congrArg Prod.snd e).symm⟩
    obtain ⟨k1, h1, h2⟩ := deliver_apart env now k m' kwa
    exact ((h2.pmkm _ hne).trans (by rw [h1.pmkm])).trans hn
  | prune now =>
    rcases (prune_less now k).pmkm (m.sender, m.said) with h | h
    · exact h
    · exact h.trans hn
  | change now cf o =>
    show (changeConfig now k cf o).1.pmkm.get _ = _
    rw [(changeConfig_held now k cf o).pmkm]
    exact hn
  | restart now e d cf =>
    have h1 : (step k (.restart now e d cf)).pmkm = k.pmkm := by
      show (match open_ k e d cf with | .ok k => k | .error _ => k).pmkm = _
      unfold open_
      split
      · rename_i h; split at h <;> simp at h; rw [← h]
      · rfl
    rw [h1]
    exact hn

/-- Messages of senders with one key do not wait. -/
theorem single_notWaiting {m : Msg} : ∀ (l : List Step) (k : Krm), Binds m l → Along (Guards m) k l → SingleKey m l → NotWaiting m k → Along (NotWaiting m) k l
  | [], _, _, _, _, hn => hn
  | a :: l, k, hb, hg, hs, hn => by
    refine ⟨hn, single_notWaiting l (step k a) hb.tail hg.2 (fun x hx => hs x (delivered_tail hx)) ?_⟩
    by_cases hm : ∃ env now m' kwa, a = .deliver env now m' kwa ∧ m'.sender = m.sender ∧ m'.said = m.said
    · obtain ⟨env, now, m', kwa, ha, hm1, hm2⟩ := hm
      subst ha
      have he : m' = m := hb (env, now, m', kwa) List.mem_cons_self hm1 hm2
      subst he
      have h1 := hs (env, now, m', kwa) List.mem_cons_self rfl
      dsimp only at h1
      have hst : step k (.deliver env now m' kwa) = (deliver env now k m' kwa).1 := rfl
      rw [hst]
      cases hx : exId m' with
      | none =>
        obtain ⟨k1, h2, h3, h4⟩ := deliver_done (env := env) (now := now) (kwa := kwa) hx hg.1
        have hn1 : NotWaiting m' k1 := by unfold NotWaiting; rw [h2.pmkm]; exact hn
        generalize isPass (deliver env now k m' kwa).2 = b at h4
        generalize (deliver env now k m' kwa).1 = k' at h4
        cases h4 with
        | same => exact hn1
        | waits _ h5 _ => obtain ⟨ks, h5, h6⟩ := h5; exact absurd (h1 ks h5) h6
        | @pass _ _ auth ks _ _ _ _ _ h7 h8 _ _ h11 h12 =>
          cases b with
          | true => exact (h11 rfl).trans hn1
          | false =>
            have h13 := (h12 rfl).1
            have h14 := h1 ks h7
            rcases h8 with h8 | h8
            · rw [h8.1] at h13; simp at h13
            · rw [h8] at h13; unfold sigAuth at h13; rw [if_pos h14] at h13; simp at h13
      | some x =>
        obtain ⟨k1, h2, h3, h4⟩ := deliver_done2 (env := env) (now := now) (kwa := kwa) hx hg.1
        have hn1 : NotWaiting m' k1 := by unfold NotWaiting; rw [h2.pmkm]; exact hn
        generalize isPass (deliver env now k m' kwa).2 = b at h4
        generalize (deliver env now k m' kwa).1 = k' at h4
        cases h4 with
        | same => exact hn1
        | waits _ h5 _ => obtain ⟨ks, h5, h6⟩ := h5; exact absurd (h1 ks h5) h6
        | @pass _ _ _ auth ks _ _ _ _ _ h7 h8 _ _ _ _ _ h11 h12 =>
          cases b with
          | true => exact (h11 rfl).trans hn1
          | false =>
            have h13 := (h12 rfl).1
            have h14 := h1 ks h7
            rcases h8 with h8 | h8
            · rw [h8.1] at h13; simp at h13
            · rw [h8] at h13; unfold sigAuth at h13; rw [if_pos h14] at h13; simp at h13
    · exact step_waiting (fun env now m' kwa ha h => hm ⟨env, now, m', kwa, ha, h⟩) hn

theorem single_ways {m : Msg} {l : List Step} (h : SingleKey m l) : Ways (fun a => a ≠ .asmk) m l := by
  refine fun x hx he => ⟨fun _ => by simp, fun ks hk => ?_⟩
  unfold sigAuth
  rw [if_pos (h x hx he ks hk)]
  simp

/-- With settings that stay the same the same settings apply to the message at every delivery. -/
theorem settled_inForce {m : Msg} {ct : Tab Ctype Rec} : ∀ (l : List Step) (k : Krm), Along (Settings ct) k l → ∀ r ∈ inForce m k l, fetch ct m = .ok r
  | [], _, _, _, hr => by simp [inForce] at hr
  | a :: l, k, h, r, hr => by
    unfold inForce at hr
    rcases List.mem_append.1 hr with hr | hr
    · cases a with
      | deliver env now m' kwa =>
        dsimp only at hr
        split at hr
        · rw [reconcile_id h.1.2] at hr
          dsimp only at hr
          rw [h.1.1] at hr
          split at hr
          · rename_i r' hr'
            rw [List.mem_singleton.1 hr]
            exact hr'
          · simp at hr
        · simp at hr
      | _ => simp at hr
    · exact settled_inForce l (step k a) h.2 r hr

theorem nested_of {A : Auth → Prop} {m : Msg} {ct : Tab Ctype Rec} {l : List Rec} (h : ∀ r ∈ l, fetch ct m = .ok r)
    (hr : ∀ r, fetch ct m = .ok r → ∀ a, A a → ∀ b, A b → (lags r b).1 ≤ (lags r a).2) : Nested A l := by
  induction l with
  | nil => exact List.Pairwise.nil
  | cons r l ih =>
    refine List.Pairwise.cons ?_ (ih (fun r hr => h r (List.mem_cons_of_mem _ hr)))
    intro r' hr' a ha b hb
    have h1 := h r List.mem_cons_self
    have h2 := h r' (List.mem_cons_of_mem _ hr')
    rw [h1] at h2
    injection h2 with h2
    subst h2
    have := hr r h1 a ha b hb
    omega

theorem valid_fetch {ct : Tab Ctype Rec} {m : Msg} {r : Rec} (hv : validCf ct = true) (h : fetch ct m = .ok r) :
    0 ≤ r.d ∧ (0 < r.sl ∧ r.sl ≤ r.ll ∧ r.ll ≤ r.xl) ∧ r.sl ≤ r.psl ∧ r.ll ≤ r.pll ∧ r.xl ≤ r.pxl := by
  obtain ⟨c, hc⟩ := fetch_mem h
  have := List.all_eq_true.1 hv _ hc
  unfold validRec at this
  simp only [Bool.and_eq_true, decide_eq_true_eq] at this
  exact ⟨this.1.1.1.1, this.1.1.1.2, this.1.1.2, this.1.2, this.2⟩

/-- **C91 (partial: senders with one key, messages outside of exchanges, settings that do not change).**  Such a message is handed on at most once, whatever
arrives, however often the cache is pruned and whenever the process is restarted. -/
theorem c91_single_partial {m : Msg} {ct : Tab Ctype Rec} {k : Krm} {t : Int} {l : List Step} (hx : exId m = none) (hf : Fresh k) (hv : validCf ct = true)
    (hset : Along (Settings ct) k l) (hc : Clock t l) (hb : Binds m l) (hg : Along (Guards m) k l) (hs : SingleKey m l) : passes m.sender m.said k l ≤ 1 := by
  cases hm : m.stamp with
  | some mdt =>
    have hn : NotWaiting m k := by unfold NotWaiting; rw [hf.2.2.1]; rfl
    refine passes_once hm hx l t k hc hb (single_ways hs) hg (single_notWaiting l k hb hg hs hn) (fresh_kept hf) (nested_of (settled_inForce l k hset) ?_)
    intro r hr a ha b hb
    have := valid_fetch hv hr
    cases a <;> cases b <;> first | exact absurd rfl ha | exact absurd rfl hb | (show r.sl ≤ r.psl; omega)
  | none =>
    have : ∀ (l : List Step) (k : Krm), Binds m l → Along (Guards m) k l → passes m.sender m.said k l = 0 := by
      intro l
      induction l with
      | nil => intro k _ _; rfl
      | cons a l ih =>
        intro k hb hg
        by_cases hmm : ∃ env now m' kwa, a = .deliver env now m' kwa ∧ m'.sender = m.sender ∧ m'.said = m.said
        · obtain ⟨env, now, m', kwa, ha, hm1, hm2⟩ := hmm
          subst ha
          have he : m' = m := hb (env, now, m', kwa) List.mem_cons_self hm1 hm2
          subst he
          unfold passes
          have h1 : handed k (.deliver env now m' kwa) = none := by
            rw [handed_deliver]
            have h2 := reconcile_held now k
            unfold deliver
            generalize reconcile now k = e at *
            obtain ⟨k1, e⟩ := e
            cases e with
            | error e => rfl
            | ok u =>
              show (if isPass (intake env now k1 m' kwa).2 then _ else _) = _
              unfold intake
              rw [h2.enabled, hg.1.1, h2.denials, hg.1.2]
              simp only [if_true, Bool.false_eq_true, if_false]
              unfold kramit
              rw [hm]
              rfl
          rw [h1, ih _ hb.tail hg.2]
        · rw [passes_skip (fun env now m' kwa ha h => hmm ⟨env, now, m', kwa, ha, h⟩)]
          exact ih _ hb.tail hg.2
    rw [this l k hb hg]
    exact Nat.zero_le _

/-- **C91 (partial: any keys, but no signatures of the message ever wait for others).**  What is cached on the strength of a seal must be kept as long as signatures
of several keys are accepted. -/
theorem c91_multi_partial {m : Msg} {mdt : Int} {ct : Tab Ctype Rec} {k : Krm} {t : Int} {l : List Step} (hm : m.stamp = some mdt) (hx : exId m = none) (hf : Fresh k)
    (hv : validCf ct = true) (hps : ∀ r, fetch ct m = .ok r → r.ll ≤ r.psl) (hset : Along (Settings ct) k l) (hc : Clock t l) (hb : Binds m l)
    (hg : Along (Guards m) k l) (hn : Along (NotWaiting m) k l) : passes m.sender m.said k l ≤ 1 := by
  refine passes_once (A := fun _ => True) hm hx l t k hc hb (fun _ _ _ => ⟨fun _ => trivial, fun _ _ => trivial⟩) hg hn (fresh_kept hf) (nested_of (settled_inForce l k hset) ?_)
  intro r hr a _ b _
  have h1 := valid_fetch hv hr
  have h2 := hps r hr
  cases a <;> cases b <;> simp only [lags] <;> omega

/-- **C91 (partial: any keys and settings, but never with seals, and no signatures of the message ever wait for others).** -/
theorem c91_unsealed_partial {m : Msg} {mdt : Int} {ct : Tab Ctype Rec} {k : Krm} {t : Int} {l : List Step} (hm : m.stamp = some mdt) (hx : exId m = none) (hf : Fresh k)
    (hv : validCf ct = true) (hset : Along (Settings ct) k l) (hc : Clock t l) (hb : Binds m l) (hg : Along (Guards m) k l) (hn : Along (NotWaiting m) k l)
    (hks : (∀ x ∈ delivered l, x.2.2.1 = m → ∀ ks, x.1.kevers m.sender = some ks → ks.keys.length ≠ 1)) (hu : NoSeals m l) : passes m.sender m.said k l ≤ 1 := by
  refine passes_once (A := fun a => a = .asmk) hm hx l t k hc hb (fun x hx he => ⟨fun h => absurd h (hu x hx he), fun ks hk => ?_⟩) hg hn (fresh_kept hf)
    (nested_of (settled_inForce l k hset) ?_)
  · unfold sigAuth
    rw [if_neg (hks x hx he ks hk)]
  · intro r hr a ha b hb
    have h1 := valid_fetch hv hr
    subst ha hb
    show r.ll ≤ r.pll
    omega

/-- **C91 (partial: the message that begins an exchange).**  It is not delivered before the time of its stamp. -/
theorem c91_begin_partial {m : Msg} {x : Dig} {mdt : Int} {ct : Tab Ctype Rec} {k : Krm} {t : Int} {l : List Step} (hm : m.stamp = some mdt) (hx : exId m = some x)
    (hi : m.ilk = xip) (hf : Fresh k) (hv : validCf ct = true) (hps : ∀ r, fetch ct m = .ok r → r.d + r.ll ≤ r.pxl) (hset : Along (Settings ct) k l) (hc : Clock t l)
    (hb : Binds m l) (hg : Along (Guards m) k l) (hn : Along (NotWaiting m) k l) (ha : Arrived m mdt l) : passes m.sender m.said k l ≤ 1 := by
  refine passes_once2 (A := fun _ => True) hm hx l t k hc hb (fun _ _ _ => ⟨fun _ => trivial, fun _ _ => trivial⟩) hg hn ha (fresh_kept2 hf) ?_
  have h := settled_inForce (m := m) l k hset
  generalize inForce m k l = q at h
  induction q with
  | nil => exact List.Pairwise.nil
  | cons r q ih =>
    refine List.Pairwise.cons ?_ (ih (fun r hr => h r (List.mem_cons_of_mem _ hr)))
    intro r' hr' b _
    have h1 := h r List.mem_cons_self
    have h2 := h r' (List.mem_cons_of_mem _ hr')
    rw [h1] at h2
    injection h2 with h2
    subst h2
    have h3 := hps r h1
    have h4 := valid_fetch hv h1
    unfold reach
    rw [if_pos hi]
    cases b <;> simp only [lags] <;> omega

/-- **C91 (partial: all messages of an exchange, cache types that keep exchanges equally long).** -/
theorem c91_exchange_partial {m : Msg} {x : Dig} {mdt x0 p : Int} {ct : Tab Ctype Rec} {k : Krm} {t : Int} {l : List Step} (hm : m.stamp = some mdt) (hx : exId m = some x)
    (hf : Fresh k) (hv : validCf ct = true) (hp : ∀ e ∈ ct, e.2.pxl = p ∧ e.2.d + e.2.ll ≤ p) (hset : Along (Settings ct) k l) (hc : Clock t l)
    (hb : Binds m l) (hB : Begins m.sender x x0 l) (hg : Along (Guards m) k l) (hn : Along (NotWaiting m) k l) (ha : Arrived m mdt l) : passes m.sender m.said k l ≤ 1 := by
  have hu : Along (Uniform p) k l := by
    clear hc hb hB hg hn ha hf
    induction l generalizing k with
    | nil =>
      refine ⟨hset.2, fun e he => ⟨(hp e (hset.1 ▸ he)).1, fun b => ?_⟩⟩
      have h1 := hp e (hset.1 ▸ he)
      have h2 := List.all_eq_true.1 hv e (hset.1 ▸ he)
      unfold validRec at h2
      simp only [Bool.and_eq_true, decide_eq_true_eq] at h2
      cases b <;> simp only [lags] <;> omega
    | cons a l ih =>
      refine ⟨⟨hset.1.2, fun e he => ⟨(hp e (hset.1.1 ▸ he)).1, fun b => ?_⟩⟩, ih hset.2⟩
      have h1 := hp e (hset.1.1 ▸ he)
      have h2 := List.all_eq_true.1 hv e (hset.1.1 ▸ he)
      unfold validRec at h2
      simp only [Bool.and_eq_true, decide_eq_true_eq] at h2
      cases b <;> simp only [lags] <;> omega
  exact uniform_once hm hx l t k hc hb hB hg hn ha hu (by intro c h; rw [hf.2.1] at h; simp at h) (by intro d c h; rw [hf.2.1] at h; simp at h)

/-- C94 (partial): changes of settings that apply to the message keep it from being handed on twice if they only narrow the window of acceptance. -/
theorem c94_narrow_partial {m : Msg} {mdt : Int} {k : Krm} {t : Int} {l : List Step} (hm : m.stamp = some mdt) (hx : exId m = none) (hf : Fresh k)
    (hv : ∀ r ∈ inForce m k l, r.sl ≤ r.psl) (hnarrow : List.Pairwise (fun r r' => r'.d + r'.sl ≤ r.d + r.sl) (inForce m k l)) (hc : Clock t l)
    (hb : Binds m l) (hg : Along (Guards m) k l) (hs : SingleKey m l) : passes m.sender m.said k l ≤ 1 := by
  have hn : NotWaiting m k := by unfold NotWaiting; rw [hf.2.2.1]; rfl
  refine passes_once hm hx l t k hc hb (single_ways hs) hg (single_notWaiting l k hb hg hs hn) (fresh_kept hf) ?_
  refine List.Pairwise.imp_of_mem ?_ hnarrow
  intro r r' hr _ h a ha b hb
  have := hv r hr
  cases a <;> cases b <;> first | exact absurd rfl ha | exact absurd rfl hb | (show r'.d + r'.sl ≤ r.d + r.psl; omega)

end Verif.Krm
