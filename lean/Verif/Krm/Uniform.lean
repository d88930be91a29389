import Verif.Krm.Exchange

/-! # Exchanges that are forgotten as a whole -/

namespace Verif.Krm

open Verif.Kel (Id Dig Sig)

/-- All cache types keep exchanges equally long, longer than anything is accepted, and no change is waiting. -/
def Uniform (p : Int) (k : Krm) : Prop := k.pending = [] ∧ ∀ e ∈ k.ctyp, e.2.pxl = p ∧ ∀ b, e.2.d + (lags e.2 b).1 ≤ p

/-- The exchange begins with one message. -/
def Begins (s : Id) (x : Dig) (x0 : Int) (l : List Step) : Prop :=
  ∀ y ∈ delivered l, y.2.2.1.sender = s → y.2.2.1.ilk = xip → y.2.2.1.said = x → y.2.2.1.stamp = some x0

theorem Begins.tail {s : Id} {x : Dig} {x0 : Int} {a : Step} {l : List Step} (h : Begins s x x0 (a :: l)) : Begins s x x0 l := fun y hy => h y (delivered_tail hy)

/-- All that is in the cache of the exchange goes at once. -/
def Same (s : Id) (x : Dig) (x0 p : Int) (k : Krm) : Prop := ∀ d c, ((s, x, d), c) ∈ k.tmsc → c.xdt = x0 ∧ c.pxl = p

/-- The exchange is over and forgotten. -/
def Over (s : Id) (x : Dig) (x0 p t : Int) (k : Krm) : Prop := x0 / 1000 + p < t / 1000 ∧ ∀ d c, ((s, x, d), c) ∉ k.tmsc

theorem fetch_mem {t : Tab Ctype Rec} {m : Msg} {r : Rec} (h : fetch t m = .ok r) : ∃ c, (c, r) ∈ t := by
  unfold fetch at h
  split at h
  · rename_i r' hr
    injection h with h
    subst h
    split at hr
    · exact ⟨_, get_mem hr⟩
    · simp at hr
  · split at h
    · rename_i r' hr
      injection h with h
      subst h
      exact ⟨_, get_mem hr⟩
    · split at h
      · rename_i r' hr
        injection h with h
        subst h
        exact ⟨_, get_mem hr⟩
      · simp at h

/-- Entries that are left after pruning are in their windows. -/
theorem foldTxns_kept (rdt : Int) : ∀ (l : List ((Id × Dig × Dig) × Cache)) (k : Krm) (e : (Id × Dig × Dig) × Cache), e ∈ l →
    e ∈ (l.foldl (fun k e => if keepExchange rdt e.2 then k else dropPartial { k with tmsc := k.tmsc.rem e.1 } (e.1.1, e.1.2.2)) k).tmsc → keepExchange rdt e.2 = true
  | a :: l, k, e, h1, h2 => by
    rw [List.foldl_cons] at h2
    rcases List.mem_cons.1 h1 with h | h
    · subst h
      cases hk : keepExchange rdt e.2 with
      | true => rfl
      | false =>
        rw [hk, if_neg (by simp)] at h2
        have h3 := (foldl_less _ (fun k (e : (Id × Dig × Dig) × Cache) => by
          show Less k (if keepExchange rdt e.2 then k else dropPartial { k with tmsc := k.tmsc.rem e.1 } (e.1.1, e.1.2.2))
          split; exact .refl k; exact (remTxn_less k e.1).trans (dropPartial_less _ _)) l _).tmsc e h2
        have h4 : e ∈ Tab.rem k.tmsc e.1 := h3
        have h5 := (List.mem_filter.1 h4).2
        simp at h5
    · exact foldTxns_kept rdt l _ e h h2

theorem prune_kept2 {now : Int} {k : Krm} {e : (Id × Dig × Dig) × Cache} (h : e ∈ (prune now k).tmsc) : keepExchange (now / 1000) e.2 = true :=
  foldTxns_kept (now / 1000) _ _ e ((pruneExchanges_less _ _).tmsc e h) h

theorem foldMsgs_kept (rdt : Int) : ∀ (l : List ((Id × Dig) × Cache)) (k : Krm) (e : (Id × Dig) × Cache), e ∈ l →
    e ∈ (l.foldl (fun k e => if keepMsg rdt e.2 then k else dropPartial { k with msgc := k.msgc.rem e.1 } e.1) k).msgc → keepMsg rdt e.2 = true
  | a :: l, k, e, h1, h2 => by
    rw [List.foldl_cons] at h2
    rcases List.mem_cons.1 h1 with h | h
    · subst h
      cases hk : keepMsg rdt e.2 with
      | true => rfl
      | false =>
        rw [hk, if_neg (by simp)] at h2
        have h3 := (foldl_less _ (fun k (e : (Id × Dig) × Cache) => by
          show Less k (if keepMsg rdt e.2 then k else dropPartial { k with msgc := k.msgc.rem e.1 } e.1)
          split; exact .refl k; exact (remMsg_less k e.1).trans (dropPartial_less _ _)) l _).msgc e h2
        have h4 : e ∈ Tab.rem k.msgc e.1 := h3
        have h5 := (List.mem_filter.1 h4).2
        simp at h5
    · exact foldMsgs_kept rdt l _ e h h2

theorem prune_kept1 {now : Int} {k : Krm} {e : (Id × Dig) × Cache} (h : e ∈ (prune now k).msgc) : keepMsg (now / 1000) e.2 = true := by
  have h1 : e ∈ (pruneMessages (now / 1000) k).msgc := (pruneExchanges_less _ _).msgc e h
  exact foldMsgs_kept (now / 1000) _ _ e ((pruneMessages_less _ _).msgc e h1) h1

/-- A message is checked, or nothing happens to the caches. -/
theorem deliver_cases (env : Env) (now : Int) (k : Krm) (m : Msg) (kwa : Kwa) :
    (deliver env now k m kwa).1 = (reconcile now k).1 ∨ deliver env now k m kwa = kramit env now (reconcile now k).1 m kwa := by
  unfold deliver
  generalize reconcile now k = e
  obtain ⟨k1, e⟩ := e
  cases e with
  | error e => exact Or.inl rfl
  | ok u =>
    show (intake env now k1 m kwa).1 = k1 ∨ intake env now k1 m kwa = _
    unfold intake
    split
    · split
      · exact Or.inl rfl
      · exact Or.inr rfl
    · exact Or.inl rfl

/-- What happens to the cache of exchanges. -/
theorem kramit_tmsc (env : Env) (now : Int) (k : Krm) (m : Msg) (kwa : Kwa) :
    (kramit env now k m kwa).1.tmsc = k.tmsc ∨ ∃ x mdt xdt r auth, exId m = some x ∧ m.stamp = some mdt ∧ fetch k.ctyp m = .ok r ∧
      timely now mdt r.d (lags r auth).1 = true ∧ began k m x mdt = some xdt ∧
        (kramit env now k m kwa).1.tmsc = k.tmsc.pin (m.sender, x, m.said) ⟨mdt, xdt, r.d, (lags r auth).1, (lags r auth).2, r.xl, r.pxl⟩ := by
  cases hx : exId m with
  | none =>
    have hd := kramit_done env now k m kwa hx
    generalize isPass (kramit env now k m kwa).2 = b at hd
    generalize (kramit env now k m kwa).1 = k' at hd ⊢
    cases hd with
    | same => exact Or.inl rfl
    | waits _ _ h => exact Or.inl h.tmsc
    | pass _ _ _ _ _ _ h _ _ => exact Or.inl h.tmsc
  | some x =>
    have hd := kramit_done2 env now k m x kwa hx
    generalize isPass (kramit env now k m kwa).2 = b at hd
    generalize (kramit env now k m kwa).1 = k' at hd ⊢
    cases hd with
    | same => exact Or.inl rfl
    | waits _ _ h => exact Or.inl h.tmsc
    | pass h1 _ h3 _ _ h6 h7 _ _ h _ _ => exact Or.inr ⟨x, _, _, _, _, rfl, h1, h3, h6, h7, h.tmsc⟩

theorem exId_xip {m : Msg} {x : Dig} (h : exId m = some x) (hi : m.ilk = xip) : m.said = x := by
  unfold exId at h
  rw [if_pos hi] at h
  exact Option.some.inj h

theorem began_same {s : Id} {x : Dig} {x0 p : Int} {k : Krm} {m : Msg} {mdt xdt : Int} (hS : Same s x x0 p k) (hs : m.sender = s) (hx : exId m = some x)
    (hst : m.stamp = some mdt) (hB : m.ilk = xip → m.said = x → m.stamp = some x0) (h : began k m x mdt = some xdt) : xdt = x0 := by
  unfold began at h
  split at h
  · rename_i hi
    have := hB hi (exId_xip hx hi)
    rw [hst] at this
    injection this with this
    injection h with h
    rw [← h, this]
  · cases hf : k.tmsc.find? (fun e => e.1.1 = m.sender ∧ e.1.2.1 = x) with
    | none => rw [hf] at h; simp at h
    | some e =>
      rw [hf] at h
      injection h with h
      have h1 := List.mem_of_find?_eq_some hf
      have h2 : e.1.1 = m.sender ∧ e.1.2.1 = x := by simpa using List.find?_some hf
      obtain ⟨⟨a, b, d⟩, c⟩ := e
      dsimp only at h2 h
      rw [hs] at h2
      rw [h2.1, h2.2] at h1
      rw [← h]
      exact (hS d c h1).1

/-- Nothing comes back to an exchange that is over. -/
theorem over_no_pass {s : Id} {x : Dig} {x0 p now : Int} {k : Krm} {m : Msg} {mdt xdt : Int} {r : Rec} {auth : Auth} (hu : Uniform p k) (ho : Over s x x0 p now k)
    (hs : m.sender = s) (hx : exId m = some x) (hst : m.stamp = some mdt) (hB : m.ilk = xip → m.said = x → m.stamp = some x0) (hr : fetch k.ctyp m = .ok r)
    (ht : timely now mdt r.d (lags r auth).1 = true) (hb : began k m x mdt = some xdt) : False := by
  unfold began at hb
  split at hb
  · rename_i hi
    have h1 := hB hi (exId_xip hx hi)
    rw [hst] at h1
    injection h1 with h1
    obtain ⟨c, hc⟩ := fetch_mem hr
    have h2 := (hu.2 _ hc).2 auth
    have h3 : now - 1000 * r.d - 1000 * (lags r auth).1 ≤ mdt ∧ mdt ≤ now + 1000 * r.d := of_decide_eq_true ht
    have h4 := ho.1
    dsimp only at h2
    omega
  · cases hf : k.tmsc.find? (fun e => e.1.1 = m.sender ∧ e.1.2.1 = x) with
    | none => rw [hf] at hb; simp at hb
    | some e =>
      have h1 := List.mem_of_find?_eq_some hf
      have h2 : e.1.1 = m.sender ∧ e.1.2.1 = x := by simpa using List.find?_some hf
      obtain ⟨⟨a, b, d⟩, c⟩ := e
      dsimp only at h2
      rw [hs] at h2
      rw [h2.1, h2.2] at h1
      exact ho.2 d c h1

theorem reconcile_id {now : Int} {k : Krm} (h : k.pending = []) : reconcile now k = (k, .ok ()) := by
  unfold reconcile
  rw [h]
  rfl

theorem Over.later {s : Id} {x : Dig} {x0 p t t' : Int} {k k' : Krm} (h : Over s x x0 p t k) (ht : t ≤ t') (hm : ∀ e, e ∈ k'.tmsc → e ∈ k.tmsc) : Over s x x0 p t' k' :=
  ⟨by have := h.1; omega, fun d c hc => h.2 d c (hm _ hc)⟩

theorem step_tmsc {k : Krm} {a : Step} (h : ∀ env now m kwa, a ≠ .deliver env now m kwa) (e : (Id × Dig × Dig) × Cache) (he : e ∈ (step k a).tmsc) : e ∈ k.tmsc := by
  cases a with
  | deliver env now m kwa => exact absurd rfl (h env now m kwa)
  | prune now => exact (prune_less now k).tmsc e he
  | change now cf o =>
    have h1 := (changeConfig_held now k cf o).tmsc
    rw [← h1]; exact he
  | restart now e' d cf =>
    have h1 : (step k (.restart now e' d cf)).tmsc = k.tmsc := by
      show (match open_ k e' d cf with | .ok k => k | .error _ => k).tmsc = _
      unfold open_
      split
      · rename_i h; split at h <;> simp at h; rw [← h]
      · rfl
    rw [← h1]; exact he

/-- Over it stays, and what is there stays the same. -/
theorem uniform_step {s : Id} {x : Dig} {x0 p t : Int} {k : Krm} {a : Step} {l : List Step} (hu : Uniform p k) (hB : Begins s x x0 (a :: l)) (hS : Same s x x0 p k) (ht : t ≤ a.now) :
    Same s x x0 p (step k a) ∧ (Over s x x0 p t k → Over s x x0 p a.now (step k a)) := by
  by_cases hd : ∃ env now m kwa, a = .deliver env now m kwa
  · obtain ⟨env, now, m, kwa, ha⟩ := hd
    subst ha
    have hst : step k (.deliver env now m kwa) = (deliver env now k m kwa).1 := rfl
    rw [hst]
    have hb := hB (env, now, m, kwa) List.mem_cons_self
    dsimp only at hb
    have hid := reconcile_id (now := now) hu.1
    rcases deliver_cases env now k m kwa with h | h
    · rw [h, hid]
      exact ⟨hS, fun ho => ho.later ht (fun _ => id)⟩
    · rw [h, hid]
      dsimp only
      rcases kramit_tmsc env now k m kwa with h1 | ⟨x', mdt, xdt, r, auth, h1, h2, h3, h4, h5, h6⟩
      · refine ⟨?_, fun ho => ho.later ht ?_⟩
        · unfold Same; rw [h1]; exact hS
        · rw [h1]; exact fun _ => id
      · by_cases hk : m.sender = s ∧ x' = x
        · obtain ⟨hk1, hk2⟩ := hk
          subst hk2
          constructor
          · intro d c hc
            rw [h6] at hc
            by_cases hdm : d = m.said
            · subst hdm
              have h7 : Tab.get (Tab.pin k.tmsc (m.sender, x', m.said) ⟨mdt, xdt, r.d, (lags r auth).1, (lags r auth).2, r.xl, r.pxl⟩) (s, x', m.said) ≠ none := by
                rw [get_pin, if_pos (by rw [hk1])]; simp
              rcases (mem_pin_cases hc) with h8 | h8
              · obtain ⟨c', hc'⟩ := fetch_mem h3
                refine ⟨?_, ?_⟩
                · rw [h8]; exact began_same hS hk1 h1 h2 (hb hk1) h5
                · rw [h8]; exact (hu.2 _ hc').1
              · exact hS _ _ h8
            · exact hS d c ((mem_pin (fun e => hdm (by injection e with _ e; injection e))).1 hc)
          · intro ho
            exact absurd (over_no_pass hu (ho.later ht (fun _ => id)) hk1 h1 h2 (hb hk1) h3 h4 h5) id
        · have hne : ∀ d c, ((s, x, d), c) ∈ (kramit env now k m kwa).1.tmsc → ((s, x, d), c) ∈ k.tmsc := by
            intro d c hc
            rw [h6] at hc
            refine (mem_pin (fun e => hk ?_)).1 hc
            injection e with e1 e2
            injection e2 with e2 e3
            exact ⟨e1.symm, e2.symm⟩
          exact ⟨fun d c hc => hS d c (hne d c hc), fun ho => ⟨by have := ho.1; have h9 : t ≤ now := ht; show _ < now / 1000; omega, fun d c hc => ho.2 d c (hne d c hc)⟩⟩
  · have h := step_tmsc (k := k) (a := a) (fun env now m kwa ha => hd ⟨env, now, m, kwa, ha⟩)
    exact ⟨fun d c hc => hS d c (h _ hc), fun ho => ho.later ht h⟩

/-- The entry of the message is its own. -/
def Own (m : Msg) (x : Dig) (mdt : Int) (k : Krm) : Prop := ∀ c, ((m.sender, x, m.said), c) ∈ k.tmsc → c.mdt = mdt

/-- A delivery of the message itself. -/
theorem uniform_deliver {m : Msg} {x : Dig} {mdt x0 p t : Int} {k : Krm} {env : Env} {now : Int} {kwa : Kwa} {l : List Step} (hs : m.stamp = some mdt) (hx : exId m = some x)
    (ht : t ≤ now) (hg : Guards m k) (hn : NotWaiting m k) (hu : Uniform p k) (hB : Begins m.sender x x0 (.deliver env now m kwa :: l)) (hO : Own m x mdt k)
    (hS : Same m.sender x x0 p k) :
    Own m x mdt (step k (.deliver env now m kwa)) ∧
      (((step k (.deliver env now m kwa)).tmsc = k.tmsc ∧ handed k (.deliver env now m kwa) = none) ∨
        (k.tmsc.get (m.sender, x, m.said) = none ∧ ¬ Over m.sender x x0 p t k ∧ (step k (.deliver env now m kwa)).tmsc.get (m.sender, x, m.said) ≠ none ∧ x0 ≤ mdt)) := by
  obtain ⟨k1, h1, h2, h3⟩ := deliver_done2 (env := env) (now := now) (kwa := kwa) hx hg
  have hk1 : k1 = k := by rw [h2, reconcile_id hu.1]
  subst hk1
  have hst : step k1 (.deliver env now m kwa) = (deliver env now k1 m kwa).1 := rfl
  rw [handed_deliver, hst]
  generalize isPass (deliver env now k1 m kwa).2 = b at h3
  generalize (deliver env now k1 m kwa).1 = k' at h3
  cases h3 with
  | same => exact ⟨hO, Or.inl ⟨rfl, rfl⟩⟩
  | waits h4 h5 h6 =>
    exfalso
    rcases h4 with h4 | ⟨c, mdt', h4, h7, h8⟩
    · exact h4 hn
    · have := hO c (get_mem h4)
      rw [hs] at h7
      injection h7 with h7
      omega
  | @pass mdt' xdt r auth ks _ _ h4 h5 h6 h7 h8 h9 hbg hle hre h10 h11 h12 =>
    have hb := hB (env, now, m, kwa) List.mem_cons_self rfl
    dsimp only at hb
    have hmm : mdt' = mdt := by
      rw [hs] at h4
      injection h4 with h4
      exact h4.symm
    have hx0 := began_same hS rfl hx h4 hb hbg
    refine ⟨?_, Or.inr ⟨h5, ?_, ?_, by omega⟩⟩
    · intro c hc
      rw [h10.tmsc] at hc
      have := mem_pin_self h5 hc
      rw [this]
      exact hmm
    · intro ho
      exact over_no_pass hu (ho.later ht (fun _ => id)) rfl hx h4 hb h6 h9 hbg
    · rw [h10.tmsc]
      show Tab.get (Tab.pin _ _ _) _ ≠ none
      rw [get_pin, if_pos rfl]
      simp

/-- Pruning drops an exchange as a whole. -/
theorem uniform_prune {m : Msg} {x : Dig} {x0 p now : Int} {k : Krm} (ht : x0 ≤ now) (hS : Same m.sender x x0 p k) :
    (prune now k).tmsc.get (m.sender, x, m.said) = k.tmsc.get (m.sender, x, m.said) ∨ Over m.sender x x0 p now (prune now k) := by
  rcases prune_tmsc now k (m.sender, x, m.said) with h | ⟨c, h1, h2⟩
  · exact Or.inl h
  · obtain ⟨h3, h4⟩ := hS _ c h1
    have h6 : ¬ (c.xdt / 1000 ≤ now / 1000 ∧ now / 1000 ≤ c.xdt / 1000 + c.pxl) := by
      intro h7
      unfold keepExchange at h2
      rw [decide_eq_true h7] at h2
      exact absurd h2 (by simp)
    rw [h3, h4] at h6
    refine Or.inr ⟨by omega, fun d c' hc' => ?_⟩
    obtain ⟨h7, h8⟩ := hS d c' ((prune_less now k).tmsc _ hc')
    have h9 : c'.xdt / 1000 ≤ now / 1000 ∧ now / 1000 ≤ c'.xdt / 1000 + c'.pxl := of_decide_eq_true (prune_kept2 hc')
    rw [h7, h8] at h9
    exact h6 h9

theorem uniform_none {m : Msg} {x : Dig} {mdt x0 p : Int} (hs : m.stamp = some mdt) (hx : exId m = some x) : ∀ (l : List Step) (t : Int) (k : Krm),
    Clock t l → Binds m l → Begins m.sender x x0 l → Along (Guards m) k l → Along (NotWaiting m) k l → Along (Uniform p) k l → Own m x mdt k → Same m.sender x x0 p k →
      (k.tmsc.get (m.sender, x, m.said) ≠ none ∧ x0 ≤ t) ∨ Over m.sender x x0 p t k → passes m.sender m.said k l = 0
  | [], _, _, _, _, _, _, _, _, _, _, _ => rfl
  | a :: l, t, k, hc, hb, hB, hg, hn, hu, hO, hS, hsp => by
    have hu1 : Uniform p k := hu.1
    have hS' := uniform_step hu1 hB hS hc.1
    have ih := fun hO hsp => uniform_none hs hx l a.now (step k a) hc.2 hb.tail hB.tail hg.2 hn.2 hu.2 hO hS'.1 hsp
    by_cases hm : ∃ env now m' kwa, a = .deliver env now m' kwa ∧ m'.sender = m.sender ∧ m'.said = m.said
    · obtain ⟨env, now, m', kwa, ha, hm1, hm2⟩ := hm
      subst ha
      have he : m' = m := hb (env, now, m', kwa) List.mem_cons_self hm1 hm2
      subst he
      obtain ⟨h1, h2⟩ := uniform_deliver (now := now) hs hx hc.1 hg.1 hn.1 hu1 hB hO hS
      rcases h2 with ⟨h2, h3⟩ | ⟨h2, h3, h4, h5⟩
      · unfold passes
        rw [h3]
        dsimp only
        rw [Nat.zero_add]
        refine ih h1 ?_
        rcases hsp with hsp | hsp
        · rw [h2]
          exact Or.inl ⟨hsp.1, by have := hc.1; omega⟩
        · exact Or.inr (hS'.2 hsp)
      · rcases hsp with hsp | hsp
        · exact absurd h2 hsp.1
        · exact absurd hsp h3
    · have ho := step_other2 (m := m) (x := x) (k := k) (a := a) (fun env now m' kwa ha h => hm ⟨env, now, m', kwa, ha, h⟩)
      rw [passes_skip (fun env now m' kwa ha h => hm ⟨env, now, m', kwa, ha, h⟩)]
      refine ih (fun c hc => hO c (ho.1 c hc)) ?_
      rcases hsp with hsp | hsp
      · have ht : x0 ≤ a.now := by have := hc.1; omega
        cases a with
        | prune now =>
          rcases uniform_prune (now := now) (m := m) ht hS with h | h
          · exact Or.inl ⟨fun e => hsp.1 (h.symm.trans e), ht⟩
          · exact Or.inr h
        | deliver env now m' kwa => exact Or.inl ⟨fun e => hsp.1 ((ho.2 (by simp)).symm.trans e), ht⟩
        | change now cf o => exact Or.inl ⟨fun e => hsp.1 ((ho.2 (by simp)).symm.trans e), ht⟩
        | restart now e d cf => exact Or.inl ⟨fun e => hsp.1 ((ho.2 (by simp)).symm.trans e), ht⟩
      · exact Or.inr (hS'.2 hsp)

theorem uniform_once {m : Msg} {x : Dig} {mdt x0 p : Int} (hs : m.stamp = some mdt) (hx : exId m = some x) : ∀ (l : List Step) (t : Int) (k : Krm),
    Clock t l → Binds m l → Begins m.sender x x0 l → Along (Guards m) k l → Along (NotWaiting m) k l → Arrived m mdt l → Along (Uniform p) k l → Own m x mdt k →
      Same m.sender x x0 p k → passes m.sender m.said k l ≤ 1
  | [], _, _, _, _, _, _, _, _, _, _, _ => Nat.zero_le _
  | a :: l, t, k, hc, hb, hB, hg, hn, har, hu, hO, hS => by
    have hu1 : Uniform p k := hu.1
    have hS' := uniform_step hu1 hB hS hc.1
    have ih := fun hO => uniform_once hs hx l a.now (step k a) hc.2 hb.tail hB.tail hg.2 hn.2 har.tail hu.2 hO hS'.1
    by_cases hm : ∃ env now m' kwa, a = .deliver env now m' kwa ∧ m'.sender = m.sender ∧ m'.said = m.said
    · obtain ⟨env, now, m', kwa, ha, hm1, hm2⟩ := hm
      subst ha
      have he : m' = m := hb (env, now, m', kwa) List.mem_cons_self hm1 hm2
      subst he
      have harr : mdt ≤ now := har (env, now, m', kwa) List.mem_cons_self rfl
      obtain ⟨h1, h2⟩ := uniform_deliver (now := now) hs hx hc.1 hg.1 hn.1 hu1 hB hO hS
      unfold passes
      rcases h2 with ⟨h2, h3⟩ | ⟨h2, h3, h4, h5⟩
      · rw [h3]
        dsimp only
        rw [Nat.zero_add]
        exact ih h1
      · rw [uniform_none hs hx l now _ hc.2 hb.tail hB.tail hg.2 hn.2 hu.2 h1 hS'.1 (Or.inl ⟨h4, by omega⟩)]
        split
        · split <;> simp
        · simp
    · have ho := step_other2 (m := m) (x := x) (k := k) (a := a) (fun env now m' kwa ha h => hm ⟨env, now, m', kwa, ha, h⟩)
      rw [passes_skip (fun env now m' kwa ha h => hm ⟨env, now, m', kwa, ha, h⟩)]
      exact ih (fun c hc => hO c (ho.1 c hc))

end Verif.Krm
