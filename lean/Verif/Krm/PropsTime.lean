import Verif.Krm.PropsAuth

/-! # C93: only timely messages are handed on -/

namespace Verif.Krm

open Verif.Kel (Id Dig Sig)

/-- At some time in the history the message arrived while its time stamp was in the window then in force for it: not more than the drift and the lag of its kind of
authentication before, not more than the drift after the clock. -/
def ArrivedInTime (k0 : Krm) (l : List Step) (m : Msg) : Prop :=
  ∃ l1 env now kwa l2 mdt r auth, l = l1 ++ .deliver env now m kwa :: l2 ∧ m.stamp = some mdt ∧ fetch (reconcile now (run k0 l1)).1.ctyp m = .ok r ∧
    now - 1000 * (r.d + (lags r auth).1) ≤ mdt ∧ mdt ≤ now + 1000 * r.d

theorem ArrivedInTime.more {k0 : Krm} {l l' : List Step} {m : Msg} (h : ArrivedInTime k0 l m) : ArrivedInTime k0 (l ++ l') m := by
  obtain ⟨l1, env, now, kwa, l2, mdt, r, auth, h1, h2⟩ := h
  exact ⟨l1, env, now, kwa, l2 ++ l', mdt, r, auth, by rw [h1]; simp, h2⟩

theorem ArrivedInTime.delivered {k0 : Krm} {l : List Step} {m : Msg} (h : ArrivedInTime k0 l m) : ∃ x ∈ delivered l, x.2.2.1 = m := by
  obtain ⟨l1, env, now, kwa, l2, mdt, r, auth, h1, h2⟩ := h
  refine ⟨(env, now, m, kwa), ?_, rfl⟩
  rw [h1, delivered_append]
  exact List.mem_append_right _ List.mem_cons_self

/-- What is in the cache arrived in time. -/
def InvT (k0 : Krm) (l : List Step) (k : Krm) : Prop :=
  (∀ q, k.msgc.get q ≠ none → ∃ m, (m.sender, m.said) = q ∧ exId m = none ∧ ArrivedInTime k0 l m) ∧
    ∀ s x d, k.tmsc.get (s, x, d) ≠ none → ∃ m, (m.sender, m.said) = (s, d) ∧ exId m = some x ∧ ArrivedInTime k0 l m

theorem get_sub {κ ν : Type} [DecidableEq κ] {t t' : Tab κ ν} (h : ∀ e, e ∈ t' → e ∈ t) {q : κ} (hq : Tab.get t' q ≠ none) : Tab.get t q ≠ none := by
  cases hg : Tab.get t' q with
  | none => exact absurd hg hq
  | some c =>
    obtain ⟨w, hw⟩ := get_of_mem (h _ (get_mem hg))
    rw [hw]
    simp

theorem timely_window {now mdt d ml : Int} (h : timely now mdt d ml = true) : now - 1000 * (d + ml) ≤ mdt ∧ mdt ≤ now + 1000 * d := by
  have : now - 1000 * d - 1000 * ml ≤ mdt ∧ mdt ≤ now + 1000 * d := of_decide_eq_true h
  omega

theorem InvT.tables {k0 : Krm} {l l' : List Step} {k k' : Krm} (h : InvT k0 l k) (h1 : ∀ e, e ∈ k'.msgc → e ∈ k.msgc) (h2 : ∀ e, e ∈ k'.tmsc → e ∈ k.tmsc) : InvT k0 (l ++ l') k' := by
  refine ⟨fun q hq => ?_, fun s x d hq => ?_⟩
  · obtain ⟨m, h3, h4, h5⟩ := h.1 q (get_sub h1 hq)
    exact ⟨m, h3, h4, h5.more⟩
  · obtain ⟨m, h3, h4, h5⟩ := h.2 s x d (get_sub h2 hq)
    exact ⟨m, h3, h4, h5.more⟩

theorem kramit_time {k0 : Krm} {l : List Step} {env : Env} {now : Int} {m : Msg} {kwa : Kwa} (hT : InvT k0 l (run k0 l)) :
    InvT k0 (l ++ [.deliver env now m kwa]) (kramit env now (reconcile now (run k0 l)).1 m kwa).1 := by
  have hh := (reconcile_held now (run k0 l)).tables
  have hT1 : InvT k0 (l ++ [.deliver env now m kwa]) (reconcile now (run k0 l)).1 := hT.tables (by rw [hh.msgc]; exact fun _ => id) (by rw [hh.tmsc]; exact fun _ => id)
  have arr : ∀ mdt r auth, m.stamp = some mdt → fetch (reconcile now (run k0 l)).1.ctyp m = .ok r → timely now mdt r.d (lags r auth).1 = true →
      ArrivedInTime k0 (l ++ [.deliver env now m kwa]) m := fun mdt r auth h1 h2 h3 =>
    ⟨l, env, now, kwa, [], mdt, r, auth, rfl, h1, h2, timely_window h3⟩
  cases hx : exId m with
  | none =>
    have hd := kramit_done env now (reconcile now (run k0 l)).1 m kwa hx
    generalize isPass (kramit env now (reconcile now (run k0 l)).1 m kwa).2 = b at hd
    generalize (kramit env now (reconcile now (run k0 l)).1 m kwa).1 = k' at hd
    cases hd with
    | same => exact hT1
    | waits _ _ h2 => exact ⟨by rw [h2.msgc]; exact hT1.1, by rw [h2.tmsc]; exact hT1.2⟩
    | pass h3 _ h4 _ _ h5 h2 _ _ =>
      refine ⟨fun q hq => ?_, by rw [h2.tmsc]; exact hT1.2⟩
      rw [h2.msgc] at hq
      by_cases hqk : (m.sender, m.said) = q
      · exact ⟨m, hqk, hx, arr _ _ _ h3 h4 h5⟩
      · exact hT1.1 q (fun e => hq ((get_pin ..).trans ((if_neg hqk).trans e)))
  | some x =>
    have hd := kramit_done2 env now (reconcile now (run k0 l)).1 m x kwa hx
    generalize isPass (kramit env now (reconcile now (run k0 l)).1 m kwa).2 = b at hd
    generalize (kramit env now (reconcile now (run k0 l)).1 m kwa).1 = k' at hd
    cases hd with
    | same => exact hT1
    | waits _ _ h2 => exact ⟨by rw [h2.msgc]; exact hT1.1, by rw [h2.tmsc]; exact hT1.2⟩
    | pass h3 _ h4 _ _ h5 _ _ _ h2 _ _ =>
      refine ⟨by rw [h2.msgc]; exact hT1.1, fun s x' d hq => ?_⟩
      rw [h2.tmsc] at hq
      by_cases hqk : (m.sender, x, m.said) = (s, x', d)
      · injection hqk with e1 e2
        injection e2 with e2 e3
        exact ⟨m, by rw [e1, e3], by rw [hx, e2], arr _ _ _ h3 h4 h5⟩
      · exact hT1.2 s x' d (fun e => hq ((get_pin ..).trans ((if_neg hqk).trans e)))

theorem step_time {k0 : Krm} {l : List Step} {a : Step} (hT : InvT k0 l (run k0 l)) : InvT k0 (l ++ [a]) (step (run k0 l) a) := by
  cases a with
  | deliver env now m kwa =>
    have hst : step (run k0 l) (.deliver env now m kwa) = (deliver env now (run k0 l) m kwa).1 := rfl
    rw [hst]
    have ht := (reconcile_held now (run k0 l)).tables
    rcases deliver_cases env now (run k0 l) m kwa with h3 | h3
    · rw [h3]
      exact hT.tables (by rw [ht.msgc]; exact fun _ => id) (by rw [ht.tmsc]; exact fun _ => id)
    · rw [h3]
      exact kramit_time hT
  | prune now => exact hT.tables (prune_less now _).msgc (prune_less now _).tmsc
  | change now cf o =>
    have ht := (changeConfig_held now (run k0 l) cf o).tables
    exact hT.tables (fun e he => ht.msgc ▸ he) (fun e he => ht.tmsc ▸ he)
  | restart now e d cf =>
    have ht := restart_tables (run k0 l) now e d cf
    exact hT.tables (fun e he => ht.msgc ▸ he) (fun e he => ht.tmsc ▸ he)

theorem run_snoc (k : Krm) (l : List Step) (a : Step) : run k (l ++ [a]) = step (run k l) a := by
  unfold run
  rw [List.foldl_append]
  rfl

theorem run_time {k0 : Krm} (hf : Fresh k0) : ∀ (n : Nat) (l : List Step), l.length = n → InvT k0 l (run k0 l)
  | 0, l, h => by
    rw [List.length_eq_zero_iff.1 h]
    refine ⟨fun q hq => ?_, fun s x d hq => ?_⟩
    · have : (run k0 []).msgc = [] := hf.1
      rw [this] at hq; exact absurd rfl hq
    · have : (run k0 []).tmsc = [] := hf.2.1
      rw [this] at hq; exact absurd rfl hq
  | n + 1, l, h => by
    have hne : l ≠ [] := by intro e; rw [e] at h; simp at h
    have hl := List.dropLast_concat_getLast hne
    rw [← hl, run_snoc]
    exact step_time (run_time hf n l.dropLast (by rw [List.length_dropLast, h]; rfl))

/-- **C93.**  After every history, a message that is checked and handed on arrived, now or before, while its time stamp was in the window of the settings then in force for it. -/
theorem c93_timely {k : Krm} {l : List Step} {env : Env} {now : Int} {m : Msg} {kwa : Kwa} (hf : Fresh k) (hb : BindsAll (l ++ [.deliver env now m kwa]))
    (hg : Guards m (run k l)) (hp : handed (run k l) (.deliver env now m kwa) = some m) : ArrivedInTime k (l ++ [.deliver env now m kwa]) m := by
  have hT := run_time hf _ l rfl
  have hself : (env, now, m, kwa) ∈ delivered (l ++ [.deliver env now m kwa]) := by
    rw [delivered_append]; exact List.mem_append_right _ List.mem_cons_self
  have hold : Entry (run k l) m → ArrivedInTime k (l ++ [.deliver env now m kwa]) m := by
    intro he
    have : ∃ m', (m'.sender, m'.said) = (m.sender, m.said) ∧ ArrivedInTime k l m' := by
      unfold Entry at he
      split at he
      · obtain ⟨m', h1, _, h3⟩ := hT.1 _ he
        exact ⟨m', h1, h3⟩
      · obtain ⟨m', h1, _, h3⟩ := hT.2 _ _ _ he
        exact ⟨m', h1, h3⟩
    obtain ⟨m', h1, h2⟩ := this
    obtain ⟨y, hy, hm⟩ := (h2.more (l' := [.deliver env now m kwa])).delivered
    have := hb y hy _ hself (by rw [hm]; exact congrArg Prod.fst h1) (by rw [hm]; exact congrArg Prod.snd h1)
    rw [hm] at this
    have he : m' = m := this
    exact he ▸ h2.more
  have hB : Bound (delivered l ++ [(env, now, m, kwa)]) := by
    have : delivered (l ++ [.deliver env now m kwa]) = delivered l ++ [(env, now, m, kwa)] := delivered_append ..
    unfold BindsAll at hb
    rw [this] at hb
    exact hb
  obtain ⟨hW, _⟩ := run_inv l [] k (fun x hx y hy => hB x (List.mem_append_left _ hx) y (List.mem_append_left _ hy)) (fresh_inv hf)
  rw [List.nil_append] at hW
  have hwait : (run k l).pmkm.get (m.sender, m.said) ≠ none → Entry (run k l) m := by
    intro h
    obtain ⟨x, hx, h1, h2⟩ := hW _ (Or.inr (Or.inr h))
    have he : x.2.2.1 = m := hB x (List.mem_append_left _ hx) (env, now, m, kwa) (List.mem_append_right _ (List.mem_singleton.2 rfl)) (congrArg Prod.fst h1) (congrArg Prod.snd h1)
    exact he ▸ h2
  rw [handed_deliver] at hp
  have hp : isPass (deliver env now (run k l) m kwa).2 = true := by
    split at hp
    · assumption
    · simp at hp
  cases hx : exId m with
  | none =>
    obtain ⟨k1, h1, h2, h3⟩ := deliver_done (env := env) (now := now) (kwa := kwa) hx hg
    rw [hp] at h3
    generalize (deliver env now (run k l) m kwa).1 = k' at h3
    cases h3 with
    | waits h4 _ _ =>
      refine hold ?_
      rcases h4 with h4 | ⟨c, _, h4, _⟩
      · exact hwait (by rw [← h1.pmkm]; exact h4)
      · unfold Entry; rw [hx]; dsimp only; rw [← h1.msgc, h4]; simp
    | pass h4 _ h6 _ _ h7 _ _ _ => exact ⟨l, env, now, kwa, [], _, _, _, rfl, h4, h2 ▸ h6, timely_window h7⟩
  | some x =>
    obtain ⟨k1, h1, h2, h3⟩ := deliver_done2 (env := env) (now := now) (kwa := kwa) hx hg
    rw [hp] at h3
    generalize (deliver env now (run k l) m kwa).1 = k' at h3
    cases h3 with
    | waits h4 _ _ =>
      refine hold ?_
      rcases h4 with h4 | ⟨c, _, h4, _⟩
      · exact hwait (by rw [← h1.pmkm]; exact h4)
      · unfold Entry; rw [hx]; dsimp only; rw [← h1.tmsc, h4]; simp
    | pass h4 _ h6 _ _ h7 _ _ _ _ _ _ => exact ⟨l, env, now, kwa, [], _, _, _, rfl, h4, h2 ▸ h6, timely_window h7⟩

end Verif.Krm
