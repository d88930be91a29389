import Verif.Exc.PropsAuth

/-! # C106: messages do not wait for ever; C107: contents that are attached -/

namespace Verif.Exc

open Verif.Thold (Thold)
open Verif.Kel (Id Dig Sig)
open Verif.Krm (Tab get_pin get_put get_rem get_mem)

variable {routes : Routes} {env : Env} {now : Int} {e : Exc} {m : Msg} {a : Att}

/-- A message that waits has a time, which is that of a delivery. -/
def InvT (l : List Step) (e : Exc) : Prop :=
  ∀ d, (e.epse.get d = none → e.epsd.get d = none) ∧ ∀ m, e.epse.get d = some m → ∃ t env a m', e.epsd.get d = some t ∧ m'.said = d ∧ Step.deliver env t m' a ∈ l

theorem rem_self {ν : Type} {t : Tab Dig ν} {k : Dig} : (t.rem k).get k = none := by rw [get_rem, if_pos rfl]

theorem unescrow_invT {l : List Step} {d : Dig} (h : InvT l e) : InvT l (unescrow e d) := by
  obtain ⟨_, _, _, _, _, _, h7, h8⟩ := unescrow_frame e d
  intro d'
  rw [h7, h8]
  by_cases hd : d = d'
  · subst hd
    rw [rem_self, rem_self]
    exact ⟨fun _ => rfl, fun m hm => absurd hm (by simp)⟩
  · rw [get_rem, if_neg hd, get_rem, if_neg hd]
    exact h d'

/-- Processing at a time when the message already waits, or as the delivery of that time. -/
theorem proc_invT {l : List Step} {e' : Exc} {r : Except Err Unit} (h : InvT l e)
    (hw : (e.epse.get m.said).isSome ∨ ∃ env a m', m'.said = m.said ∧ Step.deliver env now m' a ∈ l)
    (hp : Proc routes env now e m a e' r) : InvT l e' := by
  cases hp with
  | drop r => exact h
  | save acts r _ _ _ _ => exact h
  | wait acts _ =>
    intro d
    dsimp only [escrow]
    by_cases hd : m.said = d
    · subst hd
      refine ⟨fun h1 => ?_, fun m' _ => ?_⟩
      · have := isSome_put_self (t := e.epse) (k := m.said) (v := m)
        rw [h1] at this
        exact absurd this (by simp)
      · cases hs : e.epse.get m.said with
        | none =>
          rcases hw with h2 | ⟨env2, a2, m2, h3, h4⟩
          · rw [hs] at h2; exact absurd h2 (by simp)
          · exact ⟨now, env2, a2, m2, by rw [get_put, if_pos ⟨rfl, (h _).1 hs⟩], h3, h4⟩
        | some m0 =>
          obtain ⟨t, env2, a2, m2, h3, h4⟩ := (h m.said).2 m0 hs
          exact ⟨t, env2, a2, m2, by rw [get_put, if_neg (by rw [h3]; simp)]; exact h3, h4⟩
    · rw [get_put, if_neg (fun h2 => hd h2.1), get_put, if_neg (fun h2 => hd h2.1)]
      exact h d

theorem invT_mono {l : List Step} (s : Step) (h : InvT l e) : InvT (l ++ [s]) e := fun d => ⟨(h d).1, fun m hm => by
  obtain ⟨t, env, a, m', h1, h2, h3⟩ := (h d).2 m hm
  exact ⟨t, env, a, m', h1, h2, List.mem_append_left _ h3⟩⟩

/-- Is the message of the digest gone, or young? -/
def Young (now : Int) (e : Exc) (d : Dig) : Prop := ∀ m, e.epse.get d = some m → ∃ t, e.epsd.get d = some t ∧ now - t ≤ 10000000

theorem unescrow_young {d d' : Dig} (h : d = d' ∨ Young now e d') : Young now (unescrow e d) d' := by
  obtain ⟨_, _, _, _, _, _, h7, h8⟩ := unescrow_frame e d
  intro m hm
  rw [h7] at hm
  rw [h8]
  by_cases hd : d = d'
  · subst hd
    rw [rem_self] at hm
    exact absurd hm (by simp)
  · rw [get_rem, if_neg hd] at hm ⊢
    exact (h.resolve_left hd) m hm

theorem proc_young {e' : Exc} {r : Except Err Unit} {d : Dig} (h : Young now e d) (hs : m.said = d → ∃ t, e.epsd.get d = some t ∧ now - t ≤ 10000000)
    (hp : Proc routes env now e m a e' r) : Young now e' d := by
  cases hp with
  | drop r => exact h
  | save acts r _ _ _ _ => exact h
  | wait acts _ =>
    intro m' hm
    dsimp only [escrow] at hm ⊢
    by_cases hd : m.said = d
    · obtain ⟨t, h1, h2⟩ := hs hd
      exact ⟨t, by rw [get_put, if_neg (by rw [hd, h1]; simp)]; exact h1, h2⟩
    · rw [get_put, if_neg (fun h2 => hd h2.1)] at hm ⊢
      exact h m' hm

theorem waiting_young {d d' : Dig} (hm : m.said = d) (h : d = d' ∨ Young now e d') : Young now (processWaiting routes env now e d m) d' := by
  unfold processWaiting
  cases ht : e.epsd.get d with
  | none => exact unescrow_young h
  | some t =>
    dsimp only
    by_cases hold : 10000000 < now - t
    · rw [if_pos hold]; exact unescrow_young h
    · rw [if_neg hold]
      have hy : Young now e d' := by
        rcases h with rfl | h
        · exact fun _ _ => ⟨t, ht, by omega⟩
        · exact h
      have hp := proc_young (d := d') hy (fun h2 => ⟨t, by rw [← h2, hm]; exact ht, by omega⟩)
        (process_proc (routes := routes) (env := env) (now := now) (e := e) (m := m) (a := stored e d))
      split
      · rename_i heq
        rw [heq] at hp
        exact hp
      · rename_i heq
        rw [heq] at hp
        exact unescrow_young (Or.inr hp)

theorem escrow_young {l : List Step} (ha : InvA (routes := routes) l e) (d : Dig) : Young now (processEscrow routes env now e) d := by
  have key : ∀ (ws : List (Dig × Msg)) (e' : Exc), (∀ x ∈ ws, x.2.said = x.1) → (d ∈ ws.map Prod.fst ∨ Young now e' d) →
      Young now (ws.foldl (fun e x => processWaiting routes env now e x.1 x.2) e') d := by
    intro ws
    induction ws with
    | nil => intro e' _ h; exact h.resolve_left (by simp)
    | cons x ws ih =>
      intro e' hs h
      refine ih _ (fun y hy => hs y (List.mem_cons_of_mem _ hy)) ?_
      have hx := hs x List.mem_cons_self
      rcases h with h | h
      · rcases List.mem_cons.1 h with h | h
        · exact Or.inr (waiting_young hx (Or.inl h.symm))
        · exact Or.inl h
      · exact Or.inr (waiting_young hx (Or.inr h))
  refine key e.epse e (fun x hx => (ha.epse x hx).1) ?_
  by_cases hd : d ∈ e.epse.map Prod.fst
  · exact Or.inl hd
  · refine Or.inr (fun m hm => absurd (List.mem_map.2 ⟨_, get_mem hm, rfl⟩) hd)

theorem run_invT (routes : Routes) (l : List Step) : InvT l (run routes l) := by
  induction l using history_ind with
  | h0 => exact fun d => ⟨fun _ => rfl, fun m hm => absurd hm (by simp [run, Tab.get])⟩
  | h1 l s ih =>
    rw [run_append]
    have hm := invT_mono s ih
    cases s with
    | deliver env now m a => exact proc_invT hm (Or.inr ⟨env, a, m, rfl, List.mem_append_right _ (List.mem_singleton.2 rfl)⟩) process_proc
    | pass env now =>
      have ha := run_invA routes l
      generalize run routes l = e at hm ha
      have key : ∀ (ws : List (Dig × Msg)) (e' : Exc), (∀ x ∈ ws, x.2.said = x.1) → InvT (l ++ [.pass env now]) e' →
          InvT (l ++ [.pass env now]) (ws.foldl (fun e x => processWaiting routes env now e x.1 x.2) e') := by
        intro ws
        induction ws with
        | nil => intro e' _ h; exact h
        | cons x ws ih =>
          intro e' hs h
          refine ih _ (fun y hy => hs y (List.mem_cons_of_mem _ hy)) ?_
          have hx := hs x List.mem_cons_self
          dsimp only
          unfold processWaiting
          cases ht : e'.epsd.get x.1 with
          | none => exact unescrow_invT h
          | some t =>
            dsimp only
            by_cases hold : 10000000 < now - t
            · rw [if_pos hold]; exact unescrow_invT h
            · rw [if_neg hold]
              have hsome : (e'.epse.get x.2.said).isSome := by
                rw [hx]
                cases hs : e'.epse.get x.1 with
                | none => rw [(h x.1).1 hs] at ht; exact absurd ht (by simp)
                | some _ => rfl
              have hp := proc_invT h (Or.inl hsome) (process_proc (routes := routes) (env := env) (now := now) (e := e') (m := x.2) (a := stored e' x.1))
              split
              · rename_i heq
                rw [heq] at hp
                exact hp
              · rename_i heq
                rw [heq] at hp
                exact unescrow_invT hp
      exact key e.epse e (fun x hx => (ha.epse x hx).1) hm

/-- **C106** After a look at the messages that wait, those that still do came no more than ten seconds before. -/
theorem c106_timeout (routes : Routes) (l : List Step) (env : Env) (now : Int) (d : Dig) (m : Msg)
    (h : (run routes (l ++ [.pass env now])).epse.get d = some m) : ∃ env' t a m', Step.deliver env' t m' a ∈ l ∧ m'.said = d ∧ now - t ≤ 10000000 := by
  obtain ⟨t, env', a, m', h1, h2, h3⟩ := (run_invT routes (l ++ [.pass env now]) d).2 m h
  rw [run_append] at h h1
  obtain ⟨t', h4, h5⟩ := escrow_young (run_invA routes l) d m h
  rw [show (step routes (run routes l) (.pass env now)) = processEscrow routes env now (run routes l) from rfl, h4] at h1
  obtain rfl := Option.some.inj h1
  refine ⟨env', t', a, m', ?_, h2, h5⟩
  rcases List.mem_append.1 h3 with h6 | h6
  · exact h6
  · exact absurd (List.mem_singleton.1 h6) (by simp)

/-! ## Contents that are attached -/

/-- The message was delivered with attachments that have the digest in it. -/
def WithEssr (l : List Step) (m : Msg) (d : Dig) : Prop := ∃ env now a, Step.deliver env now m a ∈ l ∧ a.essrs ≠ [] ∧ env.essrOk d a.essrs = true

structure InvE (l : List Step) (e : Exc) : Prop where
  good : ∀ d m, e.exns.get d = some m → ∀ x, m.essr = some x → WithEssr l m x
  bare : ∀ d, e.exns.get d = none → e.essrs.items d = []

theorem items_addSet {α : Type} [DecidableEq α] {d d' : Dig} (hd : d ≠ d') : ∀ (vs : List α) (t : Tab Dig (List α)), (addSet t d vs).items d' = t.items d'
  | [], t => rfl
  | v :: vs, t => by
    have : addSet t d (v :: vs) = addSet (if v ∈ t.items d then t else t.pin d (t.items d ++ [v])) d vs := rfl
    rw [this, items_addSet hd vs]
    split
    · rfl
    · rw [items_pin, if_neg hd]

/-- Delivered, or taken from those that wait with nothing attached unless it is saved. -/
theorem proc_invE {l : List Step} {e' : Exc} {r : Except Err Unit} (h : InvE l e)
    (hw : Step.deliver env now m a ∈ l ∨ a.essrs = e.essrs.items m.said) (hp : Proc routes env now e m a e' r) : InvE l e' := by
  cases hp with
  | drop r => exact h
  | wait acts _ => exact ⟨h.good, h.bare⟩
  | save acts r _ hes _ _ =>
    refine ⟨fun d m' hm x hx => ?_, fun d hn => ?_⟩
    · dsimp only [log] at hm
      rw [get_put] at hm
      split at hm
      · rename_i hc
        obtain rfl := Option.some.inj hm
        obtain ⟨rfl, hnone⟩ := hc
        have : a.essrs ≠ [] ∧ env.essrOk x a.essrs = true := by
          unfold essrCheck at hes
          rw [hx] at hes
          simpa using hes
        rcases hw with h1 | h1
        · exact ⟨env, now, a, h1, this⟩
        · rw [h1, h.bare _ hnone] at this
          exact absurd rfl this.1
      · exact h.good d m' hm x hx
    · dsimp only [log] at hn ⊢
      by_cases hd : m.said = d
      · subst hd
        have := isSome_put_self (t := e.exns) (k := m.said) (v := m)
        rw [hn] at this
        exact absurd this (by simp)
      · rw [items_addSet hd]
        refine h.bare d ?_
        rw [get_put, if_neg (fun h2 => hd h2.1)] at hn
        exact hn

theorem run_invE (routes : Routes) (l : List Step) : InvE l (run routes l) := by
  have := run_inv (routes := routes) (P := fun l e => InvA (routes := routes) l e ∧ InvE l e)
    ⟨run_invA routes [], ⟨fun d m hm => absurd hm (by simp [Tab.get]), fun _ _ => rfl⟩⟩
    (fun l s e h => ⟨h.1.mono s, ⟨fun d m hm x hx => by
      obtain ⟨env, now, a, h1, h2⟩ := h.2.good d m hm x hx
      exact ⟨env, now, a, List.mem_append_left _ h1, h2⟩, h.2.bare⟩⟩)
    (fun l e env now m a h => ⟨?_, proc_invE h.2 (Or.inl (List.mem_append_right _ (List.mem_singleton.2 rfl))) process_proc⟩)
    (fun l e0 e env now d m h0 hm h => ⟨?_, proc_invE h.2 (Or.inr ?_) process_proc⟩)
    (fun l e d h => ⟨unescrow_invA d h.1, by
      obtain ⟨h1, _, _, _, h5, _⟩ := unescrow_frame e d
      refine ⟨?_, ?_⟩
      · rw [h1]; exact h.2.good
      · rw [h1, h5]; exact h.2.bare⟩) l
  · exact this.2
  · exact proc_invA (x := .deliver env now m a) h.1 ⟨a, came_last l env now m a⟩
      (fun q s ⟨t, ht, h1, h2⟩ => ⟨m, a, came_last l env now m a, rfl, t, ht, h1, h2⟩) (fun _ => came_last l env now m a) process_proc
  · obtain ⟨h1, h2⟩ := h0.1.epse _ hm
    have h1 : m.said = d := h1
    subst h1
    exact proc_invA (x := .pass env now) h.1 h2 (fun q s hs => h.1.esigs m.said q s hs) (fun hc => absurd rfl hc) process_proc
  · have h1 : m.said = d := (h0.1.epse _ hm).1
    subst h1
    rfl

/-- **C107** A message whose contents are attached is saved only if it came with attachments of the digest it gives. -/
theorem c107_essr (routes : Routes) (l : List Step) (d : Dig) (m : Msg) (x : Dig) (h : (run routes l).exns.get d = some m) (hx : m.essr = some x) :
    WithEssr l m x := (run_invE routes l).good d m h x hx

end Verif.Exc
