import Verif.Krm.PropsAuth

/-! # C92, C100: signatures that count twice, and what is handed on with a message -/

namespace Verif.Krm

open Verif.Kel (Id Dig Sig)

/-- No delivery has two good signatures with the same index. -/
def OnePerIndex (past : List (Env × Int × Msg × Kwa)) : Prop :=
  ∀ x ∈ past, ∀ ks, x.1.kevers x.2.2.1.sender = some ks → ∀ s s', Attached ks x.2.2.1 x.2.2.2 s → Good x.1 ks x.2.2.1 s → Attached ks x.2.2.1 x.2.2.2 s' →
    Good x.1 ks x.2.2.1 s' → s.index = s'.index → s = s'

/-- The signatures that wait for others have different indices. -/
def InvD (k : Krm) : Prop := ∀ q, ((k.pmks.items q).map Sig.index).Nodup

theorem addSigs_items {key : Id × Dig} : ∀ (l : List Sig) (t : Tab (Id × Dig) (List Sig)), l.Nodup → (∀ s ∈ l, s ∉ t.items key) → (addSigs t key l).items key = t.items key ++ l
  | [], t, _, _ => (List.append_nil _).symm
  | a :: l, t, hn, h => by
    rw [List.nodup_cons] at hn
    have h1 : addSigs t key (a :: l) = addSigs (Tab.pin t key (t.items key ++ [a])) key l := by
      show addSigs (if a ∈ t.items key then t else Tab.pin t key (t.items key ++ [a])) key l = _
      rw [if_neg (h a List.mem_cons_self)]
    rw [h1, addSigs_items l _ hn.2, items_pin, if_pos rfl, List.append_assoc]
    · rfl
    · intro s hs
      rw [items_pin, if_pos rfl]
      intro h2
      rcases List.mem_append.1 h2 with h2 | h2
      · exact h s (List.mem_cons_of_mem _ hs) h2
      · exact hn.1 (List.mem_singleton.1 h2 ▸ hs)

theorem map_index_nodup {vs : List Sig} (hn : vs.Nodup) (h : ∀ s ∈ vs, ∀ s' ∈ vs, s.index = s'.index → s = s') : (vs.map Sig.index).Nodup := by
  induction vs with
  | nil => simp
  | cons a l ih =>
    rw [List.nodup_cons] at hn
    rw [List.map_cons, List.nodup_cons]
    refine ⟨fun h1 => ?_, ih hn.2 (fun s hs s' hs' => h s (List.mem_cons_of_mem _ hs) s' (List.mem_cons_of_mem _ hs'))⟩
    obtain ⟨s, hs, h2⟩ := List.mem_map.1 h1
    exact hn.1 (h s (List.mem_cons_of_mem _ hs) a List.mem_cons_self h2 ▸ hs)

theorem InvD.pmks {k k' : Krm} (h : InvD k) (e : k'.pmks = k.pmks) : InvD k' := by
  unfold InvD at *
  rw [e]
  exact h

theorem kramit_invD {past : List (Env × Int × Msg × Kwa)} {env : Env} {now : Int} {k : Krm} {m : Msg} {kwa : Kwa} (hb : Bound (past ++ [(env, now, m, kwa)]))
    (ho : OnePerIndex (past ++ [(env, now, m, kwa)])) (hw : InvW past k) (h : InvD k) : InvD (kramit env now k m kwa).1 := by
  have hs := kramit_sgn env now k m kwa
  have hself : (env, now, m, kwa) ∈ past ++ [(env, now, m, kwa)] := List.mem_append_right _ (List.mem_singleton.2 rfl)
  generalize isPass (kramit env now k m kwa).2 = b at hs
  generalize (kramit env now k m kwa).1 = k' at hs
  cases hs with
  | drop h1 _ _ => exact h.pmks h1
  | pass h1 _ _ _ => exact h.pmks h1
  | @wait ks vs hk hg hnd hn h1 h2 =>
    intro q
    rw [h1]
    by_cases hqk : q = (m.sender, m.said)
    · subst hqk
      have h3 := nothing_waits hb hw hn
      rw [addSigs_items vs k.pmks hnd (by rw [h3]; simp), h3, List.nil_append]
      refine map_index_nodup hnd (fun s hs s' hs' e => ?_)
      exact ho _ hself ks hk s s' (attached_norm (hg s hs).1) (hg s hs).2 (attached_norm (hg s' hs').1) (hg s' hs').2 e
    · rw [items_other hqk]; exact h q
  | @more ks vs _ hk hg hnd hne hst h1 h2 _ =>
    intro q
    rw [h1]
    by_cases hqk : q = (m.sender, m.said)
    · subst hqk
      rw [addSigs_items vs k.pmks hnd (fun s hs h3 => hne s hs (List.mem_map.2 ⟨s, h3, rfl⟩)), List.map_append, List.nodup_append]
      refine ⟨h _, map_index_nodup hnd (fun s hs s' hs' e => ?_), ?_⟩
      · exact ho _ hself ks hk s s' (attached_norm (hg s hs).1) (hg s hs).2 (attached_norm (hg s' hs').1) (hg s' hs').2 e
      · intro a ha b hb e
        obtain ⟨s, hs, h4⟩ := List.mem_map.1 hb
        exact hne s hs (by rw [h4, ← e]; exact ha)
    · rw [items_other hqk]; exact h q

theorem prune_invD {k : Krm} (now : Int) (h : InvD k) : InvD (prune now k) := by
  refine prune_inv (P := InvD) (fun k key h => ?_) (fun k key h => ?_) now k h <;>
  · intro q
    have h2 := h q
    unfold dropPartial Tab.items at *
    dsimp only
    rw [get_rem]
    split
    · simp
    · exact h2

theorem step_invD {past : List (Env × Int × Msg × Kwa)} {k : Krm} {a : Step} (hb : Bound (past ++ delivered [a])) (ho : OnePerIndex (past ++ delivered [a])) (hw : InvW past k)
    (h : InvD k) : InvD (step k a) := by
  cases a with
  | deliver env now m kwa =>
    have hst : step k (.deliver env now m kwa) = (deliver env now k m kwa).1 := rfl
    rw [hst]
    have ht := (reconcile_held now k).tables
    rcases deliver_cases env now k m kwa with h3 | h3
    · rw [h3]; exact h.pmks ht.pmks
    · rw [h3]; exact kramit_invD hb ho (hw.tables ht) (h.pmks ht.pmks)
  | prune now => exact prune_invD now h
  | change now cf o => exact h.pmks (changeConfig_held now k cf o).tables.pmks
  | restart now e d cf => exact h.pmks (restart_tables k now e d cf).pmks

theorem OnePerIndex.left {p p' : List (Env × Int × Msg × Kwa)} (h : OnePerIndex (p ++ p')) : OnePerIndex p := fun x hx => h x (List.mem_append_left _ hx)

theorem run_invD : ∀ (l : List Step) (past : List (Env × Int × Msg × Kwa)) (k : Krm), Bound (past ++ delivered l) → OnePerIndex (past ++ delivered l) → InvW past k ∧ InvS past k →
    InvD k → InvD (run k l)
  | [], _, _, _, _, _, h => h
  | a :: l, past, k, hb, ho, hw, h => by
    rw [delivered_cons, ← List.append_assoc] at hb ho
    have hb' : Bound (past ++ delivered [a]) := fun x hx y hy => hb x (List.mem_append_left _ hx) y (List.mem_append_left _ hy)
    exact run_invD l _ (step k a) hb ho (step_inv hb' hw) (step_invD hb' ho.left hw.1 h)

/-- **C92.**  The signatures of several keys that make a message authentic have different indices, if no single delivery has two good signatures with the same index: no key
counts twice because its signature was sent twice. -/
theorem c92_distinct {k : Krm} {l : List Step} {env : Env} {now : Int} {m : Msg} {kwa : Kwa} (hf : Fresh k) (hb : BindsAll (l ++ [.deliver env now m kwa]))
    (ho : OnePerIndex (delivered (l ++ [.deliver env now m kwa]))) (hg : Guards m (run k l)) (hp : handed (run k l) (.deliver env now m kwa) = some m) :
    Sealed env m kwa ∨ OwnSig env m kwa ∨ ∃ ks, env.kevers m.sender = some ks ∧
      ((ks.keys.length = 1 ∧ ∃ s, Attached ks m kwa s ∧ Good env ks m s) ∨
        ∃ ss : List Sig, (∀ s ∈ ss, Sent (delivered (l ++ [.deliver env now m kwa])) ks m s) ∧ (ss.map Sig.index).Nodup ∧
          Verif.Thold.satisfy ks.kt (ss.map Sig.index) = true) := by
  rw [delivered_append] at ho ⊢
  have hB : Bound (delivered l ++ [(env, now, m, kwa)]) := by
    have : delivered (l ++ [.deliver env now m kwa]) = delivered l ++ [(env, now, m, kwa)] := delivered_append ..
    unfold BindsAll at hb
    rw [this] at hb
    exact hb
  have ho : OnePerIndex (delivered l ++ [(env, now, m, kwa)]) := ho
  have hBl : Bound ([] ++ delivered l) := fun x hx y hy => hB x (List.mem_append_left _ hx) y (List.mem_append_left _ hy)
  obtain ⟨hW, hS⟩ := run_inv l [] k hBl (fresh_inv hf)
  rw [List.nil_append] at hW hS
  have hD : InvD (run k l) := run_invD l [] k hBl ho.left (fresh_inv hf) (by intro q; rw [hf.2.2.2.1]; simp [Tab.items, get_nil])
  rw [handed_deliver] at hp
  have hp : isPass (deliver env now (run k l) m kwa).2 = true := by
    split at hp
    · assumption
    · simp at hp
  have hr := reconcile_held now (run k l)
  have hd : isPass (kramit env now (reconcile now (run k l)).1 m kwa).2 = true := by
    unfold deliver at hp
    generalize reconcile now (run k l) = e at *
    obtain ⟨k1, e⟩ := e
    cases e with
    | error e => exact absurd hp (by simp [isPass])
    | ok u =>
      have hp : isPass (intake env now k1 m kwa).2 = true := hp
      unfold intake at hp
      rw [hr.enabled, hg.1, hr.denials, hg.2] at hp
      simpa using hp
  have hs := kramit_sgn env now (reconcile now (run k l)).1 m kwa
  have hself : (env, now, m, kwa) ∈ delivered l ++ [(env, now, m, kwa)] := List.mem_append_right _ (List.mem_singleton.2 rfl)
  rw [hd] at hs
  generalize (kramit env now (reconcile now (run k l)).1 m kwa).1 = k' at hs
  have ht := hr.tables
  generalize (reconcile now (run k l)).1 = k1 at hs ht
  have hS := hS.tables ht
  have hD := hD.pmks ht.pmks
  have hone : ∀ {ks : Ks} {vs : List Sig}, env.kevers m.sender = some ks →
      (∀ s ∈ vs, Attached ks m (normLast m.sender (normSeals m.sender kwa)) s ∧ Good env ks m s) → vs.Nodup → (vs.map Sig.index).Nodup := fun hk h1 h2 =>
    map_index_nodup h2 (fun s hs s' hs' e => ho _ hself _ hk s s' (attached_norm (h1 s hs).1) (h1 s hs).2 (attached_norm (h1 s' hs').1) (h1 s' hs').2 e)
  cases hs with
  | pass _ _ _ h =>
    rcases h with h | h | ⟨ks, hk, h⟩
    · exact Or.inl (sealed_norm h)
    · exact Or.inr (Or.inl (ownSig_norm h))
    · refine Or.inr (Or.inr ⟨ks, hk, ?_⟩)
      rcases h with ⟨h1, s, h2, h3⟩ | ⟨vs, h1, h4, h2⟩
      · exact Or.inl ⟨h1, s, attached_norm h2, h3⟩
      · exact Or.inr ⟨vs, fun s hs => ⟨_, hself, rfl, ks, hk, rfl, attached_norm (h1 s hs).1, (h1 s hs).2⟩, hone hk h1 h4, h2⟩
  | @more ks vs _ hk hgd hnd hne hst _ _ h =>
    refine Or.inr (Or.inr ⟨ks, hk, Or.inr ⟨_, fun s hs => ?_, ?_, h rfl⟩⟩)
    · rcases List.mem_append.1 hs with hs | hs
      · obtain ⟨v, hv, x, hx, h1, ks', h2, h3, h4, h5⟩ := hS _ s hs
        have he : x.2.2.1 = m := hB x (List.mem_append_left _ hx) _ hself (congrArg Prod.fst h1) (congrArg Prod.snd h1)
        rcases stale_false hst with h6 | h6
        · rw [h6] at hv; simp at hv
        · rw [h6] at hv
          injection hv with hv
          rw [he] at h4 h5
          exact ⟨x, List.mem_append_left _ hx, he, ks', h2, h3.trans hv.symm, h4, h5⟩
      · exact ⟨_, hself, rfl, ks, hk, rfl, attached_norm (hgd s hs).1, (hgd s hs).2⟩
    · rw [List.map_append, List.nodup_append]
      refine ⟨hD _, hone hk hgd hnd, ?_⟩
      intro a ha b hb e
      obtain ⟨s, hs, h4⟩ := List.mem_map.1 hb
      exact hne s hs (by rw [h4, ← e]; exact ha)

/-! ## Attachments -/

/-- The signatures of the sender among the attachments are good: those attached as the sender's, and none is left in groups for other key states. -/
def Clear (Ok : Sig → Prop) (ks : Ks) (m : Msg) (kwa : Kwa) : Prop :=
  (∀ s ∈ kwa.sigers, Ok s) ∧ (∀ l ∈ kwa.lsgs, l.1 = m.sender → ∀ s ∈ l.2, Ok s) ∧
    ∀ t ∈ kwa.tsgs, t.1 = m.sender → (t.2.1, t.2.2.1) = (ks.sn, ks.said) ∧ ∀ s ∈ t.2.2.2, Ok s

theorem scrubFailed_clear {s : Id} {ks : Ks} {k : Kwa} {vs : List Sig} {m : Msg} (hs : m.sender = s) : Clear (· ∈ vs) ks m (scrubFailed s ks k vs) := by
  subst hs
  refine ⟨fun s hs => by simpa using (List.mem_filter.1 hs).2, fun l hl he => ?_, fun t ht he => ?_⟩
  · obtain ⟨l', hl', h1⟩ := List.mem_filterMap.1 hl
    split at h1
    · rename_i h2; injection h1 with h1; rw [h1] at h2; exact absurd he h2
    · dsimp only at h1
      split at h1
      · simp at h1
      · injection h1 with h1
        rw [← h1]
        exact fun s hs => by simpa using (List.mem_filter.1 hs).2
  · obtain ⟨t', ht', h1⟩ := List.mem_filterMap.1 ht
    split at h1
    · rename_i h2; injection h1 with h1; rw [h1] at h2; exact absurd he h2
    · split at h1
      · rename_i h3
        dsimp only at h1
        split at h1
        · simp at h1
        · injection h1 with h1
          obtain ⟨_, h5, h6⟩ := current_true h3
          rw [← h1]
          exact ⟨by rw [h5, h6], fun s hs => by simpa using (List.mem_filter.1 hs).2⟩
      · simp at h1

theorem Clear.imp {Ok Ok' : Sig → Prop} {ks : Ks} {m : Msg} {kwa : Kwa} (h : Clear Ok ks m kwa) (hi : ∀ s, Ok s → Ok' s) : Clear Ok' ks m kwa :=
  ⟨fun s hs => hi s (h.1 s hs), fun l hl he s hs => hi s (h.2.1 l hl he s hs), fun t ht he => ⟨(h.2.2 t ht he).1, fun s hs => hi s ((h.2.2 t ht he).2 s hs)⟩⟩

theorem verifyAttached_clear {env : Env} {m : Msg} {ks : Ks} {kwa : Kwa} (ho : ¬ OwnSig env m kwa) :
    Clear (fun s => Attached ks m kwa s ∧ Good env ks m s) ks m (verifyAttached env m ks kwa).2.2 := by
  have hv := @verifyAttached_good env m ks kwa
  unfold verifyAttached at hv ⊢
  dsimp only at hv ⊢
  split
  · rename_i hc
    obtain ⟨c, h1, h2⟩ := List.any_eq_true.1 hc
    simp only [Bool.and_eq_true, Bool.not_eq_true', decide_eq_true_eq] at h2
    exact absurd ⟨c, h1, h2.1.2.symm, h2.1.1, h2.2⟩ ho
  · rename_i hc
    refine (scrubFailed_clear rfl).imp fun s hs => ?_
    obtain ⟨h1, h2⟩ := verifySigs_good hs
    exact ⟨pool_attached h1, h2⟩

theorem mem_insertSig {s x : Sig} : ∀ {l : List Sig}, x ∈ insertSig s l → x = s ∨ x ∈ l
  | [], h => by simpa [insertSig] using h
  | t :: l, h => by
    unfold insertSig at h
    split at h
    · rcases List.mem_cons.1 h with h | h
      · exact Or.inr (h ▸ List.mem_cons_self)
      · rcases mem_insertSig h with h | h
        · exact Or.inl h
        · exact Or.inr (List.mem_cons_of_mem _ h)
    · rcases List.mem_cons.1 h with h | h
      · exact Or.inl h
      · exact Or.inr h

theorem mem_sortSigs {x : Sig} {l : List Sig} (h : x ∈ sortSigs l) : x ∈ l := by
  unfold sortSigs at h
  have : ∀ (l acc : List Sig), x ∈ l.foldl (fun acc s => insertSig s acc) acc → x ∈ acc ∨ x ∈ l := by
    intro l
    induction l with
    | nil => exact fun _ h => Or.inl h
    | cons a l ih =>
      intro acc h
      rw [List.foldl_cons] at h
      rcases ih _ h with h | h
      · rcases mem_insertSig h with h | h
        · exact Or.inr (h ▸ List.mem_cons_self)
        · exact Or.inl h
      · exact Or.inr (List.mem_cons_of_mem _ h)
  rcases this l [] h with h | h
  · simp at h
  · exact h

/-- The attachments of a message that is handed on because of signatures. -/
def Out.Clear (past : List (Env × Int × Msg × Kwa)) (env : Env) (m : Msg) (o : Out) : Prop :=
  ∀ kwa', o.2 = .ok (some kwa') → ∃ ks, env.kevers m.sender = some ks ∧ Verif.Krm.Clear (Sent past ks m) ks m kwa'

theorem authenticate_clear {past : List (Env × Int × Msg × Kwa)} {env : Env} {k : Krm} {m : Msg} {ks : Ks} {kwa : Kwa} {auth : Auth} {v : Bool} {pin : Krm → Krm}
    (hk : env.kevers m.sender = some ks) (ha : auth ≠ .asr) (ho : ¬ OwnSig env m kwa) (hp : ∀ s, Attached ks m kwa s ∧ Good env ks m s → Sent past ks m s) :
    Out.Clear past env m (authenticate env k m ks kwa auth v pin) := by
  intro kwa' h
  refine ⟨ks, hk, ?_⟩
  have hc := (verifyAttached_clear (ks := ks) ho).imp hp
  unfold authenticate at h
  cases auth with
  | asr => exact absurd rfl ha
  | assk =>
    dsimp only at h
    split at h
    · injection h with h; injection h with h; rw [← h]; exact hc
    · simp at h
  | asmk =>
    dsimp only at h
    split at h
    · simp at h
    · split at h
      · injection h with h; injection h with h; rw [← h]; exact hc
      · simp at h

theorem again_clear {past : List (Env × Int × Msg × Kwa)} {env : Env} {k : Krm} {m : Msg} {mdt : Int} {kwa : Kwa} {seals sigs : Bool} {c : Cache} (ho : ¬ OwnSig env m kwa)
    (hp : ∀ ks, env.kevers m.sender = some ks → ∀ s, Attached ks m kwa s ∧ Good env ks m s → Sent past ks m s)
    (hS : ∀ ks, env.kevers m.sender = some ks → ∀ s ∈ k.pmks.items (m.sender, m.said), stale (k.pmsk.get (m.sender, m.said)) ks = false → Sent past ks m s) :
    Out.Clear past env m (again env k m mdt kwa seals sigs c) := by
  intro kwa' h
  unfold again at h
  split at h
  · simp at h
  · split at h
    · simp at h
    · split at h
      · simp at h
      · rename_i ks hks
        split at h
        · simp at h
        · simp at h
        · split at h
          · simp at h
          · unfold accumulate at h
            dsimp only at h
            split at h
            · simp at h
            · split at h
              · simp at h
              · rename_i hv hst
                have hst : stale (k.pmsk.get (m.sender, m.said)) ks = false := by simpa using hst
                have hv : (verifyAttached env m ks kwa).1 = true := by simpa using hv
                split at h
                · injection h with h
                  injection h with h
                  have hc := (verifyAttached_clear (ks := ks) ho).imp (hp ks hks)
                  refine ⟨ks, hks, ?_⟩
                  rw [← h]
                  refine ⟨fun s hs => ?_, hc.2⟩
                  dsimp only at hs
                  split at hs
                  · exact hc.1 s hs
                  · rcases mem_addSigs _ _ (mem_sortSigs hs) with h1 | h1
                    · exact hS ks hks s h1 hst
                    · exact hp ks hks s ((verifyAttached_good hv).1 s (List.mem_filter.1 h1).1)
                · simp at h

/-- C100 (partial: messages without seals of their sender whose sender is no key).  Of the signatures attached as the sender's only those are handed on with the message that
came with it, now or before, and are good for the key state of the sender now. -/
theorem c100_attached_partial {k k' : Krm} {l : List Step} {env : Env} {now : Int} {m : Msg} {kwa kwa' : Kwa} (hf : Fresh k) (hb : BindsAll (l ++ [.deliver env now m kwa]))
    (hg : Guards m (run k l)) (hn : ¬ HasSeal m kwa) (ho : ¬ OwnSig env m kwa) (hp : deliver env now (run k l) m kwa = (k', .ok (some kwa'))) :
    ∃ ks, env.kevers m.sender = some ks ∧ Clear (Sent (delivered (l ++ [.deliver env now m kwa])) ks m) ks m kwa' := by
  rw [delivered_append]
  have hB : Bound (delivered l ++ [(env, now, m, kwa)]) := by
    have : delivered (l ++ [.deliver env now m kwa]) = delivered l ++ [(env, now, m, kwa)] := delivered_append ..
    unfold BindsAll at hb
    rw [this] at hb
    exact hb
  show ∃ ks, env.kevers m.sender = some ks ∧ Clear (Sent (delivered l ++ [(env, now, m, kwa)]) ks m) ks m kwa'
  obtain ⟨_, hS⟩ := run_inv l [] k (fun x hx y hy => hB x (List.mem_append_left _ hx) y (List.mem_append_left _ hy)) (fresh_inv hf)
  rw [List.nil_append] at hS
  have hself : (env, now, m, kwa) ∈ delivered l ++ [(env, now, m, kwa)] := List.mem_append_right _ (List.mem_singleton.2 rfl)
  have hr := reconcile_held now (run k l)
  have hd : (kramit env now (reconcile now (run k l)).1 m kwa).2 = .ok (some kwa') := by
    unfold deliver at hp
    generalize reconcile now (run k l) = e at *
    obtain ⟨k1, e⟩ := e
    cases e with
    | error e => exact absurd hp (by simp)
    | ok u =>
      have hp : intake env now k1 m kwa = (k', .ok (some kwa')) := hp
      unfold intake at hp
      rw [hr.enabled, hg.1, hr.denials, hg.2] at hp
      simp only [if_true, Bool.false_eq_true, if_false] at hp
      show (kramit env now k1 m kwa).2 = _
      rw [hp]
  have hS := hS.tables hr.tables
  generalize (reconcile now (run k l)).1 = k1 at hS hd
  have hpp : ∀ ks, env.kevers m.sender = some ks → ∀ s, Attached ks m (normLast m.sender (normSeals m.sender kwa)) s ∧ Good env ks m s →
      Sent (delivered l ++ [(env, now, m, kwa)]) ks m s := fun ks hk s h => ⟨_, hself, rfl, ks, hk, rfl, attached_norm h.1, h.2⟩
  have hSS : ∀ ks, env.kevers m.sender = some ks → ∀ s ∈ k1.pmks.items (m.sender, m.said), stale (k1.pmsk.get (m.sender, m.said)) ks = false →
      Sent (delivered l ++ [(env, now, m, kwa)]) ks m s := by
    intro ks hk s hs hst
    obtain ⟨v, hv, x, hx, h1, ks', h2, h3, h4, h5⟩ := hS _ s hs
    have he : x.2.2.1 = m := hB x (List.mem_append_left _ hx) _ hself (congrArg Prod.fst h1) (congrArg Prod.snd h1)
    rcases stale_false hst with h6 | h6
    · rw [h6] at hv; simp at hv
    · rw [h6] at hv
      injection hv with hv
      rw [he] at h4 h5
      exact ⟨x, List.mem_append_left _ hx, he, ks', h2, h3.trans hv.symm, h4, h5⟩
  have hns : hasSeals m.sender (normLast m.sender (normSeals m.sender kwa)) = false := by
    cases h : hasSeals m.sender (normLast m.sender (normSeals m.sender kwa)) with
    | false => rfl
    | true => exact absurd (hasSeals_norm h) hn
  have hno : ¬ OwnSig env m (normLast m.sender (normSeals m.sender kwa)) := fun h => ho (ownSig_norm h)
  have hres : ∀ {ks : Ks} {sigs : Bool} {auth : Auth} {v : Bool}, resolve env m (normLast m.sender (normSeals m.sender kwa)) ks false sigs = some (auth, v) → auth ≠ .asr := by
    intro ks sigs auth v h
    rcases resolve_auth h with h1 | h1
    · simp at h1
    · rw [h1]; unfold sigAuth; split <;> simp
  suffices Out.Clear (delivered l ++ [(env, now, m, kwa)]) env m (kramit env now k1 m kwa) from this kwa' hd
  clear hd
  unfold kramit
  split
  · intro _ h; simp at h
  · dsimp only
    split
    · intro _ h; simp at h
    · rw [hns]
      split
      · split
        · exact again_clear hno hpp hSS
        · unfold fresh1
          split
          · intro _ h; simp at h
          · split
            · intro _ h; simp at h
            · rename_i ks hks
              split
              · intro _ h; simp at h
              · rename_i auth v hv
                dsimp only
                split
                · intro _ h; simp at h
                · exact authenticate_clear hks (hres hv) hno (hpp ks hks)
      · split
        · exact again_clear hno hpp hSS
        · unfold fresh2
          split
          · intro _ h; simp at h
          · split
            · intro _ h; simp at h
            · rename_i ks hks
              split
              · intro _ h; simp at h
              · rename_i auth v hv
                dsimp only
                split
                · intro _ h; simp at h
                · split
                  · intro _ h; simp at h
                  · split
                    · intro _ h; simp at h
                    · exact authenticate_clear hks (hres hv) hno (hpp ks hks)

end Verif.Krm
