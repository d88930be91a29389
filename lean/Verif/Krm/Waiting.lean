import Verif.Krm.Auth

/-! # What waits -/

namespace Verif.Krm

open Verif.Kel (Id Dig Sig)

/-- The message of the delivery has an entry in the cache. -/
def Entry (k : Krm) (m : Msg) : Prop :=
  match exId m with
  | none => k.msgc.get (m.sender, m.said) ≠ none
  | some x => k.tmsc.get (m.sender, x, m.said) ≠ none

/-- Something waits under the key. -/
def Waits (k : Krm) (q : Id × Dig) : Prop := k.pmks.get q ≠ none ∨ k.pmsk.get q ≠ none ∨ k.pmkm.get q ≠ none

/-- What waits is of messages in the cache. -/
def InvW (past : List (Env × Int × Msg × Kwa)) (k : Krm) : Prop := ∀ q, Waits k q → ∃ x ∈ past, (x.2.2.1.sender, x.2.2.1.said) = q ∧ Entry k x.2.2.1

/-- The signatures that wait came with the message and are good for the key state they wait for. -/
def InvS (past : List (Env × Int × Msg × Kwa)) (k : Krm) : Prop := ∀ q s, s ∈ k.pmks.items q → ∃ v, k.pmsk.get q = some v ∧
  ∃ x ∈ past, (x.2.2.1.sender, x.2.2.1.said) = q ∧ ∃ ks, x.1.kevers q.1 = some ks ∧ (ks.sn, ks.said) = v ∧ Attached ks x.2.2.1 x.2.2.2 s ∧ Good x.1 ks x.2.2.1 s

/-- Among what arrived digests bind messages. -/
def Bound (past : List (Env × Int × Msg × Kwa)) : Prop := ∀ x ∈ past, ∀ y ∈ past, x.2.2.1.sender = y.2.2.1.sender → x.2.2.1.said = y.2.2.1.said → x.2.2.1 = y.2.2.1

theorem InvW.more {p p' : List (Env × Int × Msg × Kwa)} {k : Krm} (h : InvW p k) : InvW (p ++ p') k := fun q hq => by
  obtain ⟨x, hx, h1⟩ := h q hq
  exact ⟨x, List.mem_append_left _ hx, h1⟩

theorem InvS.more {p p' : List (Env × Int × Msg × Kwa)} {k : Krm} (h : InvS p k) : InvS (p ++ p') k := fun q s hs => by
  obtain ⟨v, hv, x, hx, h1⟩ := h q s hs
  exact ⟨v, hv, x, List.mem_append_left _ hx, h1⟩

/-- The same tables. -/
structure Tables (k k' : Krm) : Prop where
  msgc : k'.msgc = k.msgc
  tmsc : k'.tmsc = k.tmsc
  pmkm : k'.pmkm = k.pmkm
  pmks : k'.pmks = k.pmks
  pmsk : k'.pmsk = k.pmsk

theorem Held.tables {k k' : Krm} (h : Held k k') : Tables k k' := ⟨h.msgc, h.tmsc, h.pmkm, h.pmks, h.pmsk⟩

theorem restart_tables (k : Krm) (now : Int) (e : Bool) (d : List (List Char)) (cf : Tab Ctype Rec) : Tables k (step k (.restart now e d cf)) := by
  show Tables k (match open_ k e d cf with | .ok k => k | .error _ => k)
  unfold open_
  split
  · rename_i h; split at h <;> simp at h; rw [← h]; exact ⟨rfl, rfl, rfl, rfl, rfl⟩
  · exact ⟨rfl, rfl, rfl, rfl, rfl⟩

theorem Entry.same {k k' : Krm} {m : Msg} (h1 : k'.msgc = k.msgc) (h2 : k'.tmsc = k.tmsc) (h : Entry k m) : Entry k' m := by
  unfold Entry at *
  rw [h1, h2]
  exact h

theorem InvW.tables {p : List (Env × Int × Msg × Kwa)} {k k' : Krm} (h : InvW p k) (t : Tables k k') : InvW p k' := by
  intro q hq
  unfold Waits at hq
  rw [t.pmks, t.pmsk, t.pmkm] at hq
  obtain ⟨x, hx, h1, h2⟩ := h q hq
  exact ⟨x, hx, h1, h2.same t.msgc t.tmsc⟩

theorem InvS.tables {p : List (Env × Int × Msg × Kwa)} {k k' : Krm} (h : InvS p k) (t : Tables k k') : InvS p k' := by
  intro q s hs
  rw [t.pmks] at hs
  rw [t.pmsk]
  exact h q s hs

/-! ## Pruning -/

theorem dropMsg_invW {p : List (Env × Int × Msg × Kwa)} {k : Krm} (key : Id × Dig) (h : InvW p k) : InvW p (dropPartial { k with msgc := k.msgc.rem key } key) := by
  intro q hq
  unfold Waits dropPartial at hq
  dsimp only at hq
  rw [get_rem, get_rem, get_rem] at hq
  by_cases hk : key = q
  · simp [hk] at hq
  · simp only [if_neg hk] at hq
    obtain ⟨x, hx, h1, h2⟩ := h q hq
    refine ⟨x, hx, h1, ?_⟩
    unfold Entry at h2 ⊢
    split at h2
    · show Tab.get (Tab.rem k.msgc key) _ ≠ none
      rw [get_rem, if_neg (by rw [h1]; exact hk)]
      exact h2
    · exact h2

theorem dropTxn_invW {p : List (Env × Int × Msg × Kwa)} {k : Krm} (key : Id × Dig × Dig) (h : InvW p k) :
    InvW p (dropPartial { k with tmsc := k.tmsc.rem key } (key.1, key.2.2)) := by
  intro q hq
  unfold Waits dropPartial at hq
  dsimp only at hq
  rw [get_rem, get_rem, get_rem] at hq
  by_cases hk : (key.1, key.2.2) = q
  · simp [hk] at hq
  · simp only [if_neg hk] at hq
    obtain ⟨x, hx, h1, h2⟩ := h q hq
    refine ⟨x, hx, h1, ?_⟩
    unfold Entry at h2 ⊢
    split at h2
    · exact h2
    · show Tab.get (Tab.rem k.tmsc key) _ ≠ none
      rw [get_rem, if_neg (fun e => hk (by rw [e]; exact h1))]
      exact h2

theorem foldl_inv {α : Type} {P : Krm → Prop} (f : Krm → α → Krm) (h : ∀ k a, P k → P (f k a)) : ∀ (l : List α) (k : Krm), P k → P (l.foldl f k)
  | [], _, hk => hk
  | a :: l, k, hk => foldl_inv f h l (f k a) (h k a hk)

theorem prune_inv {P : Krm → Prop} (h1 : ∀ k key, P k → P (dropPartial { k with msgc := k.msgc.rem key } key))
    (h2 : ∀ k key, P k → P (dropPartial { k with tmsc := k.tmsc.rem key } (key.1, key.2.2))) (now : Int) (k : Krm) (h : P k) : P (prune now k) := by
  unfold prune pruneExchanges
  refine foldl_inv _ (fun k a hk => ?_) _ _ (foldl_inv _ (fun k a hk => ?_) _ _ h)
  · split
    · exact hk
    · exact h2 k _ hk
  · split
    · exact hk
    · exact h1 k _ hk

theorem prune_invW {p : List (Env × Int × Msg × Kwa)} {k : Krm} (now : Int) (h : InvW p k) : InvW p (prune now k) :=
  prune_inv (fun _ key h => dropMsg_invW key h) (fun _ key h => dropTxn_invW key h) now k h

theorem dropPartial_invS {p : List (Env × Int × Msg × Kwa)} {k k1 : Krm} (key : Id × Dig) (h : InvS p k) (h1 : k1.pmks = k.pmks) (h2 : k1.pmsk = k.pmsk) :
    InvS p (dropPartial k1 key) := by
  intro q s hs
  unfold dropPartial Tab.items at hs
  dsimp only at hs
  rw [get_rem] at hs
  by_cases hk : key = q
  · simp [hk] at hs
  · rw [if_neg hk, h1] at hs
    have := h q s hs
    show ∃ v, Tab.get (Tab.rem k1.pmsk key) q = some v ∧ _
    rw [get_rem, if_neg hk, h2]
    exact this

theorem prune_invS {p : List (Env × Int × Msg × Kwa)} {k : Krm} (now : Int) (h : InvS p k) : InvS p (prune now k) :=
  prune_inv (fun _ key h => dropPartial_invS key h rfl rfl) (fun _ key h => dropPartial_invS _ h rfl rfl) now k h

/-! ## Deliveries -/

theorem mem_addSigs {key : Id × Dig} {s : Sig} : ∀ (l : List Sig) (t : Tab (Id × Dig) (List Sig)), s ∈ (addSigs t key l).items key → s ∈ t.items key ∨ s ∈ l
  | [], _, h => Or.inl h
  | a :: l, t, h => by
    have h : s ∈ (addSigs (if a ∈ t.items key then t else Tab.pin t key (t.items key ++ [a])) key l).items key := h
    rcases mem_addSigs l _ h with h | h
    · split at h
      · exact Or.inl h
      · rw [items_pin, if_pos rfl] at h
        rcases List.mem_append.1 h with h | h
        · exact Or.inl h
        · exact Or.inr (List.mem_singleton.1 h ▸ List.mem_cons_self)
    · exact Or.inr (List.mem_cons_of_mem _ h)

theorem items_other {q key : Id × Dig} {t : Tab (Id × Dig) (List Sig)} {l : List Sig} (h : q ≠ key) : (addSigs t key l).items q = t.items q := by
  unfold Tab.items
  rw [addSigs_other h]

theorem Apart.entry {m m' : Msg} {k k' : Krm} (h : Apart m k k') (hne : (m'.sender, m'.said) ≠ (m.sender, m.said)) (he : Entry k m') : Entry k' m' := by
  unfold Entry at *
  split at he
  · rw [h.getm _ hne]; exact he
  · rename_i x _
    rw [h.gett (m'.sender, x, m'.said) hne]; exact he

theorem kramit_invW {past : List (Env × Int × Msg × Kwa)} {env : Env} {now : Int} {k : Krm} {m : Msg} {kwa : Kwa} (hb : Bound (past ++ [(env, now, m, kwa)]))
    (h : InvW past k) : InvW (past ++ [(env, now, m, kwa)]) (kramit env now k m kwa).1 := by
  have hap := kramit_apart env now k m kwa
  intro q hq
  by_cases hqk : q = (m.sender, m.said)
  · subst hqk
    refine ⟨(env, now, m, kwa), List.mem_append_right _ (List.mem_singleton.2 rfl), rfl, ?_⟩
    dsimp only
    have key : ∀ x ∈ past, (x.2.2.1.sender, x.2.2.1.said) = (m.sender, m.said) → x.2.2.1 = m := fun x hx he =>
      hb x (List.mem_append_left _ hx) (env, now, m, kwa) (List.mem_append_right _ (List.mem_singleton.2 rfl)) (congrArg Prod.fst he) (congrArg Prod.snd he)
    have old : Waits k (m.sender, m.said) → Entry k m := fun hw => by
      obtain ⟨x, hx, h1, h2⟩ := h _ hw
      rw [key x hx h1] at h2
      exact h2
    cases hx : exId m with
    | none =>
      have hd := kramit_done env now k m kwa hx
      generalize isPass (kramit env now k m kwa).2 = b at hd
      generalize (kramit env now k m kwa).1 = k' at hd hq
      cases hd with
      | same => exact old hq
      | waits h1 _ h2 =>
        have : Entry k m := by
          rcases h1 with h1 | ⟨c, _, h1, _⟩
          · exact old (Or.inr (Or.inr h1))
          · unfold Entry; rw [hx]; dsimp only; rw [h1]; simp
        exact this.same h2.msgc h2.tmsc
      | pass _ _ _ _ _ _ h2 _ _ =>
        unfold Entry
        rw [hx]
        dsimp only
        rw [h2.msgc]
        show Tab.get (Tab.pin _ _ _) _ ≠ none
        rw [get_pin, if_pos rfl]
        simp
    | some x =>
      have hd := kramit_done2 env now k m x kwa hx
      generalize isPass (kramit env now k m kwa).2 = b at hd
      generalize (kramit env now k m kwa).1 = k' at hd hq
      cases hd with
      | same => exact old hq
      | waits h1 _ h2 =>
        have : Entry k m := by
          rcases h1 with h1 | ⟨c, _, h1, _⟩
          · exact old (Or.inr (Or.inr h1))
          · unfold Entry; rw [hx]; dsimp only; rw [h1]; simp
        exact this.same h2.msgc h2.tmsc
      | pass _ _ _ _ _ _ _ _ _ h2 _ _ =>
        unfold Entry
        rw [hx]
        dsimp only
        rw [h2.tmsc]
        show Tab.get (Tab.pin _ _ _) _ ≠ none
        rw [get_pin, if_pos rfl]
        simp
  · have hq' : Waits k q := by
      unfold Waits at hq
      rw [hap.pmks q hqk, hap.pmsk q hqk, hap.pmkm q hqk] at hq
      exact hq
    obtain ⟨x, hx, h1, h2⟩ := h q hq'
    exact ⟨x, List.mem_append_left _ hx, h1, hap.entry (by rw [h1]; exact hqk) h2⟩

/-- Nothing waits for a message that is not in the cache. -/
theorem nothing_waits {past : List (Env × Int × Msg × Kwa)} {env : Env} {now : Int} {k : Krm} {m : Msg} {kwa : Kwa} (hb : Bound (past ++ [(env, now, m, kwa)]))
    (h : InvW past k) (hn : match exId m with | none => k.msgc.get (m.sender, m.said) = none | some x => k.tmsc.get (m.sender, x, m.said) = none) :
    k.pmks.items (m.sender, m.said) = [] := by
  unfold Tab.items
  cases hp : k.pmks.get (m.sender, m.said) with
  | none => rfl
  | some l =>
    obtain ⟨x, hx, h1, h2⟩ := h (m.sender, m.said) (Or.inl (by rw [hp]; simp))
    have he : x.2.2.1 = m := hb x (List.mem_append_left _ hx) (env, now, m, kwa) (List.mem_append_right _ (List.mem_singleton.2 rfl)) (congrArg Prod.fst h1) (congrArg Prod.snd h1)
    rw [he] at h2
    unfold Entry at h2
    split at h2
    · rename_i hx; rw [hx] at hn; exact absurd hn h2
    · rename_i hx; rw [hx] at hn; exact absurd hn h2

theorem stale_false {v : Option (Nat × Dig)} {ks : Ks} (h : stale v ks = false) : v = none ∨ v = some (ks.sn, ks.said) := by
  unfold stale at h
  split at h
  · rename_i s
    refine Or.inr ?_
    have : s = (ks.sn, ks.said) := by simpa using h
    rw [this]
  · exact Or.inl rfl

theorem kramit_invS {past : List (Env × Int × Msg × Kwa)} {env : Env} {now : Int} {k : Krm} {m : Msg} {kwa : Kwa} (hb : Bound (past ++ [(env, now, m, kwa)]))
    (hw : InvW past k) (h : InvS past k) : InvS (past ++ [(env, now, m, kwa)]) (kramit env now k m kwa).1 := by
  have hs := kramit_sgn env now k m kwa
  have hself : (env, now, m, kwa) ∈ past ++ [(env, now, m, kwa)] := List.mem_append_right _ (List.mem_singleton.2 rfl)
  generalize isPass (kramit env now k m kwa).2 = b at hs
  generalize (kramit env now k m kwa).1 = k' at hs
  cases hs with
  | drop h1 h2 _ => intro q s hq; rw [h1] at hq; rw [h2]; exact h.more q s hq
  | pass h1 h2 _ _ => intro q s hq; rw [h1] at hq; rw [h2]; exact h.more q s hq
  | @wait ks vs hk hg _ hn h1 h2 =>
    intro q s hq
    rw [h1] at hq
    rw [h2]
    by_cases hqk : q = (m.sender, m.said)
    · subst hqk
      refine ⟨(ks.sn, ks.said), (get_pin ..).trans (if_pos rfl), (env, now, m, kwa), hself, rfl, ks, hk, rfl, ?_⟩
      rcases mem_addSigs _ _ hq with h3 | h3
      · rw [nothing_waits hb hw hn] at h3; simp at h3
      · exact ⟨attached_norm (hg s h3).1, (hg s h3).2⟩
    · rw [items_other hqk] at hq
      rw [get_pin, if_neg (fun e => hqk e.symm)]
      exact h.more q s hq
  | @more ks vs _ hk hg _ _ hst h1 h2 _ =>
    intro q s hq
    rw [h1] at hq
    rw [h2]
    by_cases hqk : q = (m.sender, m.said)
    · subst hqk
      rcases mem_addSigs _ _ hq with h3 | h3
      · obtain ⟨v, hv, h4⟩ := h _ s h3
        refine ⟨v, ?_, ?_⟩
        · rw [if_neg (fun e => by rw [e.2] at hv; simp at hv)]
          exact hv
        · obtain ⟨x, hx, h5⟩ := h4
          exact ⟨x, List.mem_append_left _ hx, h5⟩
      · refine ⟨(ks.sn, ks.said), ?_, (env, now, m, kwa), hself, rfl, ks, hk, rfl, attached_norm (hg s h3).1, (hg s h3).2⟩
        rcases stale_false hst with h4 | h4
        · rw [if_pos ⟨List.ne_nil_of_mem h3, h4⟩, get_pin, if_pos rfl]
        · rw [if_neg (fun e => by rw [e.2] at h4; simp at h4)]
          exact h4
    · rw [items_other hqk] at hq
      have : (if vs ≠ [] ∧ k.pmsk.get (m.sender, m.said) = none then k.pmsk.pin (m.sender, m.said) (ks.sn, ks.said) else k.pmsk).get q = k.pmsk.get q := by
        split
        · rw [get_pin, if_neg (fun e => hqk e.symm)]
        · rfl
      rw [this]
      exact h.more q s hq

/-- One step. -/
theorem step_inv {past : List (Env × Int × Msg × Kwa)} {k : Krm} {a : Step} (hb : Bound (past ++ delivered [a])) (h : InvW past k ∧ InvS past k) :
    InvW (past ++ delivered [a]) (step k a) ∧ InvS (past ++ delivered [a]) (step k a) := by
  cases a with
  | deliver env now m kwa =>
    have hst : step k (.deliver env now m kwa) = (deliver env now k m kwa).1 := rfl
    rw [hst]
    have ht := (reconcile_held now k).tables
    have h1 := h.1.tables ht
    have h2 := h.2.tables ht
    rcases deliver_cases env now k m kwa with h3 | h3
    · rw [h3]; exact ⟨h1.more, h2.more⟩
    · rw [h3]; exact ⟨kramit_invW hb h1, kramit_invS hb h1 h2⟩
  | prune now => exact ⟨(prune_invW now h.1).more, (prune_invS now h.2).more⟩
  | change now cf o => exact ⟨(h.1.tables (changeConfig_held now k cf o).tables).more, (h.2.tables (changeConfig_held now k cf o).tables).more⟩
  | restart now e d cf => exact ⟨(h.1.tables (restart_tables k now e d cf)).more, (h.2.tables (restart_tables k now e d cf)).more⟩

theorem delivered_cons (a : Step) (l : List Step) : delivered (a :: l) = delivered [a] ++ delivered l := by
  cases a <;> rfl

theorem delivered_append (l l' : List Step) : delivered (l ++ l') = delivered l ++ delivered l' := by
  induction l with
  | nil => rfl
  | cons a l ih => rw [List.cons_append, delivered_cons, ih, delivered_cons a l, List.append_assoc]

theorem run_inv : ∀ (l : List Step) (past : List (Env × Int × Msg × Kwa)) (k : Krm), Bound (past ++ delivered l) → InvW past k ∧ InvS past k →
    InvW (past ++ delivered l) (run k l) ∧ InvS (past ++ delivered l) (run k l)
  | [], past, k, _, h => by simpa [delivered, run] using h
  | a :: l, past, k, hb, h => by
    rw [delivered_cons, ← List.append_assoc] at hb ⊢
    exact run_inv l _ (step k a) hb (step_inv (fun x hx y hy => hb x (List.mem_append_left _ hx) y (List.mem_append_left _ hy)) h)

theorem fresh_inv {k : Krm} (h : Fresh k) : InvW [] k ∧ InvS [] k := by
  constructor
  · intro q hq
    unfold Waits at hq
    rw [h.2.2.1, h.2.2.2.1, h.2.2.2.2] at hq
    simp [get_nil] at hq
  · intro q s hs
    rw [h.2.2.2.1] at hs
    simp [Tab.items, get_nil] at hs

end Verif.Krm
