import Verif.Krm.PropsTime

/-! # C95 and C96: what a change of settings covers, and what pruning leaves -/

namespace Verif.Krm

open Verif.Kel (Id Dig Sig)

/-! ## Coverage -/

theorem changeOne_get {now : Int} {old : Tab Ctype Rec} {o : Option Int} {d3 : Int} {k : Krm} {e : Ctype × Rec} {c : Ctype} (h : k.ctyp.get c ≠ none ∨ e.1 = c) :
    (changeOne now old o d3 k e).ctyp.get c ≠ none := by
  have key : ∀ r, Tab.get (Tab.pin k.ctyp e.1 r) c ≠ none := by
    intro r
    rw [get_pin]
    split
    · simp
    · rename_i hne
      rcases h with h | h
      · exact h
      · exact absurd h hne
  unfold changeOne
  dsimp only
  split
  · split
    · exact key _
    · exact key _
  · split
    · exact key _
    · exact key _

theorem foldChange_get {now : Int} {old : Tab Ctype Rec} {o : Option Int} {d3 : Int} {c : Ctype} : ∀ (l : Tab Ctype Rec) (k : Krm),
    (k.ctyp.get c ≠ none ∨ ∃ r, (c, r) ∈ l) → (l.foldl (changeOne now old o d3) k).ctyp.get c ≠ none
  | [], k, h => by
    rcases h with h | ⟨r, h⟩
    · exact h
    · simp at h
  | e :: l, k, h => by
    refine foldChange_get l _ ?_
    rcases h with h | ⟨r, h⟩
    · exact Or.inl (changeOne_get (Or.inl h))
    · rcases List.mem_cons.1 h with h | h
      · exact Or.inl (changeOne_get (Or.inr (by rw [← h])))
      · exact Or.inr ⟨r, h⟩

theorem foldRem_get {new : Tab Ctype Rec} {c : Ctype} (hc : ∃ r, (c, r) ∈ new) : ∀ (l : Tab Ctype Rec) (k : Krm), k.ctyp.get c ≠ none →
    (l.foldl (fun (k : Krm) (e : Ctype × Rec) => if new.any (fun n => n.1 = e.1) then k else { k with ctyp := k.ctyp.rem e.1 }) k).ctyp.get c ≠ none
  | [], _, h => h
  | e :: l, k, h => by
    rw [List.foldl_cons]
    refine foldRem_get hc l _ ?_
    split
    · exact h
    · rename_i hn
      show Tab.get (Tab.rem k.ctyp e.1) c ≠ none
      rw [get_rem]
      split
      · rename_i he
        obtain ⟨r, hr⟩ := hc
        exact absurd (List.any_eq_true.2 ⟨(c, r), hr, by simp [he]⟩) hn
      · exact h

/-- A pattern of messages. -/
def Matches (c : Ctype) (m : Msg) : Prop :=
  match c with
  | .any => True
  | .typ i => m.ilk = i
  | .rte i r => m.ilk = i ∧ m.route = some r

theorem fetch_ok_of {ct : Tab Ctype Rec} {m : Msg} {c : Ctype} (hc : ct.get c ≠ none) (hm : Matches c m) : ∃ r, fetch ct m = .ok r := by
  unfold fetch
  split
  · exact ⟨_, rfl⟩
  · rename_i h1
    split
    · exact ⟨_, rfl⟩
    · rename_i h2
      split
      · exact ⟨_, rfl⟩
      · rename_i h3
        exfalso
        cases c with
        | any => exact hc h3
        | typ i => rw [show i = m.ilk from hm.symm] at hc; exact hc h2
        | rte i r =>
          obtain ⟨e1, e2⟩ := hm
          rw [e2] at h1
          rw [← e1] at hc
          exact hc h1

theorem fetch_matches {ct : Tab Ctype Rec} {m : Msg} {r : Rec} (h : fetch ct m = .ok r) : ∃ c, (c, r) ∈ ct ∧ Matches c m := by
  unfold fetch at h
  split at h
  · rename_i r' hr
    injection h with h
    subst h
    split at hr
    · rename_i q hq
      exact ⟨_, get_mem hr, rfl, hq⟩
    · simp at hr
  · split at h
    · rename_i r' hr
      injection h with h
      subst h
      exact ⟨_, get_mem hr, rfl⟩
    · split at h
      · rename_i r' hr
        injection h with h
        subst h
        exact ⟨_, get_mem hr, trivial⟩
      · simp at h

theorem covers_matches {n o : Ctype} {m : Msg} (h : covers n o = true) (hm : Matches o m) : Matches n m := by
  cases n with
  | any => trivial
  | typ i =>
    cases o with
    | any => simp [covers] at h
    | typ j => have : i = j := by simpa [covers] using h
               rw [this]; exact hm
    | rte j q => have : i = j := by simpa [covers] using h
                 rw [this]; exact hm.1
  | rte i r =>
    cases o with
    | any => simp [covers] at h
    | typ j => simp [covers] at h
    | rte j q =>
      have : i = j ∧ r = q := by simpa [covers] using h
      rw [this.1, this.2]; exact hm

/-- **C95.**  A change of settings that is accepted leaves no hole: every message the old settings had a cache type for has one after it. -/
theorem c95_coverage {now : Int} {k k' : Krm} {new : Tab Ctype Rec} {o : Option Int} (h : changeConfig now k new o = (k', .ok ())) {m : Msg} {r : Rec}
    (hr : fetch k.cf m = .ok r) : ∃ r', fetch k'.ctyp m = .ok r' := by
  unfold changeConfig at h
  split at h
  · simp at h
  · split at h
    · simp at h
    · split at h
      · simp at h
      · rename_i hcov
        have hcov : coverage k.cf new = true := by simpa using hcov
        dsimp only at h
        injection h with h _
        subst h
        obtain ⟨c, hc, hm⟩ := fetch_matches hr
        have h1 := List.all_eq_true.1 hcov _ hc
        obtain ⟨n, hn, h2⟩ := List.any_eq_true.1 h1
        refine fetch_ok_of (c := n.1) ?_ (covers_matches h2 hm)
        exact foldRem_get ⟨n.2, hn⟩ _ _ (foldChange_get _ _ (Or.inr ⟨n.2, hn⟩))

/-- C95: a change that is refused changes nothing. -/
theorem c95_refused {now : Int} {k k' : Krm} {new : Tab Ctype Rec} {o : Option Int} {e : Exn} (h : changeConfig now k new o = (k', .error e)) : k' = k := by
  unfold changeConfig at h
  split at h
  · injection h with h _; exact h.symm
  · split at h
    · injection h with h _; exact h.symm
    · split at h
      · injection h with h _; exact h.symm
      · simp at h

/-- C95: a change with a hole is refused. -/
theorem c95_holes {now : Int} {k : Krm} {new : Tab Ctype Rec} {o : Option Int} {m : Msg} {r : Rec} (hr : fetch k.cf m = .ok r) (hn : ∀ r', fetch new m ≠ .ok r') :
    ∃ e, (changeConfig now k new o).2 = .error e := by
  unfold changeConfig
  split
  · exact ⟨_, rfl⟩
  · split
    · exact ⟨_, rfl⟩
    · split
      · exact ⟨_, rfl⟩
      · rename_i hcov
        exfalso
        have hcov : coverage k.cf new = true := by simpa using hcov
        obtain ⟨c, hc, hm⟩ := fetch_matches hr
        have h1 := List.all_eq_true.1 hcov _ hc
        obtain ⟨n, hn', h2⟩ := List.any_eq_true.1 h1
        obtain ⟨w, hw⟩ := get_of_mem (show (n.1, n.2) ∈ new from hn')
        obtain ⟨r', hr'⟩ := fetch_ok_of (ct := new) (c := n.1) (by rw [hw]; simp) (covers_matches h2 hm)
        exact hn r' hr'

/-! ## Pruning -/

/-- One entry for each key. -/
def Uniq (k : Krm) : Prop := (k.msgc.map Prod.fst).Nodup ∧ (k.tmsc.map Prod.fst).Nodup

theorem map_pin {κ ν : Type} [DecidableEq κ] (t : Tab κ ν) (q : κ) (v : ν) : (Tab.pin t q v).map Prod.fst = if Tab.get t q = none then t.map Prod.fst ++ [q] else t.map Prod.fst := by
  induction t with
  | nil => simp [Tab.pin, get_nil]
  | cons e t ih =>
    unfold Tab.pin
    rw [get_cons]
    by_cases h : e.1 = q
    · simp [h]
    · rw [if_neg h, if_neg h, List.map_cons, ih]
      split <;> simp

theorem nodup_pin {κ ν : Type} [DecidableEq κ] {t : Tab κ ν} {q : κ} {v : ν} (h : (t.map Prod.fst).Nodup) : ((Tab.pin t q v).map Prod.fst).Nodup := by
  rw [map_pin]
  split
  · rename_i hn
    refine List.nodup_append.2 ⟨h, by simp, ?_⟩
    intro a ha b hb
    have hbq := List.mem_singleton.1 hb
    subst hbq
    intro e
    subst e
    obtain ⟨x, hx, hxe⟩ := List.mem_map.1 ha
    obtain ⟨w, hw⟩ := get_of_mem (show (a, x.2) ∈ t from hxe ▸ hx)
    rw [hw] at hn
    simp at hn
  · exact h

theorem nodup_rem {κ ν : Type} [DecidableEq κ] {t : Tab κ ν} {q : κ} (h : (t.map Prod.fst).Nodup) : ((Tab.rem t q).map Prod.fst).Nodup :=
  List.Nodup.sublist (List.Sublist.map _ List.filter_sublist) h

theorem kramit_msgc (env : Env) (now : Int) (k : Krm) (m : Msg) (kwa : Kwa) :
    (kramit env now k m kwa).1.msgc = k.msgc ∨ ∃ c, (kramit env now k m kwa).1.msgc = k.msgc.pin (m.sender, m.said) c := by
  cases hx : exId m with
  | none =>
    have hd := kramit_done env now k m kwa hx
    generalize isPass (kramit env now k m kwa).2 = b at hd
    generalize (kramit env now k m kwa).1 = k' at hd ⊢
    cases hd with
    | same => exact Or.inl rfl
    | waits _ _ h => exact Or.inl h.msgc
    | pass _ _ _ _ _ _ h _ _ => exact Or.inr ⟨_, h.msgc⟩
  | some x =>
    have hd := kramit_done2 env now k m x kwa hx
    generalize isPass (kramit env now k m kwa).2 = b at hd
    generalize (kramit env now k m kwa).1 = k' at hd ⊢
    cases hd with
    | same => exact Or.inl rfl
    | waits _ _ h => exact Or.inl h.msgc
    | pass _ _ _ _ _ _ _ _ _ h _ _ => exact Or.inl h.msgc

theorem Uniq.tables {k k' : Krm} (h : Uniq k) (t : Tables k k') : Uniq k' := by
  unfold Uniq
  rw [t.msgc, t.tmsc]
  exact h

theorem step_uniq {k : Krm} {a : Step} (h : Uniq k) : Uniq (step k a) := by
  cases a with
  | deliver env now m kwa =>
    have hst : step k (.deliver env now m kwa) = (deliver env now k m kwa).1 := rfl
    rw [hst]
    have h1 := h.tables (reconcile_held now k).tables
    rcases deliver_cases env now k m kwa with h3 | h3
    · rw [h3]; exact h1
    · rw [h3]
      refine ⟨?_, ?_⟩
      · rcases kramit_msgc env now (reconcile now k).1 m kwa with h4 | ⟨c, h4⟩
        · rw [h4]; exact h1.1
        · rw [h4]; exact nodup_pin h1.1
      · rcases kramit_tmsc env now (reconcile now k).1 m kwa with h4 | ⟨_, _, _, _, _, _, _, _, _, _, h4⟩
        · rw [h4]; exact h1.2
        · rw [h4]; exact nodup_pin h1.2
  | prune now => exact prune_inv (P := Uniq) (fun k key hk => ⟨nodup_rem hk.1, hk.2⟩) (fun k key hk => ⟨hk.1, nodup_rem hk.2⟩) now k h
  | change now cf o => exact h.tables (changeConfig_held now k cf o).tables
  | restart now e d cf => exact h.tables (restart_tables k now e d cf)

theorem run_uniq : ∀ (l : List Step) (k : Krm), Uniq k → Uniq (run k l)
  | [], _, h => h
  | a :: l, k, h => run_uniq l (step k a) (step_uniq h)

theorem uniq_mem {κ ν : Type} [DecidableEq κ] {t : Tab κ ν} {q : κ} {c c' : ν} (h : (t.map Prod.fst).Nodup) (h1 : Tab.get t q = some c) (h2 : (q, c') ∈ t) : c' = c := by
  induction t with
  | nil => simp at h2
  | cons e t ih =>
    rw [List.map_cons, List.nodup_cons] at h
    rw [get_cons] at h1
    rcases List.mem_cons.1 h2 with h2 | h2
    · subst h2
      rw [if_pos rfl] at h1
      exact Option.some.inj h1
    · rw [if_neg (fun e1 : e.1 = q => h.1 (by rw [e1]; exact List.mem_map.2 ⟨_, h2, rfl⟩))] at h1
      exact ih h.2 h1 h2

theorem fresh_uniq {k : Krm} (h : Fresh k) : Uniq k := by
  unfold Uniq
  rw [h.1, h.2.1]
  exact ⟨List.nodup_nil, List.nodup_nil⟩

/-- In the window of pruning, in milliseconds. -/
def InWindow (now : Int) (c : Cache) : Prop := now / 1000 - c.d - c.pml ≤ c.mdt / 1000 ∧ c.mdt / 1000 ≤ now / 1000 + c.d

/-- The exchange is in its window. -/
def InExchange (now : Int) (c : Cache) : Prop := c.xdt / 1000 ≤ now / 1000 ∧ now / 1000 ≤ c.xdt / 1000 + c.pxl

/-- **C96.**  After every history, a round of pruning leaves exactly the entries in their windows. -/
theorem c96_messages {k : Krm} (hf : Fresh k) (l : List Step) (now : Int) (q : Id × Dig) (c : Cache) :
    (prune now (run k l)).msgc.get q = some c ↔ (run k l).msgc.get q = some c ∧ InWindow now c := by
  have hu := run_uniq l k (fresh_uniq hf)
  have hu' : Uniq (prune now (run k l)) := step_uniq (a := .prune now) hu
  constructor
  · intro h
    have h1 := prune_kept1 (get_mem h)
    refine ⟨?_, by unfold InWindow; simpa [keepMsg] using h1⟩
    have h2 := (prune_less now (run k l)).msgc _ (get_mem h)
    obtain ⟨w, hw⟩ := get_of_mem h2
    rw [hw, uniq_mem hu.1 hw h2]
  · intro ⟨h1, h2⟩
    rcases prune_msgc now (run k l) q with h3 | ⟨c', h3, h4⟩
    · rw [h3]; exact h1
    · rw [uniq_mem hu.1 h1 h3] at h4
      unfold keepMsg at h4
      unfold InWindow at h2
      rw [decide_eq_true h2] at h4
      simp at h4

/-- **C96.**  The same for exchanges. -/
theorem c96_exchanges {k : Krm} (hf : Fresh k) (l : List Step) (now : Int) (q : Id × Dig × Dig) (c : Cache) :
    (prune now (run k l)).tmsc.get q = some c ↔ (run k l).tmsc.get q = some c ∧ InExchange now c := by
  have hu := run_uniq l k (fresh_uniq hf)
  constructor
  · intro h
    have h1 := prune_kept2 (get_mem h)
    refine ⟨?_, by unfold InExchange; simpa [keepExchange] using h1⟩
    have h2 := (prune_less now (run k l)).tmsc _ (get_mem h)
    obtain ⟨w, hw⟩ := get_of_mem h2
    rw [hw, uniq_mem hu.2 hw h2]
  · intro ⟨h1, h2⟩
    rcases prune_tmsc now (run k l) q with h3 | ⟨c', h3, h4⟩
    · rw [h3]; exact h1
    · rw [uniq_mem hu.2 h1 h3] at h4
      unfold keepExchange at h4
      unfold InExchange at h2
      rw [decide_eq_true h2] at h4
      simp at h4

/-- **C96.**  What waits for more signatures is always of a message in the cache, so that it is gone with it. -/
theorem c96_waiting {k : Krm} (hf : Fresh k) (l : List Step) (hb : BindsAll l) (q : Id × Dig)
    (hw : (run k l).pmkm.get q ≠ none ∨ (run k l).pmks.get q ≠ none ∨ (run k l).pmsk.get q ≠ none) :
    (∃ c, (run k l).msgc.get q = some c) ∨ ∃ x c, (run k l).tmsc.get (q.1, x, q.2) = some c := by
  obtain ⟨hW, _⟩ := run_inv l [] k (by rw [List.nil_append]; exact hb) (fresh_inv hf)
  obtain ⟨y, _, h1, h2⟩ := hW q (by unfold Waits; rcases hw with h | h | h; exact Or.inr (Or.inr h); exact Or.inl h; exact Or.inr (Or.inl h))
  subst h1
  unfold Entry at h2
  split at h2
  · exact Or.inl (Option.ne_none_iff_exists'.1 h2)
  · rename_i x _
    exact Or.inr ⟨x, Option.ne_none_iff_exists'.1 h2⟩

end Verif.Krm
