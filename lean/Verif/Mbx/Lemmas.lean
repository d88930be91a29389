import Verif.Mbx.Spec

/-! # Lemmas on the mailbox database -/

namespace Verif.Mbx
open Verif.Db

theorem snoc_ind {α : Type} {P : List α → Prop} (h0 : P []) (h1 : ∀ l x, P l → P (l ++ [x])) (l : List α) : P l := by
  have h : ∀ l : List α, P l.reverse := by
    intro l
    induction l with
    | nil => exact h0
    | cons x l ih => rw [List.reverse_cons]; exact h1 _ _ ih
  have := h l.reverse
  rwa [List.reverse_reverse] at this

theorem sepOk : SepOk dot := by unfold SepOk; decide

theorem arrived_append (k : Bytes) (a b : List Step) : arrived k (a ++ b) = arrived k a ++ arrived k b := by
  induction a with
  | nil => rfl
  | cons s a ih =>
    cases s <;> simp only [List.cons_append, arrived, ih]
    all_goals split <;> rfl

theorem arrived_length (k : Bytes) (h : List Step) : (arrived k h).length ≤ h.length := by
  induction h with
  | nil => simp [arrived]
  | cons s h ih =>
    cases s <;> simp only [arrived, List.length_cons]
    case store => split <;> (try rw [List.length_cons]) <;> omega
    case cut => split <;> (try rw [List.length_cons]) <;> omega
    all_goals omega

theorem kept_append (m : Bytes) (a b : List Step) : kept m (a ++ b) = (kept m a || kept m b) := by
  unfold kept; rw [List.any_append]

theorem mem_arrived {k : Bytes} {h : List Step} {m : Bytes} {b : Bool} (hm : (m, b) ∈ arrived k h) :
    (b = true ∧ Step.store k m ∈ h) ∨ (b = false ∧ Step.cut k m ∈ h) := by
  induction h with
  | nil => simp [arrived] at hm
  | cons s h ih =>
    have base : (m, b) ∈ arrived k h → (b = true ∧ Step.store k m ∈ s :: h) ∨ (b = false ∧ Step.cut k m ∈ s :: h) := fun hq => by
      rcases ih hq with ⟨h1, h2⟩ | ⟨h1, h2⟩
      · exact .inl ⟨h1, List.mem_cons_of_mem _ h2⟩
      · exact .inr ⟨h1, List.mem_cons_of_mem _ h2⟩
    cases s <;> simp only [arrived] at hm
    case store k' m' =>
      split at hm
      · rename_i hk; subst hk
        rcases List.mem_cons.1 hm with hq | hq
        · injection hq with h1 h2; subst h1; subst h2; exact .inl ⟨rfl, by simp⟩
        · exact base hq
      · exact base hm
    case cut k' m' =>
      split at hm
      · rename_i hk; subst hk
        rcases List.mem_cons.1 hm with hq | hq
        · injection hq with h1 h2; subst h1; subst h2; exact .inr ⟨rfl, by simp⟩
        · exact base hq
      · exact base hm
    all_goals exact base hm

theorem kept_of_store {k m : Bytes} {h : List Step} (hm : Step.store k m ∈ h) : kept m h = true := by
  unfold kept
  rw [List.any_eq_true]
  exact ⟨_, hm, by simp⟩

theorem kept_of_stored {h : List Step} {k : Bytes} {n : Nat} {m : Bytes} (hm : Stored h k n m) : kept m h = true := by
  have h1 : (m, true) ∈ arrived k h := List.mem_of_getElem? hm
  rcases mem_arrived h1 with ⟨_, h2⟩ | ⟨h2, _⟩
  · exact kept_of_store h2
  · exact absurd h2 (by simp)

/-- The mailbox after a history. -/
structure BoxInv (env : Env) (K : Bytes → Prop) (h : List Step) (m : Mailbox) : Prop where
  tab : OnTbl dot K m.tpcs
  nums : ∀ k, ents dot k m.tpcs = (arrived k h).zipIdx.map (fun p => (p.2, env.dig p.1.1))
  sorted : Sorted m.msgs
  msgs : ∀ x, m.msgs.get (env.dig x) = if kept x h then some x else none

theorem appendOnVal_ents {K : Bytes → Prop} {t : Tbl} (ht : OnTbl dot K t) {key : Bytes} (hk : K key) {A : List (Bytes × Bool)} {f : Bytes → Bytes}
    (hn : ents dot key t = A.zipIdx.map (fun p => (p.2, f p.1.1))) (hlen : A.length < maxON) (val : Bytes) :
    ∃ t', appendOnVal dot t key val = (t', .ok A.length) ∧ OnTbl dot K t' ∧
      ents dot key t' = ents dot key t ++ [(A.length, val)] ∧ ∀ k, k ≠ key → ents dot k t' = ents dot k t := by
  have hne := ht.ne key hk
  have hfst : (ents dot key t).map (·.1) = List.range A.length := by
    rw [hn, List.map_map]
    apply List.ext_getElem <;> simp
  have hl : (ents dot key t).length = A.length := by have := congrArg List.length hfst; simpa using this
  have hnext : nextIon (ents dot key t) = A.length := by
    unfold nextIon
    rw [← hl]
    rw [← hl] at hfst
    rcases List.eq_nil_or_concat (ents dot key t) with hq | ⟨a, e, hq⟩
    · rw [hq]; rfl
    · rw [hq] at hfst ⊢
      simp only [List.concat_eq_append, List.getLast?_append, List.getLast?_singleton, Option.some_or, List.length_append, List.length_singleton,
        List.map_append, List.map_cons, List.map_nil, List.range_succ] at hfst ⊢
      have := (List.append_inj' hfst rfl).2
      simp at this; rw [this]
  have hmax : getOnVal dot t key maxON = none := by
    cases hq : getOnVal dot t key maxON with
    | none => rfl
    | some v =>
      exfalso
      have hm := (getOnVal_ents sepOk ht hne).1 hq
      have : maxON ∈ (ents dot key t).map (·.1) := List.mem_map.2 ⟨_, hm, rfl⟩
      rw [hfst, List.mem_range] at this
      omega
  have heq := appendOn_eq sepOk ht hk
  rw [hmax] at heq
  have hlast := nextIon_last (ents_increasing sepOk (Nat.le_refl _) ht.wf key)
  have hB := maxON_lt
  obtain ⟨h1, h2, h3, h4⟩ := insert_ents sepOk (Nat.le_refl _) ht.wf hk (i := nextIon (ents dot key t)) (by rw [hnext]; omega) val hlast
  refine ⟨t.insert (suffix dot key (nextIon (ents dot key t))) val, ?_, ⟨h2, ht.apart, ht.ne⟩, ?_, h4⟩
  · unfold appendOnVal
    rw [if_neg hne, heq]
    simp only [Option.isSome_none, Bool.false_eq_true, if_false]
    unfold Tbl.put
    rw [show t.get (onKey dot key (nextIon (ents dot key t))) = none from h1]
    simp [hnext]; rfl
  · rw [h3, hnext]

theorem index_inv {env : Env} {K : Bytes → Prop} {h : List Step} {m : Mailbox} (hi : BoxInv env K h m) {key : Bytes} (hk : K key)
    (hlen : (arrived key h).length < maxON) (msg : Bytes) :
    ∃ m', indexMsg env m key msg = (m', .ok (arrived key h).length) ∧ m'.msgs = m.msgs ∧ OnTbl dot K m'.tpcs ∧
      (∀ b k, ents dot k m'.tpcs = (arrived k h ++ (if key = k then [(msg, b)] else [])).zipIdx.map (fun (p : (Bytes × Bool) × Nat) => (p.2, env.dig p.1.1))) := by
  obtain ⟨t', h1, h2, h3, h4⟩ := appendOnVal_ents hi.tab hk (hi.nums key) hlen (env.dig msg)
  refine ⟨{ m with tpcs := t' }, ?_, rfl, h2, ?_⟩
  · unfold indexMsg; rw [h1]
  · intro b k
    by_cases hq : key = k
    · subst hq
      show ents dot key t' = _
      rw [h3, hi.nums key, if_pos rfl, List.zipIdx_append]
      simp
    · show ents dot k t' = _
      rw [h4 k (Ne.symm hq), hi.nums k, if_neg hq, List.append_nil]

theorem setVal_get {env : Env} (hd : Digests env) {t : Tbl} (hs : Sorted t) (msg : Bytes) :
    Sorted (setVal t (env.dig msg) msg).1 ∧ (setVal t (env.dig msg) msg).2 = true ∧
    ∀ x, (setVal t (env.dig msg) msg).1.get (env.dig x) = if x = msg then some msg else t.get (env.dig x) := by
  have h1 : setVal t (env.dig msg) msg = (t.insert (env.dig msg) msg, true) := by
    unfold setVal; rw [if_neg (hd.ne msg)]; unfold Tbl.put; rw [if_neg (by simp)]
  rw [h1]
  refine ⟨(sorted_insert hs _ msg).1, rfl, fun x => ?_⟩
  show (t.insert (env.dig msg) msg).get (env.dig x) = _
  rw [get_insert hs]
  by_cases hx : x = msg
  · subst hx; rw [if_pos rfl, if_pos rfl]
  · rw [if_neg hx, if_neg (fun hq => hx (hd.inj _ _ hq))]

theorem empty_inv {env : Env} {K : Bytes → Prop} (hK : Apart K) : BoxInv env K [] empty := by
  refine ⟨⟨⟨List.Pairwise.nil, by simp [empty]⟩, hK.dots, hK.ne⟩, fun k => rfl, List.Pairwise.nil, fun x => by simp [empty, Tbl.get, kept]⟩

theorem store_inv {env : Env} (hd : Digests env) {K : Bytes → Prop} {h : List Step} {m : Mailbox} (hi : BoxInv env K h m) {key : Bytes} (hk : K key)
    (hlen : (arrived key h).length < maxON) (msg : Bytes) :
    (storeMsg env m key msg).2 = .ok true ∧ BoxInv env K (h ++ [.store key msg]) (storeMsg env m key msg).1 := by
  obtain ⟨m', h1, h2, h3, h4⟩ := index_inv hi hk hlen msg
  obtain ⟨g1, g2, g3⟩ := setVal_get hd hi.sorted msg
  unfold storeMsg keepMsg
  rw [h1]
  dsimp only
  rw [h2, g2]
  refine ⟨rfl, h3, fun k => ?_, g1, fun x => ?_⟩
  · rw [show ents dot k ({ m' with msgs := (setVal m.msgs (env.dig msg) msg).1 } : Mailbox).tpcs = ents dot k m'.tpcs from rfl, h4 true k,
      arrived_append]
    simp [arrived]
  · show (setVal m.msgs (env.dig msg) msg).1.get (env.dig x) = _
    rw [g3, hi.msgs, kept_append]
    by_cases hx : x = msg
    · subst hx; simp [kept]
    · rw [if_neg hx]
      have : kept x [Step.store key msg] = false := by simp [kept, Ne.symm hx]
      rw [this, Bool.or_false]

theorem cut_inv {env : Env} {K : Bytes → Prop} {h : List Step} {m : Mailbox} (hi : BoxInv env K h m) {key : Bytes} (hk : K key)
    (hlen : (arrived key h).length < maxON) (msg : Bytes) : BoxInv env K (h ++ [.cut key msg]) (indexMsg env m key msg).1 := by
  obtain ⟨m', h1, h2, h3, h4⟩ := index_inv hi hk hlen msg
  rw [h1]
  refine ⟨h3, fun k => ?_, ?_, fun x => ?_⟩
  · rw [h4 false k, arrived_append]; simp [arrived]
  · show Sorted m'.msgs
    rw [h2]; exact hi.sorted
  · show m'.msgs.get _ = _
    rw [h2, hi.msgs, kept_append]
    have : kept x [Step.cut key msg] = false := rfl
    rw [this, Bool.or_false]

/-- Steps other than arrivals leave what has arrived. -/
theorem other_inv {env : Env} {K : Bytes → Prop} {h : List Step} {m : Mailbox} (hi : BoxInv env K h m) {s : Step}
    (ha : ∀ k, arrived k [s] = []) (hk : ∀ x, kept x [s] = false) : BoxInv env K (h ++ [s]) m := by
  refine ⟨hi.tab, fun k => ?_, hi.sorted, fun x => ?_⟩
  · rw [arrived_append, ha, List.append_nil, hi.nums]
  · rw [kept_append, hk, Bool.or_false, hi.msgs]

theorem collect_map {env : Env} (hd : Digests env) {K : Bytes → Prop} {h : List Step} {m : Mailbox} (hi : BoxInv env K h m) (key : Bytes)
    (l : List (Nat × Bytes)) :
    collect env m (l.map (fun p => (key, p.1, env.dig p.2))) =
      if (l.filter (fun p : Nat × Bytes => kept p.2 h)).all (fun p => env.text p.2) then
        .ok ((l.filter (fun p : Nat × Bytes => kept p.2 h)).filter (fun p : Nat × Bytes => decide (p.2 ≠ []))) else .error .valueError := by
  induction l with
  | nil => simp [collect]
  | cons p l ih =>
    obtain ⟨n, x⟩ := p
    have hr : readMsg env m (env.dig x) = if kept x h then (if env.text x then .ok (if x = [] then none else some x) else .error .valueError) else .ok none := by
      unfold readMsg getVal
      rw [if_neg (hd.ne x), hi.msgs]
      cases kept x h <;> rfl
    simp only [List.map_cons, collect]
    rw [hr]
    cases hk : kept x h with
    | false =>
      simp only [Bool.false_eq_true, if_false]
      rw [ih, List.filter_cons_of_neg (by simp [hk])]
    | true =>
      rw [if_pos rfl, List.filter_cons_of_pos (by simp [hk])]
      cases ht : env.text x with
      | false =>
        rw [if_neg (by simp)]
        dsimp only
        rw [if_neg (by simp [ht])]
      | true =>
        rw [if_pos rfl]
        simp only [List.all_cons, ht, Bool.true_and]
        by_cases hx : x = []
        · rw [if_pos hx]
          dsimp only
          rw [ih, List.filter_cons_of_neg (by simp [hx])]
        · rw [if_neg hx]
          dsimp only
          rw [ih, List.filter_cons_of_pos (by simp [hx])]
          cases (l.filter (fun p : Nat × Bytes => kept p.2 h)).all (fun p => env.text p.2) <;> rfl

/-- Reading a key, from the history. -/
theorem clone_eq {env : Env} (hd : Digests env) {K : Bytes → Prop} {h : List Step} {m : Mailbox} (hi : BoxInv env K h m) {key : Bytes} (hk : K key)
    {fn : Nat} (hf : fn ≤ maxON) :
    cloneTopicIter env m key fn = if (letters h key fn).all (fun p => env.text p.2) then
      .ok ((letters h key fn).filter (fun p : Nat × Bytes => decide (p.2 ≠ []))) else .error .valueError := by
  have hne := hi.tab.ne key hk
  have hsc := scan_fro sepOk (guard_nil dot) hi.tab.noNest hk (j := fn) (by have := maxON_lt; omega) hi.tab.wf
  have hall : getOnAllItemIter dot m.tpcs key fn =
      .ok (((arrived key h).zipIdx.filter (fun p => decide (fn ≤ p.2))).map (fun p => (key, p.2, env.dig p.1.1))) := by
    unfold getOnAllItemIter
    rw [if_neg hne, itemLoop_scan hne]
    rw [show m.tpcs.fro (onKey dot key fn) = m.tpcs.fro (suffix dot key fn) from rfl, hsc, hi.nums, List.filter_map]
    show Except.ok (List.map _ (List.map _ _)) = _
    rw [List.map_map]; rfl
  unfold cloneTopicIter
  rw [hall]
  dsimp only
  have h1 := collect_map hd hi key (((arrived key h).zipIdx.filter (fun p => decide (fn ≤ p.2))).map (fun p => (p.2, p.1.1)))
  rw [List.map_map] at h1
  have h2 : (((arrived key h).zipIdx.filter (fun p => decide (fn ≤ p.2))).map (fun p => (p.2, p.1.1))).filter (fun p => kept p.2 h) = letters h key fn := by
    unfold letters
    rw [List.filter_map, List.filter_filter]
    congr 1
    apply List.filter_congr
    intro p _
    simp [Bool.and_comm, Function.comp]
  rw [h2] at h1
  exact h1

theorem mem_letters {h : List Step} {k : Bytes} {fn n : Nat} {x : Bytes} :
    (n, x) ∈ letters h k fn ↔ fn ≤ n ∧ kept x h = true ∧ ∃ b, (arrived k h)[n]? = some (x, b) := by
  unfold letters
  simp only [List.mem_map, List.mem_filter, Bool.and_eq_true, decide_eq_true_eq, Prod.mk.injEq]
  constructor
  · rintro ⟨⟨⟨y, b⟩, i⟩, ⟨h1, h2, h3⟩, rfl, rfl⟩
    exact ⟨h2, h3, b, by simpa using (List.mem_zipIdx_iff_getElem? (x := ((y, b), i))).1 h1⟩
  · rintro ⟨h1, h2, b, h3⟩
    exact ⟨((x, b), n), ⟨(List.mem_zipIdx_iff_getElem? (x := ((x, b), n))).2 h3, h1, h2⟩, rfl, rfl⟩

theorem letters_increasing (h : List Step) (k : Bytes) (fn : Nat) : ((letters h k fn).map (·.1)).Pairwise (· < ·) := by
  unfold letters
  rw [List.map_map, List.pairwise_map]
  apply List.Pairwise.filter
  have : (((arrived k h).zipIdx).map (·.2)).Pairwise (· < ·) := by
    rw [List.zipIdx_map_snd]
    exact List.pairwise_lt_range'
  rw [List.pairwise_map] at this
  exact this

end Verif.Mbx
