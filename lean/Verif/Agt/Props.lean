import Verif.Agt.Model

/-! # Receipts of witnesses (C208, C209) -/

namespace Verif.Agt

open Verif.Krm

/-! ## Specification -/

/-- The receipt of witness `v` that was stored last, if any. -/
def lastOf {Id : Type} [DecidableEq Id] (wits : List Id) (ws : List Wig) (v : Id) : Option Wig :=
  ws.reverse.find? fun g => wits[g.index]? = some v

/-- All receipts that were posted to `w`. -/
def sharedWith {Id : Type} [DecidableEq Id] (posts : List (Id × Post Id)) (w : Id) : List Wig := posts.flatMap fun p =>
  if p.1 = w then match p.2 with
    | .share _ ws => ws
    | _ => []
  else []

/-! ## Lemmas -/

section
variable {Id DB Body : Type} [DecidableEq Id]

theorem gather_ids (n : Net Id DB Body) (l : List Id) : ∀ db, (gather n db l).2 = l.filter fun w => (n.answer w).isSome := by
  induction l with
  | nil => intro db; rfl
  | cons w r ih =>
    intro db
    unfold gather
    cases h : n.answer w with
    | none => simp [h, ih]
    | some b => simp [h, ih]

theorem byWit_get (wits : List Id) (ws : List Wig) : ∀ t t', byWit wits t ws = .ok t' →
    ∀ v, Tab.get t' v = (lastOf wits ws v).or (Tab.get t v) := by
  induction ws with
  | nil => intro t t' h v; simp only [byWit, Except.ok.injEq] at h; subst h; rfl
  | cons g r ih =>
    intro t t' h v
    unfold byWit at h
    cases hw : wits[g.index]? with
    | none => simp [hw] at h
    | some w =>
      simp only [hw] at h
      rw [ih _ _ h v, get_pin]
      have : lastOf wits (g :: r) v = (lastOf wits r v).or (if w = v then some g else none) := by
        unfold lastOf
        rw [List.reverse_cons, List.find?_append, List.find?_singleton, hw]
        by_cases hv : w = v <;> simp [hv]
      rw [this]
      by_cases hv : w = v
      · subst hv
        cases lastOf wits r w <;> simp
      · simp [hv]

theorem shared_append (a b : List (Id × Post Id)) (w : Id) : sharedWith (a ++ b) w = sharedWith a w ++ sharedWith b w := by
  simp [sharedWith]

theorem filterMap_have (wits : List Id) (t : Tab Id Wig) (x : Id) :
    (wits.filter fun v => decide (v ≠ x) && (Tab.get t v).isSome).filterMap (Tab.get t) =
      (wits.filter fun v => decide (v ≠ x)).filterMap (Tab.get t) := by
  induction wits with
  | nil => rfl
  | cons v vs ih =>
    by_cases hv : v = x
    · rw [List.filter_cons_of_neg (by simp [hv]), List.filter_cons_of_neg (by simp [hv]), ih]
    · cases hg : Tab.get t v with
      | none => rw [List.filter_cons_of_neg (by simp [hg]), List.filter_cons_of_pos (by simp [hv]), List.filterMap_cons_none hg, ih]
      | some g =>
        rw [List.filter_cons_of_pos (by simp [hg, hv]), List.filter_cons_of_pos (by simp [hv]), List.filterMap_cons_some hg,
          List.filterMap_cons_some hg, ih]

theorem shared_shares (ilk : Ilk) (wits adds : List Id) (t : Tab Id Wig) (l : List Id) (w : Id) (hn : l.Nodup) :
    sharedWith (shares ilk wits adds t l) w = if w ∈ l then (wits.filter fun v => decide (v ≠ w)).filterMap (Tab.get t) else [] := by
  induction l with
  | nil => simp [shares, sharedWith]
  | cons x r ih =>
    rw [List.nodup_cons] at hn
    have hfm := filterMap_have wits t
    have hx : sharedWith (shares ilk wits adds t (x :: r)) w =
        (if x = w then (wits.filter fun v => decide (v ≠ x)).filterMap (Tab.get t) else []) ++ sharedWith (shares ilk wits adds t r) w := by
      rw [shares]
      simp only [hfm]
      by_cases he : ((wits.filter fun v => decide (v ≠ x)).filterMap (Tab.get t)).isEmpty = true
      · rw [if_pos he]
        rw [List.isEmpty_iff] at he
        rw [he]
        simp
      · rw [if_neg he]
        simp only [sharedWith, List.flatMap_cons]
    rw [hx, ih hn.2]
    by_cases hw : x = w
    · subst hw
      simp [hn.1]
    · have : ¬ w = x := fun h => hw h.symm
      simp [hw, this]

theorem shared_none (l : List Id) (p : Post Id) (hp : p = .event ∨ p = .log) (w : Id) : sharedWith (l.map fun v => (v, p)) w = [] := by
  unfold sharedWith
  rw [List.flatMap_eq_nil_iff]
  intro x hx
  obtain ⟨v, _, rfl⟩ := List.mem_map.1 hx
  rcases hp with rfl | rfl <;> simp

theorem catchups_ok (n : Net Id DB Body) (l : List Id) (h : (catchups n l).2 = none) :
    (catchups n l).1 = l.map fun v => (v, Post.log) := by
  induction l with
  | nil => rfl
  | cons w r ih =>
    unfold catchups at h ⊢
    by_cases hw : n.endpoint w = true
    · simp only [hw, if_true] at h ⊢
      rw [ih h]; rfl
    · simp [hw] at h

/-- The run, when it ends without an exception. -/
theorem receipt_ok (n : Net Id DB Body) (db : DB) (ilk : Ilk) (wits adds : List Id) (r : List Id)
    (h : (receipt n db ilk wits adds).2.2 = .ok (some r)) :
    ∃ t, byWit wits [] (n.wigs (receipt n db ilk wits adds).1) = .ok t ∧ r = (gather n db (wits.filter n.endpoint)).2 ∧
      (receipt n db ilk wits adds).2.1 = (if ilk = .rot then adds.map fun v => (v, .log) else []) ++
        (wits.filter n.endpoint).map (fun w => (w, .event)) ++ shares ilk wits adds t r := by
  unfold receipt at h ⊢
  by_cases hw : wits.isEmpty = true
  · simp [hw] at h
  · rw [if_neg hw] at h ⊢
    have hc : (if ilk = .rot then catchups n adds else ([], none)).2 = none →
        (if ilk = .rot then catchups n adds else ([], none)).1 = if ilk = .rot then adds.map fun v => (v, Post.log) else [] := by
      intro hn
      by_cases hr : ilk = .rot
      · simp only [hr, if_true] at hn ⊢; exact catchups_ok n adds hn
      · simp [hr]
    generalize (if ilk = .rot then catchups n adds else ([], none)) = c at h hc ⊢
    obtain ⟨posts, e⟩ := c
    cases e with
    | some e => simp at h
    | none =>
      simp only at h hc ⊢
      unfold proceed at h ⊢
      dsimp only at h ⊢
      cases hb : byWit wits [] (n.wigs (gather n db (wits.filter n.endpoint)).1) with
      | error e => rw [hb] at h; simp at h
      | ok t =>
        rw [hb] at h
        simp only [Except.ok.injEq, Option.some.injEq] at h
        refine ⟨t, hb, h.symm, ?_⟩
        simp only
        rw [hc trivial, h]

/-! ## C208 -/

/-- **C208.** However witnesses answer: when the gathering of receipts ends, its result is exactly the witnesses that could be reached and answered
with success, in order; each of these has been posted the event, and of the receipts of the event now stored exactly one of every other witness that
has one: the last. Nobody else is posted receipts. -/
theorem c208_shared (n : Net Id DB Body) (db : DB) (ilk : Ilk) (wits adds : List Id) (hn : wits.Nodup) (r : List Id)
    (h : (receipt n db ilk wits adds).2.2 = .ok (some r)) :
    r = wits.filter (fun w => n.endpoint w && (n.answer w).isSome) ∧
    (∀ w, w ∈ wits → n.endpoint w = true → (w, .event) ∈ (receipt n db ilk wits adds).2.1) ∧
    (∀ w, w ∈ r → sharedWith (receipt n db ilk wits adds).2.1 w =
      (wits.filter fun v => decide (v ≠ w)).filterMap (lastOf wits (n.wigs (receipt n db ilk wits adds).1))) ∧
    ∀ w, w ∉ r → sharedWith (receipt n db ilk wits adds).2.1 w = [] := by
  obtain ⟨t, h1, h2, h3⟩ := receipt_ok n db ilk wits adds r h
  have hr : r = wits.filter (fun w => n.endpoint w && (n.answer w).isSome) := by
    rw [h2, gather_ids, List.filter_filter]
    apply List.filter_congr
    intro x _
    exact Bool.and_comm _ _
  have hs : ∀ w, sharedWith (receipt n db ilk wits adds).2.1 w =
      if w ∈ r then (wits.filter fun v => decide (v ≠ w)).filterMap (lastOf wits (n.wigs (receipt n db ilk wits adds).1)) else [] := by
    intro w
    rw [h3, shared_append, shared_append, shared_none _ _ (.inl rfl)]
    have h4 : sharedWith (if ilk = .rot then adds.map fun v => (v, Post.log) else []) w = [] := by
      split
      · exact shared_none _ _ (.inr rfl) _
      · rfl
    rw [h4, shared_shares ilk wits adds t r w (by rw [hr]; exact hn.filter _)]
    have h5 : Tab.get t = lastOf wits (n.wigs (receipt n db ilk wits adds).1) := by
      funext v
      rw [byWit_get wits _ [] t h1 v, get_nil]
      cases lastOf wits (n.wigs (receipt n db ilk wits adds).1) v <;> rfl
    rw [h5]; rfl
  refine ⟨hr, ?_, ?_, ?_⟩
  · intro w hw he
    rw [h3]
    simp [hw, he]
  · intro w hw; rw [hs, if_pos hw]
  · intro w hw; rw [hs, if_neg hw]

/-- **C208.** So when every witness has a receipt stored in the end, every one that answered has been posted those of all the others. -/
theorem c208_complete (n : Net Id DB Body) (db : DB) (ilk : Ilk) (wits adds : List Id) (hn : wits.Nodup) (r : List Id)
    (h : (receipt n db ilk wits adds).2.2 = .ok (some r))
    (hall : ∀ v, v ∈ wits → ∃ g, g ∈ n.wigs (receipt n db ilk wits adds).1 ∧ wits[g.index]? = some v) :
    ∀ w, w ∈ r → ∀ v, v ∈ wits → v ≠ w → ∃ g, g ∈ sharedWith (receipt n db ilk wits adds).2.1 w ∧ wits[g.index]? = some v := by
  intro w hw v hv hne
  rw [(c208_shared n db ilk wits adds hn r h).2.2.1 w hw]
  obtain ⟨g, hg, hi⟩ := hall v hv
  cases hl : lastOf wits (n.wigs (receipt n db ilk wits adds).1) v with
  | none =>
    unfold lastOf at hl
    rw [List.find?_eq_none] at hl
    have := hl g (by simpa using hg)
    simp [hi] at this
  | some g' =>
    refine ⟨g', ?_, ?_⟩
    · rw [List.mem_filterMap]
      exact ⟨v, by simp [hv, hne], hl⟩
    · have := List.find?_some hl
      simpa using this

theorem intro_shares (ilk : Ilk) (wits adds : List Id) (t : Tab Id Wig) (l : List Id) (w : Id) (is : List Id) (ws : List Wig)
    (h : (w, Post.share is ws) ∈ shares ilk wits adds t l) :
    is = if introduced ilk adds w then wits.filter (fun v => decide (v ≠ w) && (Tab.get t v).isSome) else [] := by
  induction l with
  | nil => simp [shares] at h
  | cons x r ih =>
    rw [shares] at h
    split at h
    · exact ih h
    · rcases List.mem_cons.1 h with h | h
      · simp only [Prod.mk.injEq, Post.share.injEq] at h
        obtain ⟨rfl, rfl, _⟩ := h
        rfl
      · exact ih h

/-- **C208.** With the receipts go the locations of their witnesses, to all at an inception, and at a rotation to those that it adds; else none. -/
theorem c208_introduced (n : Net Id DB Body) (db : DB) (ilk : Ilk) (wits adds : List Id) (r : List Id)
    (h : (receipt n db ilk wits adds).2.2 = .ok (some r)) (w : Id) (is : List Id) (ws : List Wig)
    (hm : (w, .share is ws) ∈ (receipt n db ilk wits adds).2.1) :
    ((ilk = .icp ∨ ilk = .dip ∨ ((ilk = .rot ∨ ilk = .drt) ∧ w ∈ adds)) ∧
      is = wits.filter (fun v => decide (v ≠ w) && (lastOf wits (n.wigs (receipt n db ilk wits adds).1) v).isSome)) ∨
    (¬ (ilk = .icp ∨ ilk = .dip ∨ ((ilk = .rot ∨ ilk = .drt) ∧ w ∈ adds)) ∧ is = []) := by
  obtain ⟨t, h1, h2, h3⟩ := receipt_ok n db ilk wits adds r h
  have h5 : Tab.get t = lastOf wits (n.wigs (receipt n db ilk wits adds).1) := by
    funext v
    rw [byWit_get wits _ [] t h1 v, get_nil]
    cases lastOf wits (n.wigs (receipt n db ilk wits adds).1) v <;> rfl
  rw [h3] at hm
  have hm' : (w, Post.share is ws) ∈ shares ilk wits adds t r := by
    rcases List.mem_append.1 hm with hm | hm
    · rcases List.mem_append.1 hm with hm | hm
      · split at hm <;> simp at hm
      · simp at hm
    · exact hm
  have := intro_shares ilk wits adds t r w is ws hm'
  rw [h5] at this
  cases ilk <;> simp [introduced] at this ⊢ <;> try exact this
  all_goals
    by_cases hw : w ∈ adds
    · simp only [hw, if_true] at this; simp [hw, this]
    · simp only [hw, if_false] at this; simp [hw, this]

/-- The log is posted to the witnesses that a rotation adds, before anything else. -/
theorem c208_catchup (n : Net Id DB Body) (db : DB) (wits adds : List Id) (r : List Id) (h : (receipt n db .rot wits adds).2.2 = .ok (some r)) :
    ∃ rest, (receipt n db .rot wits adds).2.1 = adds.map (fun v => (v, .log)) ++ rest := by
  obtain ⟨t, _, _, h3⟩ := receipt_ok n db .rot wits adds r h
  exact ⟨_, by rw [h3, List.append_assoc]; rfl⟩

/-- **C208 fails** for rotations of delegated identifiers: the log is posted to nobody, not to added witnesses either. -/
theorem c208_delegated (n : Net Id DB Body) (db : DB) (wits adds : List Id) (w : Id) : (w, .log) ∉ (receipt n db .drt wits adds).2.1 := by
  have hs : ∀ t l, (w, Post.log) ∉ shares .drt wits adds t l := by
    intro t l
    induction l with
    | nil => simp [shares]
    | cons x r ih =>
      unfold shares
      dsimp only
      split
      · exact ih
      · simp [ih]
  unfold receipt
  split
  · simp
  · simp only [reduceCtorEq, if_false, proceed]
    cases hb : byWit wits [] (n.wigs (gather n db (wits.filter n.endpoint)).1) with
    | error e => simp
    | ok t => simp [hs]

/-- **C208 fails** when a rotation adds a witness that has no endpoint: an exception, and the event is posted to nobody. -/
theorem c208_no_endpoint (n : Net Id DB Body) (db : DB) (wits adds : List Id) (hw : wits ≠ []) (a : Id) (ha : a ∈ adds) (he : n.endpoint a = false) :
    (receipt n db .rot wits adds).2.2 = .error .missingEntry ∧ ∀ w, (w, .event) ∉ (receipt n db .rot wits adds).2.1 := by
  have hc : (catchups n adds).2 = some .missingEntry ∧ ∀ w, (w, Post.event) ∉ (catchups n adds).1 := by
    induction adds with
    | nil => simp at ha
    | cons x r ih =>
      unfold catchups
      by_cases hx : n.endpoint x = true
      · rcases List.mem_cons.1 ha with rfl | ha
        · rw [hx] at he; cases he
        · simp only [hx, if_true]
          refine ⟨(ih ha).1, ?_⟩
          intro w
          simp [(ih ha).2 w]
      · simp [hx]
  unfold receipt
  rw [if_neg (by simpa using hw)]
  simp only [if_true]
  generalize catchups n adds = c at hc
  obtain ⟨posts, e⟩ := c
  obtain ⟨rfl, h2⟩ := hc
  exact ⟨rfl, h2⟩

end

namespace Demo

/-- The database is the list of receipts, each answer the receipt of the one who answers; witness 2 does not answer. -/
def net : Net Nat (List Wig) Wig := ⟨fun _ => true, fun w => if w = 12 then none else some ⟨w - 10, w⟩, fun db b => db ++ [b], id⟩

end Demo

/-- Three witnesses, one silent: the others get each other's receipts. -/
example : receipt Demo.net [] .icp [10, 11, 12] [] =
    ([⟨0, 10⟩, ⟨1, 11⟩], [(10, .event), (11, .event), (12, .event), (10, .share [11] [⟨1, 11⟩]), (11, .share [10] [⟨0, 10⟩])],
      .ok (some [10, 11])) := by decide +kernel

/-! ## C209 -/

section
variable {Id : Type} [DecidableEq Id]

theorem others_ok (self : Id) (wits : List Id) : ∀ aw : List Wig, aw.length = wits.length →
    others self wits aw = .ok ((wits.zip aw).filterMap fun p => if p.1 = self then none else some p.2) := by
  induction wits with
  | nil => intro aw _; rfl
  | cons w r ih =>
    intro aw hl
    cases aw with
    | nil => simp at hl
    | cons g t =>
      simp only [List.length_cons, Nat.add_right_cancel_iff] at hl
      unfold others
      by_cases hw : w = self
      · rw [if_pos hw, List.tail_cons, ih t hl]
        simp [hw]
      · rw [if_neg hw]
        simp only [ih t hl]
        simp [hw]

theorem zip_skip (self : Id) (l : List Id) (h : self ∉ l) : ∀ aw : List Wig, l.length = aw.length →
    ((l.zip aw).filterMap fun p => if p.1 = self then none else some p.2) = aw := by
  induction l with
  | nil => intro aw hl; cases aw <;> simp_all
  | cons w r ih =>
    intro aw hl
    cases aw with
    | nil => simp at hl
    | cons g t =>
      simp only [List.mem_cons, not_or] at h
      have hne : ¬ w = self := fun e => h.1 e.symm
      simp only [List.length_cons, Nat.add_right_cancel_iff] at hl
      simp only [List.zip_cons_cons, List.filterMap_cons, hne, if_false]
      rw [ih h.2 t hl]

/-- Without the receipt at the position of the witness. -/
theorem others_at (wits : List Id) (hn : wits.Nodup) (aw : List Wig) (hl : aw.length = wits.length) (i : Nat) (w : Id) (hi : wits[i]? = some w) :
    others w wits aw = .ok (aw.eraseIdx i) := by
  rw [others_ok w wits aw hl]
  congr 1
  induction wits generalizing aw i with
  | nil => simp at hi
  | cons x r ih =>
    cases aw with
    | nil => simp at hl
    | cons g t =>
      rw [List.nodup_cons] at hn
      simp only [List.length_cons, Nat.add_right_cancel_iff] at hl
      cases i with
      | zero =>
        simp only [List.getElem?_cons_zero, Option.some.injEq] at hi
        subst hi
        simp only [List.zip_cons_cons, List.filterMap_cons, if_true, List.eraseIdx_cons_zero]
        exact zip_skip x r hn.1 t hl.symm
      | succ i =>
        simp only [List.getElem?_cons_succ] at hi
        have hne : ¬ x = w := by
          intro e; subst e
          exact hn.1 (List.mem_of_getElem? hi)
        simp only [List.zip_cons_cons, List.filterMap_cons, hne, if_false, List.eraseIdx_cons_succ]
        rw [ih hn.2 t hl i hi]

/-- **C209 (partial).** When as many receipts are stored as there are witnesses, each by another one: every witness is sent exactly the receipts of the
others, if and only if the receipts were stored in the order of the witnesses. What is missing is all other orders: then some witness is sent its
own receipt in the place of another's (`c209_order`). -/
theorem c209_shared_partial (wits : List Id) (hn : wits.Nodup) (aw : List Wig) (hr : ready wits aw = true)
    (hd : (aw.map Wig.index).Nodup) :
    (∀ (i : Nat) (w : Id), wits[i]? = some w → ∃ l, others w wits aw = .ok l ∧ ∀ g : Wig, g ∈ l ↔ g ∈ aw ∧ g.index ≠ i) ↔
      ∀ (i : Nat) (g : Wig), aw[i]? = some g → g.index = i := by
  have hl : aw.length = wits.length := by simpa [ready] using hr
  constructor
  · intro h i g hg
    have hlt : i < wits.length := by
      rw [← hl]; exact (List.getElem?_eq_some_iff.1 hg).1
    obtain ⟨l, h1, h2⟩ := h i wits[i] (List.getElem?_eq_getElem hlt)
    rw [others_at wits hn aw hl i wits[i] (List.getElem?_eq_getElem hlt)] at h1
    cases h1
    refine Decidable.byContradiction fun hne => ?_
    have hm := (h2 g).2 ⟨List.mem_of_getElem? hg, hne⟩
    obtain ⟨j, hj, hjg⟩ := List.mem_eraseIdx_iff_getElem?.1 hm
    have hlt' : i < aw.length := by omega
    have hji : j < aw.length := (List.getElem?_eq_some_iff.1 hjg).1
    have : (aw.map Wig.index)[i]'(by simpa using hlt') = (aw.map Wig.index)[j]'(by simpa using hji) := by
      have e1 := (List.getElem?_eq_some_iff.1 hg).2
      have e2 := (List.getElem?_eq_some_iff.1 hjg).2
      simp only [List.getElem_map]
      rw [e1, e2]
    have hp := List.pairwise_iff_getElem.1 hd
    rcases Nat.lt_trichotomy i j with hlt | heq | hgt
    · exact hp i j (by simpa using hlt') (by simpa using hji) hlt this
    · exact hj heq.symm
    · exact hp j i (by simpa using hji) (by simpa using hlt') hgt this.symm
  · intro h i w hi
    have hlt : i < aw.length := by rw [hl]; exact (List.getElem?_eq_some_iff.1 hi).1
    refine ⟨_, others_at wits hn aw hl i w hi, ?_⟩
    intro g
    rw [List.mem_eraseIdx_iff_getElem?]
    constructor
    · rintro ⟨j, hj, hg⟩
      exact ⟨List.mem_of_getElem? hg, by rw [h j g hg]; exact hj⟩
    · rintro ⟨hm, hne⟩
      obtain ⟨j, hj⟩ := List.getElem?_of_mem hm
      exact ⟨j, by rw [← h j g hj]; exact hne, hj⟩

end

/-- **C209 fails** when the second witness answers first: each is sent its own receipt, and not the one of the other. -/
theorem c209_order : ready [10, 11] [⟨1, 11⟩, ⟨0, 10⟩] = true ∧ others 10 [10, 11] [⟨1, 11⟩, ⟨0, 10⟩] = .ok [⟨0, 10⟩] ∧
    others 11 [10, 11] [⟨1, 11⟩, ⟨0, 10⟩] = .ok [⟨1, 11⟩] := by decide +kernel

/-- The hypotheses are met, with the right order. -/
example : ready [10, 11] [⟨0, 10⟩, ⟨1, 11⟩] = true ∧ others 10 [10, 11] [⟨0, 10⟩, ⟨1, 11⟩] = .ok [⟨1, 11⟩] ∧
    others 11 [10, 11] [⟨0, 10⟩, ⟨1, 11⟩] = .ok [⟨0, 10⟩] := by decide +kernel

end Verif.Agt
