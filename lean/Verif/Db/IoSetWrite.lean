import Verif.Db.IoSetLemmas

/-! # Insertion-ordered sets: effects of the writing functions -/

namespace Verif.Db

/-- Values of a key. -/
def valsAt (sep : Nat) (key : Bytes) (t : Tbl) : List Bytes := (ents sep key t).map (·.2)

theorem ent_other {sep : Nat} (hs : SepOk sep) {key k : Bytes} (h : k ≠ key) (i : Nat) (v : Bytes) : ent sep key (suffix sep k i, v) = none := by
  rw [ent_suffix hs, if_neg h]

theorem ent_self {sep : Nat} (hs : SepOk sep) (key : Bytes) (i : Nat) (v : Bytes) : ent sep key (suffix sep key i, v) = some (i, v) := by
  rw [ent_suffix hs, if_pos rfl]

/-- Writing past the last ordinal of a key appends to it and changes no other key. -/
theorem insert_ents {sep : Nat} (hs : SepOk sep) {K : Bytes → Prop} {B : Nat} (hB : B ≤ 16 ^ 32) {t : Tbl} (h : WF sep K B t)
    {key : Bytes} (hk : K key) {i : Nat} (hi : i < B) (v : Bytes) (hlast : ∀ p ∈ ents sep key t, p.1 < i) :
    t.get (suffix sep key i) = none ∧ WF sep K B (t.insert (suffix sep key i) v) ∧
    ents sep key (t.insert (suffix sep key i) v) = ents sep key t ++ [(i, v)] ∧
    ∀ k, k ≠ key → ents sep k (t.insert (suffix sep key i) v) = ents sep k t := by
  have hfresh : ∀ e ∈ t, e.1 ≠ suffix sep key i := by
    rintro ⟨x, w⟩ he hx
    simp only at hx; subst hx
    exact absurd (hlast _ ((mem_ents hs h).2 he)) (by simp)
  obtain ⟨a, b, ht, hins, ha, hb⟩ := insert_split h.sorted v hfresh
  have hbnil : ents sep key b = [] := by
    cases hl : ents sep key b with
    | nil => rfl
    | cons p l =>
      exfalso
      obtain ⟨j, w⟩ := p
      have hwb : WF sep K B b := h.sublist (by rw [ht]; exact List.sublist_append_right a b)
      have hm := (mem_ents hs hwb (key := key) (i := j) (v := w)).1 (by rw [hl]; simp)
      have hj : j < i := hlast (j, w) (by rw [ht, ents_append, hl]; simp)
      have h1 := hb _ hm
      have h2 := (lexLt_onKey (sep := sep) key (m := j) (n := i) (by omega) (by omega)).2 hj
      have h3 : lexLt (suffix sep key j) (suffix sep key i) = true := h2
      rw [lexLt_asymm h1] at h3
      exact absurd h3 (by simp)
  refine ⟨get_none.2 hfresh, ⟨(sorted_insert h.sorted _ v).1, ?_⟩, ?_, ?_⟩
  · intro e he
    rcases (sorted_insert h.sorted _ v).2 e he with rfl | ⟨he, _⟩
    · exact ⟨key, i, hk, hi, rfl⟩
    · exact h.keys e he
  · rw [hins, ht, ents_append, ents_append, hbnil]
    have : ents sep key ((suffix sep key i, v) :: b) = (i, v) :: ents sep key b := by
      unfold ents; rw [List.filterMap_cons, ent_self hs]
    rw [this, hbnil]; simp
  · intro k hkk
    rw [hins, ht, ents_append, ents_append]
    congr 1
    unfold ents; rw [List.filterMap_cons, ent_other hs (Ne.symm hkk)]

/-- Writing values at consecutive ordinals past the last one. -/
theorem putSeq_ents {sep : Nat} (hs : SepOk sep) {K : Bytes → Prop} {B : Nat} (hB : B ≤ 16 ^ 32) {key : Bytes} (hk : K key) (o : Bool)
    (vs : List Bytes) : ∀ (i : Nat) (t : Tbl), WF sep K B t → i + vs.length ≤ B → (∀ p ∈ ents sep key t, p.1 < i) →
    WF sep K B (putSeq sep key o i vs t).1 ∧ (putSeq sep key o i vs t).2 = !vs.isEmpty ∧
    valsAt sep key (putSeq sep key o i vs t).1 = valsAt sep key t ++ vs ∧
    ∀ k, k ≠ key → ents sep k (putSeq sep key o i vs t).1 = ents sep k t := by
  induction vs with
  | nil => intro i t h _ _; exact ⟨h, rfl, by simp [putSeq], fun _ _ => rfl⟩
  | cons v vs ih =>
    intro i t h hlen hlast
    simp only [List.length_cons] at hlen
    obtain ⟨h1, h2, h3, h4⟩ := insert_ents hs hB h hk (i := i) (by omega) v hlast
    have hp : t.put (suffix sep key i) v o = (t.insert (suffix sep key i) v, true) := by
      unfold Tbl.put; rw [h1]; simp
    unfold putSeq
    rw [hp]
    simp only
    obtain ⟨g1, g2, g3, g4⟩ := ih (i + 1) _ h2 (by omega) (by
      intro p hp
      rw [h3] at hp
      rcases List.mem_append.1 hp with hp | hp
      · have := hlast p hp; omega
      · simp at hp; subst hp; simp)
    refine ⟨g1, by simp, ?_, fun k hkk => (g4 k hkk).trans (h4 k hkk)⟩
    rw [g3]; unfold valsAt; rw [h3]; simp

theorem nextIon_last {l : List (Nat × Bytes)} (h : l.Pairwise (fun a b => a.1 < b.1)) : ∀ p ∈ l, p.1 < nextIon l := by
  intro p hp
  unfold nextIon
  cases hl : l.getLast? with
  | none => rw [List.getLast?_eq_none_iff] at hl; subst hl; simp at hp
  | some q =>
    obtain ⟨a, ha⟩ := List.getLast?_eq_some_iff.1 hl
    simp only
    rw [ha] at hp h
    rcases List.mem_append.1 hp with hp | hp
    · have := (List.pairwise_append.1 h).2.2 p hp q (by simp)
      omega
    · simp at hp; subst hp; omega

theorem nextIon_le {l : List (Nat × Bytes)} {b : Nat} (h : ∀ p ∈ l, p.1 < b) : nextIon l ≤ b := by
  unfold nextIon
  cases hl : l.getLast? with
  | none => simp
  | some q =>
    have := h q (List.mem_of_getLast? hl)
    simp only; omega

theorem ents_lt {sep : Nat} (hs : SepOk sep) {K : Bytes → Prop} {B : Nat} {t : Tbl} (h : WF sep K B t) (key : Bytes) :
    ∀ p ∈ ents sep key t, p.1 < B := by
  rintro ⟨i, v⟩ hp
  obtain ⟨k, j, _, hj, he⟩ := h.keys _ ((mem_ents hs h).1 hp)
  obtain ⟨_, rfl⟩ := onKey_inj hs he
  exact hj

/-- Deletion loop: exactly the entries of the key go. -/
theorem remLoop_all {sep : Nat} (hs : SepOk sep) {g : Bytes} {B : Nat} (hg : Guard sep g B) {K : Bytes → Prop} (hn : NoNest sep g K)
    {key : Bytes} (hk : K key) {j : Nat} (hj : j < B) {t : Tbl} (h : WF sep K B t)
    (hfrom : ∀ e ∈ t, lexLt e.1 (suffix sep key j) = false) :
    remLoop sep key t = .ok (t.filter (fun e => (ent sep key e).isNone), !(ents sep key t).isEmpty) := by
  induction t with
  | nil => rfl
  | cons e t ih =>
    have hnil : ∀ k i v, e = (suffix sep k i, v) → K k → k ≠ key → ents sep key t = [] := by
      rintro k i v rfl hkk hc
      cases hl : ents sep key t with
      | nil => rfl
      | cons p l =>
        exfalso
        obtain ⟨i', w⟩ := p
        have hm := (mem_ents hs h.tail (key := key) (i := i') (v := w)).1 (by rw [hl]; simp)
        obtain ⟨k', j', _, hj', he⟩ := h.tail.keys _ hm
        obtain ⟨rfl, rfl⟩ := onKey_inj hs he
        exact hc (no_gap hs hg hn hk hkk hj hj' (hfrom (suffix sep k i, v) (by simp)) (lexLt_asymm (h.sorted.head _ hm)))
    obtain ⟨x, v⟩ := e
    obtain ⟨k, i, hkk, hi, hx⟩ := h.keys (x, v) (by simp)
    simp only at hx; subst hx
    unfold remLoop ents
    rw [unsuffix_suffix hs]
    simp only
    by_cases hc : k = key
    · subst hc
      rw [if_neg (by simp), ih h.tail (fun e he => hfrom e (by simp [he]))]
      simp [ent_self hs]
    · rw [if_pos hc, List.filterMap_cons, ent_other hs hc, List.filter_cons_of_pos (by rw [ent_other hs hc]; rfl)]
      have h0 := hnil k i v rfl hkk hc
      simp only
      congr 1
      have e1 : t.filter (fun e => (ent sep key e).isNone) = t := by
        refine List.filter_eq_self.2 fun e he => ?_
        cases hq : ent sep key e with
        | none => rfl
        | some p =>
          exfalso
          have : p ∈ ents sep key t := List.mem_filterMap.2 ⟨e, he, hq⟩
          rw [h0] at this; simp at this
      rw [e1]
      unfold ents at h0
      rw [h0]; rfl

/-- `remIoSet` removes exactly the entries of the key. -/
theorem remIoSet_eq {sep : Nat} (hs : SepOk sep) {g : Bytes} {B : Nat} (hg : Guard sep g B) {K : Bytes → Prop} (hn : NoNest sep g K)
    {key : Bytes} (hk : K key) (hne : key ≠ []) (hB : 0 < B) {t : Tbl} (h : WF sep K B t) :
    remIoSet sep t key = (t.filter (fun e => (ent sep key e).isNone), .ok (!(ents sep key t).isEmpty)) := by
  have hsub : (t.fro (suffix sep key 0)).Sublist t := List.dropWhile_sublist _
  have hbef : ∀ e ∈ t.before (suffix sep key 0), ent sep key e = none := by
    rintro ⟨x, v⟩ he
    obtain ⟨he, hlt⟩ := (mem_before h.sorted).1 he
    obtain ⟨k, i, hkk, hi, hx⟩ := h.keys _ he
    simp only at hx; subst hx
    rw [ent_suffix hs]
    split
    · rename_i hc; subst hc
      have hle := hg.le
      exact absurd ((lexLt_onKey (sep := sep) k (m := i) (n := 0) (by omega) (by omega)).1 hlt) (by omega)
    · rfl
  have hsplit := before_fro t (suffix sep key 0)
  unfold remIoSet
  rw [if_neg hne, remLoop_all hs hg hn hk hB (h.sublist hsub) (fun e he => ((mem_fro h.sorted).1 he).2)]
  simp only
  have e1 : t.filter (fun e => (ent sep key e).isNone) = t.before (suffix sep key 0) ++ (t.fro (suffix sep key 0)).filter (fun e => (ent sep key e).isNone) := by
    conv => lhs; rw [← hsplit]
    rw [List.filter_append]
    congr 1
    exact List.filter_eq_self.2 fun e he => by rw [hbef e he]; rfl
  have e2 : ents sep key t = ents sep key (t.fro (suffix sep key 0)) := by
    conv => lhs; rw [← hsplit]
    rw [ents_append]
    have : ents sep key (t.before (suffix sep key 0)) = [] := by
      unfold ents
      rw [List.filterMap_eq_nil_iff]
      exact hbef
    rw [this]; rfl
  rw [e1, e2]

theorem removed_ents {sep : Nat} (hs : SepOk sep) {B : Nat} {K : Bytes → Prop} {t : Tbl} (h : WF sep K B t) (key : Bytes) :
    ents sep key (t.filter (fun e => (ent sep key e).isNone)) = [] ∧
    ∀ k, k ≠ key → ents sep k (t.filter (fun e => (ent sep key e).isNone)) = ents sep k t := by
  constructor
  · unfold ents
    rw [List.filterMap_eq_nil_iff]
    intro e he
    have := (List.mem_filter.1 he).2
    simpa using this
  · intro k hkk
    unfold ents
    rw [List.filterMap_filter]
    apply filterMap_congr'
    rintro ⟨x, v⟩ he
    obtain ⟨k', i, _, hi, hx⟩ := h.keys _ he
    simp only at hx; subst hx
    by_cases hc : k' = key
    · subst hc
      rw [ent_self hs, ent_other hs (Ne.symm hkk)]; rfl
    · rw [ent_other hs hc]; rfl

/-- Loop of `remIoSetVal`: the first entry of the key with the value goes. -/
theorem remFirst_all {sep : Nat} (hs : SepOk sep) {g : Bytes} {B : Nat} (hg : Guard sep g B) {K : Bytes → Prop} (hn : NoNest sep g K)
    {key : Bytes} (hk : K key) (val : Bytes) {j : Nat} (hj : j < B) {t : Tbl} (h : WF sep K B t)
    (hfrom : ∀ e ∈ t, lexLt e.1 (suffix sep key j) = false) :
    ∃ r, remFirst sep key val t = .ok (r, decide (val ∈ valsAt sep key t)) ∧ r.Sublist t ∧
      valsAt sep key r = (valsAt sep key t).erase val ∧ ∀ k, k ≠ key → ents sep k r = ents sep k t := by
  induction t with
  | nil => exact ⟨[], by simp [remFirst, valsAt, ents], List.Sublist.refl _, by simp [valsAt, ents], fun _ _ => rfl⟩
  | cons e t ih =>
    have hnil : ∀ k i v, e = (suffix sep k i, v) → K k → k ≠ key → ents sep key t = [] := by
      rintro k i v rfl hkk hc
      cases hl : ents sep key t with
      | nil => rfl
      | cons p l =>
        exfalso
        obtain ⟨i', w⟩ := p
        have hm := (mem_ents hs h.tail (key := key) (i := i') (v := w)).1 (by rw [hl]; simp)
        obtain ⟨k', j', _, hj', he⟩ := h.tail.keys _ hm
        obtain ⟨rfl, rfl⟩ := onKey_inj hs he
        exact hc (no_gap hs hg hn hk hkk hj hj' (hfrom (suffix sep k i, v) (by simp)) (lexLt_asymm (h.sorted.head _ hm)))
    obtain ⟨x, v⟩ := e
    obtain ⟨k, i, hkk, hi, hx⟩ := h.keys (x, v) (by simp)
    simp only at hx; subst hx
    have hcons : ∀ (k' : Bytes) (s : Tbl), ents sep k' ((suffix sep k i, v) :: s) = (if k = k' then [(i, v)] else []) ++ ents sep k' s := by
      intro k' s; unfold ents; rw [List.filterMap_cons, ent_suffix hs]; split <;> rename_i hq <;> split at hq <;> simp_all
    unfold remFirst
    rw [unsuffix_suffix hs]
    simp only
    by_cases hc : k = key
    · subst hc
      rw [if_neg (by simp)]
      by_cases hv : val = v
      · subst hv
        rw [if_pos rfl]
        refine ⟨t, by simp [valsAt, hcons], List.sublist_cons_self _ _, by simp [valsAt, hcons], fun k' hk' => by simp [hcons, Ne.symm hk']⟩
      · rw [if_neg hv]
        obtain ⟨r, h1, h2, h3, h4⟩ := ih h.tail (fun e he => hfrom e (by simp [he]))
        rw [h1]
        refine ⟨(suffix sep k i, v) :: r, ?_, ?_, ?_, ?_⟩
        · have : (val ∈ valsAt sep k ((suffix sep k i, v) :: t)) ↔ val ∈ valsAt sep k t := by
            unfold valsAt; rw [hcons]; simp [hv]
          simp only [this]
        · exact List.Sublist.cons_cons _ h2
        · unfold valsAt at h3 ⊢
          rw [hcons, hcons]
          simp only [if_true, List.cons_append, List.nil_append, List.map_cons]
          rw [h3, List.erase_cons_tail (by simpa using fun hq => hv hq.symm)]
        · intro k' hk'
          rw [hcons, hcons, h4 k' hk']
    · rw [if_pos hc]
      have h0 := hnil k i v rfl hkk hc
      have hv0 : valsAt sep key ((suffix sep k i, v) :: t) = [] := by unfold valsAt; rw [hcons, if_neg hc, h0]; rfl
      exact ⟨_, by rw [hv0]; simp, List.Sublist.refl _, by rw [hv0]; simp, fun _ _ => rfl⟩

/-- `remIoSetVal` removes the first occurrence of the value. -/
theorem remIoSetVal_eq {sep : Nat} (hs : SepOk sep) {g : Bytes} {B : Nat} (hg : Guard sep g B) {K : Bytes → Prop} (hn : NoNest sep g K)
    {key : Bytes} (hk : K key) (hne : key ≠ []) (val : Bytes) (hB : 0 < B) {t : Tbl} (h : WF sep K B t) :
    ∃ r, remIoSetVal sep t key val = (r, .ok (decide (val ∈ valsAt sep key t))) ∧ r.Sublist t ∧
      valsAt sep key r = (valsAt sep key t).erase val ∧ ∀ k, k ≠ key → ents sep k r = ents sep k t := by
  have hsub : (t.fro (suffix sep key 0)).Sublist t := List.dropWhile_sublist _
  obtain ⟨r, h1, h2, h3, h4⟩ := remFirst_all hs hg hn hk val hB (h.sublist hsub) (fun e he => ((mem_fro h.sorted).1 he).2)
  have hsplit := before_fro t (suffix sep key 0)
  have hbef : ents sep key (t.before (suffix sep key 0)) = [] := by
    unfold ents
    rw [List.filterMap_eq_nil_iff]
    rintro ⟨x, v⟩ he
    obtain ⟨he, hlt⟩ := (mem_before h.sorted).1 he
    obtain ⟨k, i, hkk, hi, hx⟩ := h.keys _ he
    simp only at hx; subst hx
    rw [ent_suffix hs]
    split
    · rename_i hc; subst hc
      have hle := hg.le
      exact absurd ((lexLt_onKey (sep := sep) k (m := i) (n := 0) (by omega) (by omega)).1 hlt) (by omega)
    · rfl
  have e2 : ents sep key t = ents sep key (t.fro (suffix sep key 0)) := by
    conv => lhs; rw [← hsplit]
    rw [ents_append, hbef]; rfl
  unfold remIoSetVal
  rw [if_neg hne, h1]
  refine ⟨t.before (suffix sep key 0) ++ r, ?_, ?_, ?_, ?_⟩
  · unfold valsAt; rw [e2]
  · conv => rhs; rw [← hsplit]
    exact List.Sublist.append (List.Sublist.refl _) h2
  · unfold valsAt at h3 ⊢
    rw [ents_append, hbef, e2]; exact h3
  · intro k hkk
    rw [ents_append, h4 k hkk, ← ents_append, hsplit]

end Verif.Db
