import Verif.Db.On
import Verif.Db.IoSetWrite

/-!
# C38: ordinal numbered values

Contents of a database are seen through `getOnVal`.  `OnTbl` says what the other writers of such a sub-database leave: sorted
keys, each a key of `K` with a number up to MaxON.
-/

namespace Verif.Db

/-- A sub-database of numbered keys, none of whose keys is another one followed by the separator. -/
structure OnTbl (sep : Nat) (K : Bytes → Prop) (t : Tbl) : Prop where
  wf : WF sep K (16 ^ 32) t
  apart : ∀ k k', K k → K k' → ¬ (k ++ [sep]) <+: k'
  ne : ∀ k, K k → k ≠ []

theorem OnTbl.noNest {sep : Nat} {K : Bytes → Prop} {t : Tbl} (h : OnTbl sep K t) : NoNest sep [] K := h.apart

theorem getOnVal_mem {sep : Nat} {K : Bytes → Prop} {t : Tbl} (h : OnTbl sep K t) {k : Bytes} (hk : k ≠ []) {n : Nat} {v : Bytes} :
    getOnVal sep t k n = some v ↔ (suffix sep k n, v) ∈ t := by
  unfold getOnVal
  rw [if_neg hk]
  exact get_some h.wf.sorted

theorem getOnVal_ents {sep : Nat} (hs : SepOk sep) {K : Bytes → Prop} {t : Tbl} (h : OnTbl sep K t) {k : Bytes} (hk : k ≠ []) {n : Nat} {v : Bytes} :
    getOnVal sep t k n = some v ↔ (n, v) ∈ ents sep k t := by
  rw [getOnVal_mem h hk, mem_ents hs h.wf]

theorem maxON_lt : maxON < 16 ^ 32 := by decide
theorem maxON_succ : maxON + 1 = 16 ^ 32 := by decide

/-- The last entry before the position of the greatest number. -/
theorem nextAt_last {sep : Nat} (hs : SepOk sep) {K : Bytes → Prop} {t : Tbl} (h : OnTbl sep K t) {key : Bytes} (hk : K key) :
    nextAt sep key (t.before (onKey sep key maxON)).getLast? = .ok (nextIon (ents sep key (t.before (onKey sep key maxON)))) := by
  have hg := guard_nil sep
  have hw : WF sep K (16 ^ 32) (t.before (onKey sep key maxON)) := h.wf.sublist (List.takeWhile_sublist _)
  have hlt : ∀ e ∈ t.before (onKey sep key maxON), lexLt e.1 (onKey sep key maxON) = true := fun e he => ((mem_before h.wf.sorted).1 he).2
  generalize t.before (onKey sep key maxON) = s at hw hlt ⊢
  rcases List.eq_nil_or_concat s with rfl | ⟨a, e, rfl⟩
  · rfl
  · simp only [List.concat_eq_append, List.getLast?_append, List.getLast?_singleton] at *
    obtain ⟨x, v⟩ := e
    obtain ⟨k, i, hkk, hi, hx⟩ := hw.keys (x, v) (by simp)
    simp only at hx; subst hx
    simp only [Option.some_or, nextAt]
    rw [← unsuffix_eq_splitOnKey, unsuffix_suffix hs]
    simp only
    rw [ents_append]
    by_cases hc : k = key
    · subst hc
      rw [if_pos rfl]
      have : ents sep k [(suffix sep k i, v)] = [(i, v)] := by simp [ents, ent_self hs]
      rw [this]
      unfold nextIon
      simp
    · rw [if_neg hc]
      have h1 : ents sep key [(suffix sep k i, v)] = [] := by simp [ents, ent_other hs hc]
      have h2 : ents sep key a = [] := by
        cases hl : ents sep key a with
        | nil => rfl
        | cons p l =>
          exfalso
          obtain ⟨j, w⟩ := p
          have hwa : WF sep K (16 ^ 32) a := hw.sublist (List.sublist_append_left _ _)
          have hm := (mem_ents hs hwa (key := key) (i := j) (v := w)).1 (by rw [hl]; simp)
          have hj := ents_lt hs hwa key (j, w) (by rw [hl]; simp)
          have hjl : lexLt (suffix sep key j) (suffix sep k i) = true := (List.pairwise_append.1 hw.sorted).2.2 _ hm (suffix sep k i, v) (by simp)
          have hmx := hlt (suffix sep k i, v) (by simp)
          exact hc (no_gap hs hg h.noNest hk hkk hj maxON_lt (lexLt_asymm hjl) (lexLt_asymm hmx))
      rw [h1, h2]; rfl

theorem before_ents {sep : Nat} (hs : SepOk sep) {K : Bytes → Prop} {t : Tbl} (h : OnTbl sep K t) {key : Bytes}
    (hmax : getOnVal sep t key maxON = none) (hne : key ≠ []) : ents sep key (t.before (onKey sep key maxON)) = ents sep key t := by
  have hsplit := before_fro t (onKey sep key maxON)
  have : ents sep key (t.fro (onKey sep key maxON)) = [] := by
    unfold ents
    rw [List.filterMap_eq_nil_iff]
    rintro ⟨x, v⟩ he
    obtain ⟨hmem, hlt⟩ := (mem_fro h.wf.sorted).1 he
    clear he
    obtain ⟨k, i, hkk, hi, hx⟩ := h.wf.keys _ hmem
    simp only at hx; subst hx
    rw [ent_suffix hs]
    split
    · rename_i hc; subst hc
      exfalso
      have h1 : ¬ i < maxON := fun hi' => by
        have := (lexLt_onKey (sep := sep) k hi maxON_lt).2 hi'
        rw [show lexLt (onKey sep k i) (onKey sep k maxON) = false from hlt] at this
        exact absurd this (by simp)
      have h2 : i = maxON := by have := maxON_succ; omega
      subst h2
      rw [(getOnVal_mem h hne).2 hmem] at hmax
      exact absurd hmax (by simp)
    · rfl
  conv => rhs; rw [← hsplit]
  rw [ents_append, this, List.append_nil]

/-- Where `appendOnVal` writes. -/
theorem appendOn_eq {sep : Nat} (hs : SepOk sep) {K : Bytes → Prop} {t : Tbl} (h : OnTbl sep K t) {key : Bytes} (hk : K key) :
    appendOn sep t key = if (getOnVal sep t key maxON).isSome then .error .valueError else .ok (nextIon (ents sep key t)) := by
  have hne := h.ne key hk
  have hsplit := before_fro t (onKey sep key maxON)
  unfold appendOn
  cases hf : t.fro (onKey sep key maxON) with
  | nil =>
    have hb : t.before (onKey sep key maxON) = t := by rw [hf, List.append_nil] at hsplit; exact hsplit
    have hmax : getOnVal sep t key maxON = none := by
      cases hq : getOnVal sep t key maxON with
      | none => rfl
      | some v =>
        have hm := (getOnVal_mem h hne).1 hq
        have : (suffix sep key maxON, v) ∈ t.fro (onKey sep key maxON) := (mem_fro h.wf.sorted).2 ⟨hm, lexLt_irrefl _⟩
        rw [hf] at this; simp at this
    rw [hmax]
    have h1 := nextAt_last hs h hk
    rw [hb] at h1
    simpa using h1
  | cons e r =>
    obtain ⟨x, v⟩ := e
    have hm : (x, v) ∈ t ∧ lexLt x (onKey sep key maxON) = false := (mem_fro h.wf.sorted).1 (by rw [hf]; simp)
    obtain ⟨k, i, hkk, hi, hx⟩ := h.wf.keys _ hm.1
    simp only at hx; subst hx
    simp only
    rw [← unsuffix_eq_splitOnKey, unsuffix_suffix hs]
    simp only
    by_cases hc : k = key
    · subst hc
      rw [if_pos rfl]
      have h1 : ¬ i < maxON := fun hi' => by
        have := (lexLt_onKey (sep := sep) k hi maxON_lt).2 hi'
        rw [show lexLt (onKey sep k i) (onKey sep k maxON) = false from hm.2] at this
        exact absurd this (by simp)
      have h2 : i = maxON := by have := maxON_succ; omega
      subst h2
      rw [(getOnVal_mem h hne).2 hm.1]; rfl
    · rw [if_neg hc]
      have hmax : getOnVal sep t key maxON = none := by
        cases hq : getOnVal sep t key maxON with
        | none => rfl
        | some w =>
          exfalso
          have hw := (getOnVal_mem h hne).1 hq
          have hin : (suffix sep key maxON, w) ∈ t.fro (onKey sep key maxON) := (mem_fro h.wf.sorted).2 ⟨hw, lexLt_irrefl _⟩
          rw [hf] at hin
          rcases List.mem_cons.1 hin with he | he
          · injection he with he _
            exact hc (onKey_inj hs he).1.symm
          · have hsorted := h.wf.sorted.fro (onKey sep key maxON)
            rw [hf] at hsorted
            have := hsorted.head _ he
            rw [show lexLt (suffix sep k i) (suffix sep key maxON) = false from hm.2] at this
            exact absurd this (by simp)
      rw [hmax, nextAt_last hs h hk, before_ents hs h hmax hne]; rfl

/-- **C38 (append), partial.** In every sub-database of numbered keys none of which is another one followed by the separator,
`appendOnVal` writes at one past the greatest number in use at the key, 0 if none is, and changes no other number of no other
key; the only refusal is when the greatest possible number is taken, and then nothing changes.  Missing: nested keys, for which
the statement is false (`c38_nested_keys`). -/
theorem c38_append_partial {sep : Nat} (hs : SepOk sep) {K : Bytes → Prop} {t : Tbl} (h : OnTbl sep K t) {key : Bytes} (hk : K key) (val : Bytes) :
    (∃ on t', appendOnVal sep t key val = (t', .ok on) ∧ OnTbl sep K t' ∧ on ≤ maxON ∧
      (∀ k n, k ≠ [] → getOnVal sep t' k n = if k = key ∧ n = on then some val else getOnVal sep t k n) ∧
      (∀ n v, getOnVal sep t key n = some v → n < on) ∧ (on = 0 ∨ ∃ v, getOnVal sep t key (on - 1) = some v)) ∨
    ((∃ v, getOnVal sep t key maxON = some v) ∧ appendOnVal sep t key val = (t, .error .valueError)) := by
  have hne := h.ne key hk
  have heq := appendOn_eq hs h hk
  cases hq : getOnVal sep t key maxON with
  | some v =>
    right
    refine ⟨⟨v, rfl⟩, ?_⟩
    unfold appendOnVal
    rw [if_neg hne, heq, hq]; rfl
  | none =>
    left
    rw [hq] at heq
    have hinc := ents_increasing hs (Nat.le_refl _) h.wf key
    have hlast := nextIon_last hinc
    have hnmax : ∀ p ∈ ents sep key t, p.1 < maxON := by
      rintro ⟨i, v⟩ hp
      have h1 := ents_lt hs h.wf key _ hp
      have h2 : i ≠ maxON := fun hc => by
        subst hc
        rw [(getOnVal_ents hs h hne).2 hp] at hq
        exact absurd hq (by simp)
      have := maxON_succ; simp only at h1 ⊢; omega
    have hle := nextIon_le hnmax
    obtain ⟨h1, h2, h3, h4⟩ := insert_ents hs (Nat.le_refl _) h.wf hk (i := nextIon (ents sep key t)) (by have := maxON_succ; omega) val hlast
    have hp : t.put (onKey sep key (nextIon (ents sep key t))) val false = (t.insert (suffix sep key (nextIon (ents sep key t))) val, true) := by
      unfold Tbl.put
      rw [show t.get (onKey sep key (nextIon (ents sep key t))) = none from h1]; simp; rfl
    have h' : OnTbl sep K (t.insert (suffix sep key (nextIon (ents sep key t))) val) := ⟨h2, h.apart, h.ne⟩
    refine ⟨_, _, ?_, h', hle, ?_, ?_, ?_⟩
    · unfold appendOnVal
      rw [if_neg hne, heq]
      simp only [Option.isSome_none, Bool.false_eq_true, if_false]
      rw [hp]; rfl
    · intro k n hkn
      have key1 : ∀ w, getOnVal sep (t.insert (suffix sep key (nextIon (ents sep key t))) val) k n = some w ↔
          (if k = key ∧ n = nextIon (ents sep key t) then some val else getOnVal sep t k n) = some w := by
        intro w
        rw [getOnVal_mem h' hkn, mem_insert_iff h.wf.sorted]
        by_cases hc : k = key ∧ n = nextIon (ents sep key t)
        · rw [if_pos hc, hc.1, ← hc.2]; simp [eq_comm]
        · rw [if_neg hc, getOnVal_mem h hkn]
          constructor
          · rintro (he | he)
            · injection he with he _
              exact absurd (onKey_inj hs he) hc
            · exact he.1
          · intro he
            exact .inr ⟨he, fun hx => hc (onKey_inj hs hx)⟩
      exact Option.ext key1
    · intro n v hv
      exact hlast _ ((getOnVal_ents hs h hne).1 hv)
    · unfold nextIon
      cases hl : (ents sep key t).getLast? with
      | none => exact .inl rfl
      | some p =>
        obtain ⟨i, v⟩ := p
        exact .inr ⟨v, (getOnVal_ents hs h hne).2 (List.mem_of_getLast? hl)⟩

theorem itemLoop_scan {sep : Nat} {key : Bytes} (hne : key ≠ []) (l : List Entry) :
    itemLoop sep key l = (scan sep key l).map (fun l => l.map (fun p => (key, p.1, p.2))) := by
  induction l with
  | nil => rfl
  | cons e l ih =>
    obtain ⟨x, v⟩ := e
    unfold itemLoop scan
    rw [unsuffix_eq_splitOnKey]
    cases splitOnKey sep x with
    | error e => rfl
    | ok p =>
      obtain ⟨ck, ci⟩ := p
      simp only
      by_cases hc : ck = key
      · rw [if_neg (by simp [hc]), if_pos hc, ih]
        subst hc
        cases scan sep ck l <;> rfl
      · rw [if_pos ⟨hne, hc⟩, if_neg hc]; rfl

theorem cntLoop_scan {sep : Nat} {key : Bytes} (hne : key ≠ []) (l : List Entry) {r : List (Nat × Bytes)} (h : scan sep key l = .ok r) :
    cntLoop sep key l = r.length := by
  induction l generalizing r with
  | nil => simp [scan] at h; subst h; rfl
  | cons e l ih =>
    obtain ⟨x, v⟩ := e
    unfold scan at h
    unfold cntLoop
    rw [unsuffix_eq_splitOnKey] at h
    cases hsp : splitOnKey sep x with
    | error e => rw [hsp] at h; simp at h
    | ok p =>
      obtain ⟨ck, ci⟩ := p
      rw [hsp] at h
      simp only at h ⊢
      by_cases hc : ck = key
      · rw [if_pos hc] at h
        rw [if_neg (by simp [hc])]
        cases hq : scan sep key l with
        | error e => rw [hq] at h; simp at h
        | ok r' =>
          rw [hq] at h
          simp only [Except.ok.injEq] at h
          rw [ih hq, ← h]; rfl
      · rw [if_neg hc] at h
        simp only [Except.ok.injEq] at h
        rw [if_pos ⟨hne, hc⟩, ← h]; rfl

/-- **C38 (reading).** Iterating a key from a number on yields exactly its values at that number and above, in increasing
order, and their number is the count. -/
theorem c38_read {sep : Nat} (hs : SepOk sep) {K : Bytes → Prop} {t : Tbl} (h : OnTbl sep K t) {key : Bytes} (hk : K key) {on : Nat} (ho : on ≤ maxON) :
    ∃ l, getOnAllItemIter sep t key on = .ok l ∧ cntOnAll sep t key on = l.length ∧
      (∀ k n v, (k, n, v) ∈ l ↔ k = key ∧ on ≤ n ∧ getOnVal sep t key n = some v) ∧ (l.map (fun p => p.2.1)).Pairwise (· < ·) := by
  have hne := h.ne key hk
  have hsc := scan_fro hs (guard_nil sep) h.noNest hk (j := on) (by have := maxON_lt; omega) h.wf
  refine ⟨((ents sep key t).filter (fun p => decide (on ≤ p.1))).map (fun p => (key, p.1, p.2)), ?_, ?_, ?_, ?_⟩
  · unfold getOnAllItemIter
    rw [if_neg hne, itemLoop_scan hne]
    rw [show t.fro (onKey sep key on) = t.fro (suffix sep key on) from rfl, hsc]; rfl
  · unfold cntOnAll
    rw [if_neg hne]
    rw [show t.fro (onKey sep key on) = t.fro (suffix sep key on) from rfl, cntLoop_scan hne _ hsc]
    simp
  · intro k n v
    rw [getOnVal_ents hs h hne]
    simp only [List.mem_map, List.mem_filter, decide_eq_true_eq, Prod.mk.injEq]
    constructor
    · rintro ⟨⟨i, w⟩, ⟨h1, h2⟩, rfl, rfl, rfl⟩
      exact ⟨rfl, h2, h1⟩
    · rintro ⟨rfl, h2, h1⟩
      exact ⟨(n, v), ⟨h1, h2⟩, rfl, rfl, rfl⟩
  · rw [List.map_map, List.pairwise_map]
    exact (ents_increasing hs (Nat.le_refl _) h.wf key).filter _

/-- **C38 (other writes).** Putting, pinning and removing touch exactly the named number of the named key. -/
theorem c38_write {sep : Nat} (hs : SepOk sep) {K : Bytes → Prop} {t : Tbl} (h : OnTbl sep K t) {key : Bytes} (hk : K key) {on : Nat} (ho : on ≤ maxON)
    (val : Bytes) :
    (OnTbl sep K (putOnVal sep t key on val).1 ∧ ((putOnVal sep t key on val).2 = (getOnVal sep t key on).isNone) ∧
      ∀ k n, k ≠ [] → getOnVal sep (putOnVal sep t key on val).1 k n =
        if k = key ∧ n = on ∧ getOnVal sep t key on = none then some val else getOnVal sep t k n) ∧
    (OnTbl sep K (pinOnVal sep t key on val).1 ∧ (pinOnVal sep t key on val).2 = true ∧
      ∀ k n, k ≠ [] → getOnVal sep (pinOnVal sep t key on val).1 k n = if k = key ∧ n = on then some val else getOnVal sep t k n) ∧
    (OnTbl sep K (remOn sep t key on).1 ∧ ((remOn sep t key on).2 = (getOnVal sep t key on).isSome) ∧
      ∀ k n, k ≠ [] → getOnVal sep (remOn sep t key on).1 k n = if k = key ∧ n = on then none else getOnVal sep t k n) := by
  have hne := h.ne key hk
  have hlt := maxON_lt
  have hins : OnTbl sep K (t.insert (onKey sep key on) val) := by
    refine ⟨⟨(sorted_insert h.wf.sorted _ val).1, ?_⟩, h.apart, h.ne⟩
    intro e he
    rcases (sorted_insert h.wf.sorted _ val).2 e he with rfl | ⟨he, _⟩
    · exact ⟨key, on, hk, by omega, rfl⟩
    · exact h.wf.keys e he
  have hget : ∀ k n, k ≠ [] → getOnVal sep (t.insert (onKey sep key on) val) k n = if k = key ∧ n = on then some val else getOnVal sep t k n := by
    intro k n hkn
    refine Option.ext fun w => ?_
    rw [getOnVal_mem hins hkn, mem_insert_iff h.wf.sorted]
    by_cases hc : k = key ∧ n = on
    · rw [if_pos hc, hc.1, hc.2, suffix_eq_onKey]; simp [eq_comm]
    · rw [if_neg hc, getOnVal_mem h hkn]
      constructor
      · rintro (he | he)
        · injection he with he _
          exact absurd (onKey_inj hs he) hc
        · exact he.1
      · intro he
        exact .inr ⟨he, fun hx => hc (onKey_inj hs hx)⟩
  have hgk : getOnVal sep t key on = t.get (onKey sep key on) := by unfold getOnVal; rw [if_neg hne]
  refine ⟨?_, ?_, ?_⟩
  · unfold putOnVal
    rw [if_neg hne]
    unfold Tbl.put
    rw [hgk]
    cases hq : t.get (onKey sep key on) with
    | none =>
      rw [if_neg (by simp)]
      refine ⟨hins, rfl, fun k n hkn => ?_⟩
      simp [hget k n hkn]
    | some v =>
      rw [if_pos (by simp)]
      refine ⟨h, rfl, fun k n _ => by simp⟩
  · unfold pinOnVal
    rw [if_neg hne]
    unfold Tbl.put
    rw [if_neg (by simp)]
    exact ⟨hins, rfl, hget⟩
  · unfold remOn Tbl.del
    rw [if_neg hne]
    have hd : OnTbl sep K (t.filter (fun e => decide (e.1 ≠ onKey sep key on))) := ⟨h.wf.sublist List.filter_sublist, h.apart, h.ne⟩
    refine ⟨hd, by rw [hgk], fun k n hkn => Option.ext fun w => ?_⟩
    rw [getOnVal_mem hd hkn, List.mem_filter]
    by_cases hc : k = key ∧ n = on
    · rw [if_pos hc, hc.1, hc.2, suffix_eq_onKey]; simp
    · rw [if_neg hc, getOnVal_mem h hkn]
      simp only [decide_eq_true_eq, and_iff_left_iff_imp]
      intro _ hx
      exact hc (onKey_inj hs hx)

/-- **C38 (removing a tail).** `remOnAll` removes exactly the numbers from the given one on, of the given key only. -/
theorem c38_remove_all {sep : Nat} (hs : SepOk sep) {K : Bytes → Prop} {t : Tbl} (h : OnTbl sep K t) {key : Bytes} (hk : K key) {on : Nat} (ho : on ≤ maxON) :
    ∃ t' b, remOnAll sep t key on = (t', .ok b) ∧ OnTbl sep K t' ∧
      (∀ k n, k ≠ [] → getOnVal sep t' k n = if k = key ∧ on ≤ n then none else getOnVal sep t k n) ∧
      (b = true ↔ ∃ n v, on ≤ n ∧ getOnVal sep t key n = some v) := by
  have hne := h.ne key hk
  have hlt := maxON_lt
  have hsub : (t.fro (suffix sep key on)).Sublist t := List.dropWhile_sublist _
  have hloop := remLoop_all hs (guard_nil sep) h.noNest hk (j := on) (by omega) (h.wf.sublist hsub) (fun e he => ((mem_fro h.wf.sorted).1 he).2)
  have ht' : OnTbl sep K (t.before (suffix sep key on) ++ (t.fro (suffix sep key on)).filter (fun e => (ent sep key e).isNone)) := by
    refine ⟨h.wf.sublist ?_, h.apart, h.ne⟩
    conv => rhs; rw [← before_fro t (suffix sep key on)]
    exact List.Sublist.append (List.Sublist.refl _) List.filter_sublist
  have hord : ∀ n v, (suffix sep key n, v) ∈ t → (lexLt (suffix sep key n) (suffix sep key on) = true ↔ n < on) := by
    intro n v hm
    obtain ⟨k', j', _, hj', he⟩ := h.wf.keys _ hm
    obtain ⟨rfl, rfl⟩ := onKey_inj hs he
    exact lexLt_onKey (sep := sep) key hj' (by omega)
  refine ⟨_, !(ents sep key (t.fro (suffix sep key on))).isEmpty, ?_, ht', ?_, ?_⟩
  rotate_left
  · intro k n hkn
    refine Option.ext fun w => ?_
    rw [getOnVal_mem ht' hkn, List.mem_append, mem_before h.wf.sorted, List.mem_filter, mem_fro h.wf.sorted]
    by_cases hc : k = key
    · subst hc
      rw [ent_self hs]
      simp only [Option.isNone_some, Bool.false_eq_true, and_false, or_false, true_and]
      by_cases hn : on ≤ n
      · rw [if_pos hn]
        simp only [reduceCtorEq, iff_false, not_and]
        intro hm hq
        exact absurd ((hord n w hm).1 hq) (by omega)
      · rw [if_neg hn, getOnVal_mem h hkn]
        constructor
        · exact fun hq => hq.1
        · exact fun hm => ⟨hm, (hord n w hm).2 (by omega)⟩
    · rw [ent_other hs hc, if_neg (by simp [hc]), getOnVal_mem h hkn]
      simp only [Option.isNone_none, and_true]
      constructor
      · rintro (hq | hq) <;> exact hq.1
      · intro hm
        cases lexLt (suffix sep k n) (suffix sep key on)
        · exact .inr ⟨hm, rfl⟩
        · exact .inl ⟨hm, rfl⟩
  · show (!(ents sep key (t.fro (suffix sep key on))).isEmpty) = true ↔ _
    simp only [Bool.not_eq_true', List.isEmpty_eq_false_iff]
    constructor
    · intro hq
      obtain ⟨⟨n, v⟩, hp⟩ := List.exists_mem_of_ne_nil _ hq
      have hm := (mem_ents hs (h.wf.sublist hsub)).1 hp
      have := (mem_fro h.wf.sorted).1 hm
      refine ⟨n, v, ?_, (getOnVal_mem h hne).2 this.1⟩
      have h2 := hord n v this.1
      rw [this.2] at h2
      simpa using h2
    · rintro ⟨n, v, hn, hv⟩ hq
      have hm := (getOnVal_mem h hne).1 hv
      have hl : lexLt (suffix sep key n) (suffix sep key on) = false := by
        cases hx : lexLt (suffix sep key n) (suffix sep key on) with
        | false => rfl
        | true => exact absurd ((hord n v hm).1 hx) (by omega)
      have : (n, v) ∈ ents sep key (t.fro (suffix sep key on)) := (mem_ents hs (h.wf.sublist hsub)).2 ((mem_fro h.wf.sorted).2 ⟨hm, hl⟩)
      rw [hq] at this; simp at this
  · unfold remOnAll
    rw [if_neg hne]
    rw [show t.fro (onKey sep key on) = t.fro (suffix sep key on) from rfl, hloop]
    rfl

/-- Running appends. -/
def appends (sep : Nat) (t : Tbl) : List (Bytes × Bytes) → Tbl × List (Except Err Nat)
  | [] => (t, [])
  | (k, v) :: r =>
    let (t1, a) := appendOnVal sep t k v
    let (t2, as) := appends sep t1 r
    (t2, a :: as)

/-- Values appended to a key, in order. -/
def valuesOf (k : Bytes) (l : List (Bytes × Bytes)) : List Bytes := (l.filter (fun p => decide (p.1 = k))).map (·.2)

theorem appends_ents {sep : Nat} (hs : SepOk sep) {K : Bytes → Prop} (r : List (Bytes × Bytes)) : ∀ {t : Tbl} (_ : OnTbl sep K t) (c : Nat),
    (∀ p ∈ r, K p.1) → (∀ k, (ents sep k t).map (·.1) = List.range (ents sep k t).length ∧ (ents sep k t).length ≤ c) → c + r.length < 16 ^ 32 →
    OnTbl sep K (appends sep t r).1 ∧ (∀ k, (ents sep k (appends sep t r).1).map (·.1) = List.range (ents sep k (appends sep t r).1).length) ∧
    (∀ k, valsAt sep k (appends sep t r).1 = valsAt sep k t ++ valuesOf k r) ∧ ∀ a ∈ (appends sep t r).2, ∃ n, a = .ok n := by
  induction r with
  | nil => intro t h c _ hc _; exact ⟨h, fun k => (hc k).1, fun k => by simp [appends, valuesOf], by simp [appends]⟩
  | cons p r ih =>
    obtain ⟨key, val⟩ := p
    intro t h c hK hc hlen
    simp only [List.length_cons] at hlen
    have hk : K key := hK (key, val) (by simp)
    have hne := h.ne key hk
    have hnext : nextIon (ents sep key t) = (ents sep key t).length := by
      have h1 := (hc key).1
      unfold nextIon
      rcases List.eq_nil_or_concat (ents sep key t) with hq | ⟨a, e, hq⟩
      · rw [hq]; rfl
      · rw [hq] at h1 ⊢
        simp only [List.concat_eq_append, List.getLast?_append, List.getLast?_singleton, Option.some_or, List.length_append, List.length_singleton,
          List.map_append, List.map_cons, List.map_nil, List.range_succ] at h1 ⊢
        have := (List.append_inj' h1 rfl).2
        simp at this; rw [this]
    have hmax : getOnVal sep t key maxON = none := by
      cases hq : getOnVal sep t key maxON with
      | none => rfl
      | some v =>
        exfalso
        have hm := (getOnVal_ents hs h hne).1 hq
        have : maxON ∈ (ents sep key t).map (·.1) := List.mem_map.2 ⟨_, hm, rfl⟩
        rw [(hc key).1, List.mem_range] at this
        have := (hc key).2; have := maxON_succ; omega
    have heq := appendOn_eq hs h hk
    rw [hmax] at heq
    have hlast := nextIon_last (ents_increasing hs (Nat.le_refl _) h.wf key)
    have hck := (hc key).2
    obtain ⟨h1, h2, h3, h4⟩ := insert_ents hs (Nat.le_refl _) h.wf hk (i := nextIon (ents sep key t)) (by rw [hnext]; omega) val hlast
    have hp : appendOnVal sep t key val = (t.insert (suffix sep key (nextIon (ents sep key t))) val, .ok (nextIon (ents sep key t))) := by
      unfold appendOnVal
      rw [if_neg hne, heq]
      simp only [Option.isSome_none, Bool.false_eq_true, if_false]
      unfold Tbl.put
      rw [show t.get (onKey sep key (nextIon (ents sep key t))) = none from h1]; simp; rfl
    have hc' : ∀ k, (ents sep k (t.insert (suffix sep key (nextIon (ents sep key t))) val)).map (·.1) =
        List.range (ents sep k (t.insert (suffix sep key (nextIon (ents sep key t))) val)).length ∧
        (ents sep k (t.insert (suffix sep key (nextIon (ents sep key t))) val)).length ≤ c + 1 := by
      intro k
      by_cases hkk : k = key
      · subst hkk
        rw [h3, hnext]
        simp only [List.map_append, List.map_cons, List.map_nil, List.length_append, List.length_singleton, List.range_succ, (hc k).1]
        exact ⟨trivial, by omega⟩
      · rw [h4 k hkk]
        exact ⟨(hc k).1, by have := (hc k).2; omega⟩
    obtain ⟨g1, g2, g3, g4⟩ := ih ⟨h2, h.apart, h.ne⟩ (c + 1) (fun p hp => hK p (by simp [hp])) hc' (by omega)
    simp only [appends]
    rw [hp]
    refine ⟨g1, g2, fun k => ?_, ?_⟩
    · rw [g3 k]
      by_cases hkk : k = key
      · subst hkk
        unfold valsAt valuesOf; rw [h3]; simp
      · unfold valsAt valuesOf; rw [h4 k hkk, List.filter_cons_of_neg (by simpa using fun hq => hkk hq.symm)]
    · intro a ha
      rcases List.mem_cons.1 ha with ha | ha
      · exact ⟨_, ha⟩
      · exact g4 a ha

/-- **C38 (histories), partial.** Starting empty, after any interleaving of appends to any keys (none another one followed by the
separator), none raises, and reading a key returns exactly the values appended to it, in order, numbered 0, 1, 2, …  Missing:
nested keys (`c38_nested_keys`). -/
theorem c38_history_partial {sep : Nat} (hs : SepOk sep) (r : List (Bytes × Bytes)) (hne : ∀ p ∈ r, p.1 ≠ [])
    (hap : ∀ p ∈ r, ∀ q ∈ r, ¬ (p.1 ++ [sep]) <+: q.1) (hlen : r.length < 16 ^ 32) :
    (∀ a ∈ (appends sep [] r).2, ∃ n, a = .ok n) ∧
    ∀ p ∈ r, getOnAllItemIter sep (appends sep [] r).1 p.1 0 = .ok ((valuesOf p.1 r).zipIdx.map (fun q => (p.1, q.2, q.1))) := by
  have h0 : OnTbl sep (fun k => ∃ p ∈ r, p.1 = k) [] := by
    refine ⟨⟨List.Pairwise.nil, by simp⟩, ?_, ?_⟩
    · rintro k k' ⟨p, hp, rfl⟩ ⟨q, hq, rfl⟩; exact hap p hp q hq
    · rintro k ⟨p, hp, rfl⟩; exact hne p hp
  obtain ⟨g1, g2, g3, g4⟩ := appends_ents hs r h0 0 (fun p hp => ⟨p, hp, rfl⟩) (by simp [ents]) (by omega)
  refine ⟨g4, fun p hp => ?_⟩
  have hk := hne p hp
  have hsc := scan_zero hs (guard_nil sep) g1.noNest ⟨p, hp, rfl⟩ (by decide) g1.wf
  unfold getOnAllItemIter
  rw [if_neg hk, itemLoop_scan hk]
  rw [show (appends sep [] r).1.fro (onKey sep p.1 0) = (appends sep [] r).1.fro (suffix sep p.1 0) from rfl, hsc]
  show Except.ok _ = _
  congr 1
  have h1 := g2 p.1
  have h2 : (ents sep p.1 (appends sep [] r).1).map (·.2) = valuesOf p.1 r := by
    have := g3 p.1
    unfold valsAt at this
    rw [this]; simp [ents]
  rw [← h2]
  generalize ents sep p.1 (appends sep [] r).1 = L at h1
  apply List.ext_getElem
  · simp
  · intro i hi hi'
    simp only [List.length_map] at hi
    have e1 : (L.map (·.1))[i]'(by simpa using hi) = i := by simp [h1]
    simp only [List.getElem_map] at e1
    simp [e1]

/-- **C38 fails for nested keys.** With a value at key `A.A`, a second append at key `A` raises. -/
theorem c38_nested_keys : (appends 46 [] [([65], [1]), ([65, 46, 65], [2]), ([65], [3])]).2 = [.ok 0, .ok 0, .error .valueError] := by decide +kernel

/-- **C38, a stored empty value is not an item** although it is a value. -/
theorem c38_empty_item : getOnVal 46 (appendOnVal 46 [] [65] []).1 [65] 0 = some [] ∧ getOnItem 46 (appendOnVal 46 [] [65] []).1 [65] 0 = none := by
  decide +kernel

namespace Demo38
def ops : List (Bytes × Bytes) := [([65], [1]), ([66], [9]), ([65], [2]), ([65, 66], [3]), ([65], [1])]
/-- Hypotheses of the history theorem hold of interleaved appends to three keys, one a prefix of another. -/
example : SepOk 46 ∧ (∀ p ∈ ops, p.1 ≠ []) ∧ (∀ p ∈ ops, ∀ q ∈ ops, ¬ (p.1 ++ [46]) <+: q.1) ∧ ops.length < 16 ^ 32 := by
  refine ⟨by unfold SepOk; decide, by decide, by decide, by decide⟩
example : getOnAllItemIter 46 (appends 46 [] ops).1 [65] 0 = .ok [([65], 0, [1]), ([65], 1, [2]), ([65], 2, [1])] := by decide +kernel
/-- And the table so reached meets the hypotheses of the step theorems, by the same lemma. -/
example : OnTbl 46 (fun k => ∃ p ∈ ops, p.1 = k) (appends 46 [] ops).1 := by
  refine (appends_ents (by unfold SepOk; decide) ops ⟨⟨List.Pairwise.nil, by simp⟩, ?_, ?_⟩ 0 (fun p hp => ⟨p, hp, rfl⟩) (by simp [ents]) (by decide)).1
  · rintro k k' ⟨p, hp, rfl⟩ ⟨q, hq, rfl⟩
    exact (show ∀ p ∈ ops, ∀ q ∈ ops, ¬ (p.1 ++ [46]) <+: q.1 by decide) p hp q hq
  · rintro k ⟨p, hp, rfl⟩
    exact (show ∀ p ∈ ops, p.1 ≠ [] by decide) p hp
end Demo38

end Verif.Db
