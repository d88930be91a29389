import Verif.Db.OnIoSet
import Verif.Db.PropsIoSet
import Verif.Db.PropsOn

/-!
# C41: backward iteration; C37 at numbered keys

The contents of a numbered-set sub-database are seen through forward iteration (`getOnAllIoSetItemIter`).
-/

namespace Verif.Db

/-- Sub-database of insertion-ordered sets at numbered keys, none of whose keys is another one followed by the separator. -/
structure OnSetTbl (sep : Nat) (K : Bytes → Prop) (t : Tbl) : Prop where
  wf : WF sep (fun x => ∃ k n, K k ∧ n ≤ maxON ∧ x = onKey sep k n) (16 ^ 32) t
  apart : ∀ k k', K k → K k' → ¬ (k ++ [sep]) <+: k'
  ne : ∀ k, K k → k ≠ []

/-- Numbered keys of top keys that are apart are apart as set keys. -/
theorem onKey_apart {sep : Nat} (hs : SepOk sep) {k k' : Bytes} (h : ¬ (k ++ [sep]) <+: k') {m n : Nat} (hm : m ≤ maxON) (hn : n ≤ maxON) :
    ¬ (onKey sep k m ++ [sep, 48]) <+: onKey sep k' n := by
  intro hp
  have h1 : (k ++ sep :: []) <+: k' ++ sep :: hex32 n := by
    refine List.IsPrefix.trans ?_ hp
    unfold onKey
    exact ⟨hex32 m ++ [sep, 48], by simp⟩
  rcases prefix_split (by simp) (sep_not_mem hs n) h1 with h2 | h2
  · subst h2
    have := hp.length_le
    have hl1 := hex32_length (n := m) (by have := maxON_lt; omega)
    have hl2 := hex32_length (n := n) (by have := maxON_lt; omega)
    unfold onKey at this
    simp [hl1, hl2] at this
  · exact h h2

theorem split2_eq {sep : Nat} (hs : SepOk sep) (k : Bytes) (n i : Nat) : split2 sep (suffix sep (onKey sep k n) i) = .ok (k, n) := by
  unfold split2
  rw [unsuffix_suffix hs]
  exact splitOnKey_onKey hs k n

/-- Shape of an entry. -/
theorem OnSetTbl.entry {sep : Nat} {K : Bytes → Prop} {t : Tbl} (h : OnSetTbl sep K t) {e : Entry} (he : e ∈ t) :
    ∃ k n i, K k ∧ n ≤ maxON ∧ i ≤ maxON ∧ e.1 = suffix sep (onKey sep k n) i := by
  obtain ⟨x, i, ⟨k, n, hk, hn, rfl⟩, hi, hx⟩ := h.wf.keys e he
  exact ⟨k, n, i, hk, hn, by have := maxON_succ; omega, hx⟩

theorem OnSetTbl.sublist {sep : Nat} {K : Bytes → Prop} {s t : Tbl} (h : OnSetTbl sep K t) (hs : s.Sublist t) : OnSetTbl sep K s :=
  ⟨h.wf.sublist hs, h.apart, h.ne⟩

/-- Two numbered entries of one key enclose no entry of another. -/
theorem no_gap2 {sep : Nat} (hs : SepOk sep) {K : Bytes → Prop} (hap : ∀ k k', K k → K k' → ¬ (k ++ [sep]) <+: k') {key k : Bytes}
    (hk : K key) (hk' : K k) {n i n1 i1 n2 i2 : Nat}
    (h1 : lexLt (suffix sep (onKey sep k n) i) (suffix sep (onKey sep key n1) i1) = false)
    (h2 : lexLt (suffix sep (onKey sep key n2) i2) (suffix sep (onKey sep k n) i) = false) : k = key := by
  have hp : ∀ m j, (key ++ sep :: []) <+: suffix sep (onKey sep key m) j := fun m j => ⟨hex32 m ++ sep :: hex32 j, by simp [suffix, onKey]⟩
  have := prefix_convex (hp n1 i1) (hp n2 i2) h1 h2
  rcases prefix_split (by simp) (sep_not_mem hs i) this with h3 | h3
  · refine absurd ?_ (hap _ _ hk' hk)
    exact ⟨hex32 n, by rw [h3]; simp [onKey]⟩
  · rcases prefix_split (by simp) (sep_not_mem hs n) h3 with h4 | h4
    · exact h4.symm
    · exact absurd h4 (hap _ _ hk hk')

/-- Item of an entry of `key`. -/
def item (sep : Nat) (key : Bytes) (e : Entry) : Option (Bytes × Nat × Bytes) :=
  match split2 sep e.1 with
  | .error _ => none
  | .ok (ck, con) => if ck = key then some (ck, con, e.2) else none

theorem item_eq {sep : Nat} (hs : SepOk sep) (key k : Bytes) (n i : Nat) (v : Bytes) :
    item sep key (suffix sep (onKey sep k n) i, v) = if k = key then some (k, n, v) else none := by
  unfold item; rw [split2_eq hs]

/-- A loop over entries in either direction, starting at an entry of the key or past all of them, yields the items of the key. -/
theorem iterLoop_all {sep : Nat} (hs : SepOk sep) {K : Bytes → Prop} {key : Bytes} (hne : key ≠ []) {l : List Entry}
    (hent : ∀ e ∈ l, ∃ k n i, K k ∧ e.1 = suffix sep (onKey sep k n) i)
    (hgap : ∀ a e b, l = a ++ e :: b → ∀ k n i, e.1 = suffix sep (onKey sep k n) i → k ≠ key → ∀ e' ∈ b, item sep key e' = none) :
    iterLoop sep key l = .ok (l.filterMap (item sep key)) := by
  induction l with
  | nil => rfl
  | cons e l ih =>
    obtain ⟨x, v⟩ := e
    obtain ⟨k, n, i, _, hx⟩ := hent (x, v) (by simp)
    simp only at hx; subst hx
    unfold iterLoop
    rw [split2_eq hs, List.filterMap_cons, item_eq hs]
    simp only
    by_cases hc : k = key
    · subst hc
      rw [if_neg (by simp), if_pos rfl, ih (fun e he => hent e (by simp [he])) (fun a e b hab => hgap ((suffix sep (onKey sep k n) i, v) :: a) e b (by rw [hab]; rfl))]
    · rw [if_pos ⟨hne, hc⟩, if_neg hc]
      simp only
      congr 1
      symm
      rw [List.filterMap_eq_nil_iff]
      exact hgap [] _ l rfl k n i rfl hc

/-- Forward iteration yields the items of the key from the number on. -/
theorem forward_eq {sep : Nat} (hs : SepOk sep) {K : Bytes → Prop} {t : Tbl} (h : OnSetTbl sep K t) {key : Bytes} (hk : K key) (on : Nat) :
    getOnAllIoSetItemIter sep t key on = .ok ((t.fro (suffix sep (onKey sep key on) 0)).filterMap (item sep key)) := by
  unfold getOnAllIoSetItemIter
  rw [if_neg (h.ne key hk)]
  have hsub : (t.fro (suffix sep (onKey sep key on) 0)).Sublist t := List.dropWhile_sublist _
  apply iterLoop_all hs (K := K) (h.ne key hk)
  · intro e he
    obtain ⟨k, n, i, hk, _, _, hx⟩ := h.entry (hsub.subset he)
    exact ⟨k, n, i, hk, hx⟩
  · rintro a ⟨x, v⟩ b hab k n i hx hc ⟨y, w⟩ he'
    simp only at hx; subst hx
    have hmem : (suffix sep (onKey sep k n) i, v) ∈ t.fro (suffix sep (onKey sep key on) 0) := by rw [hab]; simp
    have hmem' : (y, w) ∈ t := hsub.subset (by rw [hab]; simp [he'])
    obtain ⟨k', n', i', hk', _, _, hy⟩ := h.entry hmem'
    simp only at hy; subst hy
    have hKk : K k := by
      obtain ⟨k2, n2, i2, hk2, _, _, hx2⟩ := h.entry (hsub.subset hmem)
      have := onKey_inj hs hx2
      have := onKey_inj hs this.1
      rw [this.1]; exact hk2
    rw [item_eq hs]
    split
    · rename_i hq; subst hq
      exfalso
      have hsorted := (h.wf.sorted.sublist hsub)
      rw [hab] at hsorted
      have hlt := ((List.pairwise_append.1 hsorted).2.1 |> List.pairwise_cons.1).1 _ he'
      exact hc (no_gap2 hs h.apart hk hKk ((mem_fro h.wf.sorted).1 hmem).2 (lexLt_asymm hlt))
    · rfl

/-- Order of numbered set entries of one key. -/
theorem lexLt_num {sep : Nat} (key : Bytes) {m n i j : Nat} (hm : m ≤ maxON) (hn : n ≤ maxON) (hi : i ≤ maxON) (hj : j ≤ maxON) :
    lexLt (suffix sep (onKey sep key m) i) (suffix sep (onKey sep key n) j) = true ↔ m < n ∨ (m = n ∧ i < j) := by
  have hl := maxON_lt
  by_cases h : m = n
  · subst h
    have := lexLt_onKey (sep := sep) (onKey sep key m) (m := i) (n := j) (by omega) (by omega)
    rw [show lexLt (suffix sep (onKey sep key m) i) (suffix sep (onKey sep key m) j) = lexLt (onKey sep (onKey sep key m) i) (onKey sep (onKey sep key m) j) from rfl, this]
    omega
  · have h1 := lexLt_onKey (sep := sep) key (m := m) (n := n) (by omega) (by omega)
    have h2 := lexLt_onKey (sep := sep) key (m := n) (n := m) (by omega) (by omega)
    have hlen : (onKey sep key m).length = (onKey sep key n).length := by
      unfold onKey; simp [hex32_length (n := m) (by omega), hex32_length (n := n) (by omega)]
    unfold suffix
    by_cases hlt : m < n
    · have := (lexLt_append_len hlen (sep :: hex32 i) (sep :: hex32 j)).2 (.inl (h1.2 hlt))
      simp [this, hlt]
    · have hgt : n < m := by omega
      have := (lexLt_append_len hlen.symm (sep :: hex32 j) (sep :: hex32 i)).2 (.inl (h2.2 hgt))
      rw [lexLt_asymm this]; simp; omega

/-- Entries not past `s`. -/
def notPast (t : Tbl) (s : Bytes) : Tbl := t.filter (fun e => !lexLt s e.1)

/-- The cursor of a backward iteration is at the last entry not past the key, or one further. -/
theorem upto_eq {t : Tbl} (h : Sorted t) (s : Bytes) :
    t.upto s = (notPast t s).reverse ∨ ∃ e, e ∈ t ∧ lexLt s e.1 = true ∧ t.upto s = e :: (notPast t s).reverse := by
  have hsplit := before_fro t s
  have hbef : (t.before s).filter (fun e => !lexLt s e.1) = t.before s := by
    refine List.filter_eq_self.2 fun e he => ?_
    rw [lexLt_asymm ((mem_before h).1 he).2]; rfl
  have hn : notPast t s = t.before s ++ (t.fro s).filter (fun e => !lexLt s e.1) := by
    unfold notPast
    conv => lhs; rw [← hsplit]
    rw [List.filter_append, hbef]
  unfold Tbl.upto
  cases hf : t.fro s with
  | nil =>
    left
    rw [hf] at hsplit hn
    rw [hn]
    rw [List.append_nil] at hsplit
    simp [hsplit]
  | cons e r =>
    have hsorted := h.fro s
    rw [hf] at hsorted hn
    have he : e ∈ t ∧ lexLt e.1 s = false := (mem_fro h).1 (by rw [hf]; simp)
    have hr : r.filter (fun e => !lexLt s e.1) = [] := by
      refine List.filter_eq_nil_iff.2 fun x hx => ?_
      have h1 := hsorted.head x hx
      have : lexLt s x.1 = true := by
        rcases lexLt_total s e.1 with h2 | h2 | h2
        · exact lexLt_trans h2 h1
        · rw [h2]; exact h1
        · rw [he.2] at h2; exact absurd h2 (by simp)
      simp [this]
    simp only
    cases hq : lexLt s e.1 with
    | false =>
      left
      rw [hn, List.filter_cons_of_pos (by simp [hq]), hr]; simp
    | true =>
      right
      refine ⟨e, he.1, hq, ?_⟩
      rw [hn, List.filter_cons_of_neg (by simp [hq]), hr]; simp

/-- Items of the key up to a number, in forward order. -/
def itemsTo (sep : Nat) (key : Bytes) (on : Nat) (t : Tbl) : List (Bytes × Nat × Bytes) :=
  (notPast t (suffix sep (onKey sep key on) maxON)).filterMap (item sep key)

theorem itemsTo_eq {sep : Nat} (hs : SepOk sep) {K : Bytes → Prop} {t : Tbl} (h : OnSetTbl sep K t) {key : Bytes} {on : Nat} (ho : on ≤ maxON) :
    itemsTo sep key on t = (t.filterMap (item sep key)).filter (fun p => decide (p.2.1 ≤ on)) := by
  unfold itemsTo notPast
  rw [List.filterMap_filter, List.filter_filterMap]
  apply filterMap_congr'
  rintro ⟨x, v⟩ he
  obtain ⟨k, n, i, hk, hn, hi, hx⟩ := h.entry he
  simp only at hx; subst hx
  simp only [item_eq hs]
  by_cases hc : k = key
  · subst hc
    rw [if_pos rfl]
    have := lexLt_num (sep := sep) k (m := on) (n := n) (i := maxON) (j := i) ho hn (Nat.le_refl _) hi
    by_cases hno : on < n
    · rw [this.2 (.inl hno)]; simp [Option.filter]; omega
    · have : lexLt (suffix sep (onKey sep k on) maxON) (suffix sep (onKey sep k n) i) = false := by
        cases hq : lexLt (suffix sep (onKey sep k on) maxON) (suffix sep (onKey sep k n) i) with
        | false => rfl
        | true => have := this.1 hq; omega
      rw [this]; simp [Option.filter]; omega
  · rw [if_neg hc]; simp

theorem fro_items {sep : Nat} (hs : SepOk sep) {K : Bytes → Prop} {t : Tbl} (h : OnSetTbl sep K t) (key : Bytes) :
    (t.fro (suffix sep (onKey sep key 0) 0)).filterMap (item sep key) = t.filterMap (item sep key) := by
  have hsplit := before_fro t (suffix sep (onKey sep key 0) 0)
  conv => rhs; rw [← hsplit]
  rw [List.filterMap_append]
  have : (t.before (suffix sep (onKey sep key 0) 0)).filterMap (item sep key) = [] := by
    rw [List.filterMap_eq_nil_iff]
    rintro ⟨x, v⟩ he
    obtain ⟨he, hlt⟩ := (mem_before h.wf.sorted).1 he
    obtain ⟨k, n, i, hk, hn, hi, hx⟩ := h.entry he
    simp only at hx; subst hx
    rw [item_eq hs]
    split
    · rename_i hc; subst hc
      have := (lexLt_num (sep := sep) k (m := n) (n := 0) (i := i) (j := 0) hn (by omega) hi (by omega)).1 hlt
      omega
    · rfl
  rw [this]; rfl

/-- Positioning of a backward iteration. -/
theorem backFrom_eq {sep : Nat} (hs : SepOk sep) {K : Bytes → Prop} {t : Tbl} (h : OnSetTbl sep K t) {key : Bytes} (hk : K key) {on : Nat} (ho : on ≤ maxON) :
    (itemsTo sep key on t ≠ [] → backFrom sep t key on = .ok (some (notPast t (suffix sep (onKey sep key on) maxON)).reverse)) ∧
    (itemsTo sep key on t = [] → backFrom sep t key on = if (t.upto (suffix sep (onKey sep key on) maxON)).length ≤ 1 then .error .valueError else .ok none) := by
  have hP : ∀ e ∈ notPast t (suffix sep (onKey sep key on) maxON), e ∈ t ∧ lexLt (suffix sep (onKey sep key on) maxON) e.1 = false := by
    intro e he
    have := List.mem_filter.1 he
    exact ⟨this.1, by simpa using this.2⟩
  have hsortP : Sorted (notPast t (suffix sep (onKey sep key on) maxON)) := h.wf.sorted.filter _
  -- the last entry not past the key belongs to it as soon as any does
  have hhead : ∀ x v l, (notPast t (suffix sep (onKey sep key on) maxON)).reverse = (x, v) :: l →
      ∃ k n, split2 sep x = .ok (k, n) ∧ (k = key → n ≤ on) ∧ (k = key ↔ itemsTo sep key on t ≠ []) := by
    intro x v l hl
    have hmem : (x, v) ∈ notPast t (suffix sep (onKey sep key on) maxON) := by
      rw [← List.mem_reverse, hl]; simp
    obtain ⟨ht, hle⟩ := hP _ hmem
    obtain ⟨k, n, i, hkk, hn, hi, hx⟩ := h.entry ht
    simp only at hx; subst hx
    refine ⟨k, n, split2_eq hs k n i, ?_, ?_⟩
    · rintro rfl
      have := lexLt_num (sep := sep) k (m := on) (n := n) (i := maxON) (j := i) ho hn (Nat.le_refl _) hi
      rw [hle] at this
      have : ¬ (on < n) := fun hq => absurd (this.2 (.inl hq)) (by simp)
      omega
    · constructor
      · rintro rfl hq
        have : (k, n, v) ∈ itemsTo sep k on t := List.mem_filterMap.2 ⟨_, hmem, by rw [item_eq hs, if_pos rfl]⟩
        rw [hq] at this; simp at this
      · intro hq
        obtain ⟨p, hp⟩ := List.exists_mem_of_ne_nil _ hq
        obtain ⟨⟨y, w⟩, hy, hi2⟩ := List.mem_filterMap.1 hp
        obtain ⟨k', n', i', hk', _, _, hy'⟩ := h.entry (hP _ hy).1
        simp only at hy'; subst hy'
        rw [item_eq hs] at hi2
        split at hi2
        · rename_i hq; subst hq
          refine no_gap2 hs h.apart hk hkk (n1 := n') (i1 := i') (n2 := on) (i2 := maxON) ?_ hle
          have hrev : (notPast t (suffix sep (onKey sep k' on) maxON)) = l.reverse ++ [(suffix sep (onKey sep k n) i, v)] := by
            have := congrArg List.reverse hl
            simpa using this
          rw [hrev] at hy hsortP
          rcases List.mem_append.1 hy with hy | hy
          · exact lexLt_asymm ((List.pairwise_append.1 hsortP).2.2 _ hy (suffix sep (onKey sep k n) i, v) (by simp))
          · simp only [List.mem_singleton, Prod.mk.injEq] at hy
            rw [hy.1]; exact lexLt_irrefl _
        · simp at hi2
  have hmain : ∀ l, l = (notPast t (suffix sep (onKey sep key on) maxON)).reverse →
      (∀ r : Except Err (Option (List Entry)), r = (match l with
        | [] => .error .valueError
        | (x', _) :: _ => match split2 sep x' with
          | .error e => .error e
          | .ok (ck', _) => if ck' ≠ key then .ok none else .ok (some l)) →
        (itemsTo sep key on t ≠ [] → r = .ok (some l)) ∧ (itemsTo sep key on t = [] → r = if l.length = 0 then .error .valueError else .ok none)) := by
    intro l hl r hr
    subst hr
    cases hc : l with
    | nil =>
      refine ⟨fun hq => ?_, fun _ => rfl⟩
      exfalso
      apply hq
      unfold itemsTo
      have : notPast t (suffix sep (onKey sep key on) maxON) = [] := by
        have := congrArg List.reverse (hl.symm.trans hc)
        simpa using this
      rw [this]; rfl
    | cons e l' =>
      obtain ⟨x, v⟩ := e
      obtain ⟨k, n, h1, h2, h3⟩ := hhead x v l' (hl.symm.trans hc)
      simp only [h1]
      constructor
      · intro hq
        rw [if_neg (by simpa using h3.2 hq)]
      · intro hq
        rw [if_pos (fun hkk => (h3.1 hkk) hq)]
        simp
  rcases upto_eq h.wf.sorted (suffix sep (onKey sep key on) maxON) with hu | ⟨e, het, hgt, hu⟩
  · unfold backFrom
    rw [hu]
    generalize hl : (notPast t (suffix sep (onKey sep key on) maxON)).reverse = l
    cases l with
    | nil =>
      refine ⟨fun hq => ?_, fun _ => rfl⟩
      exfalso
      apply hq
      unfold itemsTo
      have : notPast t (suffix sep (onKey sep key on) maxON) = [] := by simpa using hl
      rw [this]; rfl
    | cons e l' =>
      obtain ⟨x, v⟩ := e
      obtain ⟨k, n, h1, h2, h3⟩ := hhead x v l' hl
      simp only [h1]
      constructor
      · intro hq
        have hkk := h3.2 hq
        rw [if_neg (by simp [hkk, h2 hkk])]
      · intro hq
        rw [if_pos (.inl (fun hkk => (h3.1 hkk) hq))]
        cases l' with
        | nil => simp
        | cons e' l'' =>
          obtain ⟨x', v'⟩ := e'
          have hmem : (x', v') ∈ notPast t (suffix sep (onKey sep key on) maxON) := by
            rw [← List.mem_reverse, hl]; simp
          obtain ⟨k', n', i', hk', _, _, hx'⟩ := h.entry (hP _ hmem).1
          simp only at hx'; subst hx'
          simp only [split2_eq hs]
          rw [if_pos]
          · simp
          · rintro rfl
            have : (k', n', v') ∈ itemsTo sep k' on t := List.mem_filterMap.2 ⟨_, hmem, by rw [item_eq hs, if_pos rfl]⟩
            rw [hq] at this; simp at this
  · unfold backFrom
    rw [hu]
    obtain ⟨x, v⟩ := e
    obtain ⟨k, n, i, hkk, hn, hi, hx⟩ := h.entry het
    simp only at hx; subst hx
    simp only [split2_eq hs]
    have hcond : k ≠ key ∨ ¬ n ≤ on := by
      by_cases hc : k = key
      · right; subst hc
        have := (lexLt_num (sep := sep) k (m := on) (n := n) (i := maxON) (j := i) ho hn (Nat.le_refl _) hi).1 hgt
        omega
      · exact .inl hc
    rw [if_pos hcond]
    obtain ⟨m1, m2⟩ := hmain _ rfl _ rfl
    refine ⟨m1, fun hq => ?_⟩
    refine (m2 hq).trans ?_
    simp

/-- The loop backwards. -/
theorem iterLoop_back {sep : Nat} (hs : SepOk sep) {K : Bytes → Prop} {t : Tbl} (h : OnSetTbl sep K t) {key : Bytes} (hk : K key) (on : Nat) :
    iterLoop sep key (notPast t (suffix sep (onKey sep key on) maxON)).reverse = .ok (itemsTo sep key on t).reverse := by
  have hP : ∀ e ∈ notPast t (suffix sep (onKey sep key on) maxON), e ∈ t ∧ lexLt (suffix sep (onKey sep key on) maxON) e.1 = false := by
    intro e he
    have := List.mem_filter.1 he
    exact ⟨this.1, by simpa using this.2⟩
  have hsortP : Sorted (notPast t (suffix sep (onKey sep key on) maxON)) := h.wf.sorted.filter _
  rw [iterLoop_all hs (K := K) (h.ne key hk)]
  · unfold itemsTo; rw [List.filterMap_reverse]
  · intro e he
    obtain ⟨k, n, i, hk, _, _, hx⟩ := h.entry (hP e (by simpa using he)).1
    exact ⟨k, n, i, hk, hx⟩
  · rintro a ⟨x, v⟩ b hab k n i hx hc ⟨y, w⟩ he'
    simp only at hx; subst hx
    have hrev : notPast t (suffix sep (onKey sep key on) maxON) = b.reverse ++ (suffix sep (onKey sep k n) i, v) :: a.reverse := by
      have := congrArg List.reverse hab
      simpa using this
    have hmem : (suffix sep (onKey sep k n) i, v) ∈ notPast t (suffix sep (onKey sep key on) maxON) := by rw [hrev]; simp
    have hmem' : (y, w) ∈ notPast t (suffix sep (onKey sep key on) maxON) := by rw [hrev]; simp [he']
    obtain ⟨k', n', i', hk', _, _, hy⟩ := h.entry (hP _ hmem').1
    simp only at hy; subst hy
    have hKk : K k := by
      obtain ⟨k2, n2, i2, hk2, _, _, hx2⟩ := h.entry (hP _ hmem).1
      have := onKey_inj hs hx2
      have := onKey_inj hs this.1
      rw [this.1]; exact hk2
    rw [item_eq hs]
    split
    · rename_i hq; subst hq
      exfalso
      rw [hrev] at hsortP
      have hlt := (List.pairwise_append.1 hsortP).2.2 _ (by simpa using he' : (suffix sep (onKey sep k' n') i', w) ∈ b.reverse) (suffix sep (onKey sep k n) i, v) (by simp)
      exact hc (no_gap2 hs h.apart hk hKk (lexLt_asymm hlt) (hP _ hmem).2)
    · rfl

/-- **C41 (partial).** Let `F` be what forward iteration of the key from 0 yields.  If it has an item numbered at most `on`,
iterating backwards from `on` (the greatest number when not given) yields exactly the items of `F` so numbered, in reverse; on
an empty sub-database it yields nothing.  If there is no such item it yields nothing or raises ValueError; missing from the
property is that it should never raise (`c41_missing_raises`). -/
theorem c41_back_partial {sep : Nat} (hs : SepOk sep) {K : Bytes → Prop} {t : Tbl} (h : OnSetTbl sep K t) {key : Bytes} (hk : K key)
    (on : Option Nat) (ho : on.getD maxON ≤ maxON) : ∃ F, getOnAllIoSetItemIter sep t key 0 = .ok F ∧
      let E := F.filter (fun p => decide (p.2.1 ≤ on.getD maxON))
      (E ≠ [] ∨ t = [] → getOnAllIoSetItemBackIter sep t key on = .ok E.reverse) ∧
      (E = [] → getOnAllIoSetItemBackIter sep t key on = .ok [] ∨ getOnAllIoSetItemBackIter sep t key on = .error .valueError) := by
  refine ⟨_, forward_eq hs h hk 0, ?_⟩
  rw [fro_items hs h key]
  obtain ⟨b1, b2⟩ := backFrom_eq hs h hk ho
  simp only
  rw [← itemsTo_eq hs h ho]
  unfold getOnAllIoSetItemBackIter
  constructor
  · rintro (hq | hq)
    · have ht : t ≠ [] := by rintro rfl; exact hq rfl
      rw [if_neg ht, if_neg (h.ne key hk), b1 hq]
      exact iterLoop_back hs h hk _
    · subst hq; rfl
  · intro hq
    by_cases ht : t = []
    · left; rw [if_pos ht]
    · rw [if_neg ht, if_neg (h.ne key hk), b2 hq]
      by_cases hl : (t.upto (suffix sep (onKey sep key (on.getD maxON)) maxON)).length ≤ 1
      · rw [if_pos hl]; right; rfl
      · rw [if_neg hl]; left; rfl

/-- Keep the first item of each run of equal numbers. -/
def firstOfRuns (lk : Bytes) (lo : Nat) : List (Bytes × Nat × Bytes) → List (Bytes × Nat × Bytes)
  | [] => []
  | (k, n, v) :: r => if k ≠ lk ∨ n ≠ lo then (k, n, v) :: firstOfRuns k n r else firstOfRuns lk lo r

theorem lastLoop_eq {sep : Nat} {key : Bytes} (l : List Entry) : ∀ (lk : Bytes) (lo : Nat),
    lastLoop sep key lk lo l = (iterLoop sep key l).map (firstOfRuns lk lo) := by
  induction l with
  | nil => intros; rfl
  | cons e l ih =>
    intro lk lo
    obtain ⟨x, v⟩ := e
    unfold lastLoop iterLoop
    cases split2 sep x with
    | error e => rfl
    | ok p =>
      obtain ⟨ck, con⟩ := p
      simp only
      split
      · rfl
      · rw [ih ck con, ih lk lo]
        cases iterLoop sep key l with
        | error e => simp [Except.map]
        | ok r =>
          simp only [Except.map, firstOfRuns]
          split <;> rfl

theorem lastStart_eq {sep : Nat} {key : Bytes} (l : List Entry) {k : Bytes} {n : Nat} {v : Bytes} {r : List (Bytes × Nat × Bytes)}
    (h : iterLoop sep key l = .ok ((k, n, v) :: r)) : lastStart sep key l = .ok ((k, n, v) :: firstOfRuns k n r) := by
  cases l with
  | nil => simp [iterLoop] at h
  | cons e l =>
    obtain ⟨x, w⟩ := e
    unfold iterLoop at h
    unfold lastStart
    cases hsp : split2 sep x with
    | error e => rw [hsp] at h; simp at h
    | ok p =>
      obtain ⟨ck, con⟩ := p
      rw [hsp] at h
      simp only [hsp] at h ⊢
      split at h
      · simp at h
      · rw [lastLoop_eq]
        cases hq : iterLoop sep key l with
        | error e => rw [hq] at h; simp at h
        | ok r' =>
          rw [hq] at h
          simp only [Except.ok.injEq, List.cons.injEq, Prod.mk.injEq] at h
          obtain ⟨⟨rfl, rfl, rfl⟩, rfl⟩ := h
          rfl

theorem firstOfRuns_spec {key : Bytes} (l : List (Bytes × Nat × Bytes)) : ∀ (lo : Nat), (∀ p ∈ l, p.1 = key ∧ p.2.1 ≤ lo) →
    l.Pairwise (fun a b => b.2.1 ≤ a.2.1) →
    (∀ p ∈ firstOfRuns key lo l, p.2.1 < lo) ∧ (firstOfRuns key lo l).Pairwise (fun a b => b.2.1 < a.2.1) ∧
    ∀ p, p ∈ firstOfRuns key lo l ↔ p.2.1 ≠ lo ∧ (l.filter (fun q => decide (q.2.1 = p.2.1))).head? = some p := by
  induction l with
  | nil => intro lo _ _; simp [firstOfRuns]
  | cons e l ih =>
    intro lo hle hp
    obtain ⟨k, n, v⟩ := e
    obtain ⟨rfl, hn⟩ := hle (k, n, v) (by simp)
    obtain ⟨hp1, hp2⟩ := List.pairwise_cons.1 hp
    simp only at hn
    unfold firstOfRuns
    by_cases hq : n = lo
    · subst hq
      rw [if_neg (by simp)]
      obtain ⟨i1, i2, i3⟩ := ih n (fun p hp => hle p (by simp [hp])) hp2
      refine ⟨i1, i2, fun p => ?_⟩
      rw [i3]
      constructor
      · rintro ⟨h1, h2⟩
        exact ⟨h1, by rw [List.filter_cons_of_neg (by simpa using Ne.symm h1)]; exact h2⟩
      · rintro ⟨h1, h2⟩
        exact ⟨h1, by rw [List.filter_cons_of_neg (by simpa using Ne.symm h1)] at h2; exact h2⟩
    · rw [if_pos (.inr hq)]
      obtain ⟨i1, i2, i3⟩ := ih n (fun p hp => ⟨(hle p (by simp [hp])).1, hp1 p hp⟩) hp2
      refine ⟨?_, List.pairwise_cons.2 ⟨i1, i2⟩, fun p => ?_⟩
      · intro p hp
        rcases List.mem_cons.1 hp with rfl | hp
        · simp only; omega
        · have := i1 p hp; omega
      · rw [List.mem_cons, i3]
        by_cases hpn : p.2.1 = n
        · rw [List.filter_cons_of_pos (by simp [hpn])]
          simp only [List.head?_cons, Option.some.injEq]
          constructor
          · rintro (h1 | h1)
            · exact ⟨by omega, h1.symm⟩
            · exact absurd hpn h1.1
          · rintro ⟨_, h1⟩; exact .inl h1.symm
        · rw [List.filter_cons_of_neg (by simpa using Ne.symm hpn)]
          constructor
          · rintro (h1 | h1)
            · subst h1; exact absurd rfl hpn
            · refine ⟨?_, h1.2⟩
              have hm := List.mem_of_mem_head? h1.2
              have := hp1 p ((List.mem_filter.1 hm).1)
              simp only at this; omega
          · rintro ⟨_, h1⟩; exact .inr ⟨hpn, h1⟩

/-- Numbers of the items of a key never decrease forward. -/
theorem items_sorted {sep : Nat} (hs : SepOk sep) {K : Bytes → Prop} {t : Tbl} (h : OnSetTbl sep K t) (key : Bytes) :
    (t.filterMap (item sep key)).Pairwise (fun a b => a.2.1 ≤ b.2.1) ∧ ∀ p ∈ t.filterMap (item sep key), p.1 = key := by
  constructor
  · rw [List.pairwise_filterMap]
    refine List.Pairwise.imp_of_mem ?_ h.wf.sorted
    rintro ⟨x, v⟩ ⟨y, w⟩ ha hb hlt p hp q hq
    obtain ⟨k, n, i, _, hn, hi, hx⟩ := h.entry ha
    obtain ⟨k', n', i', _, hn', hi', hy⟩ := h.entry hb
    simp only at hx hy; subst hx; subst hy
    rw [item_eq hs] at hp hq
    by_cases h1 : k = key
    rotate_left
    · rw [if_neg h1] at hp; exact absurd hp (by simp)
    by_cases h2 : k' = key
    rotate_left
    · rw [if_neg h2] at hq; exact absurd hq (by simp)
    rw [if_pos h1, Option.some.injEq] at hp
    rw [if_pos h2, Option.some.injEq] at hq
    subst h1; subst h2
    subst hp; subst hq
    have := (lexLt_num (sep := sep) _ hn hn' hi hi').1 hlt
    simp only; omega
  · intro p hp
    obtain ⟨⟨x, v⟩, he, hi⟩ := List.mem_filterMap.1 hp
    obtain ⟨k, n, i, _, _, _, hx⟩ := h.entry he
    simp only at hx; subst hx
    rw [item_eq hs] at hi
    split at hi
    · simp only [Option.some.injEq] at hi; rw [← hi]; assumption
    · simp at hi

/-- **C41 (last items), partial.** With `F` as above, if `F` has an item numbered at most `on`, iterating the last items backwards
yields, for every number up to `on` in use and in strictly decreasing order, the last item of that number.  Missing as above. -/
theorem c41_last_back_partial {sep : Nat} (hs : SepOk sep) {K : Bytes → Prop} {t : Tbl} (h : OnSetTbl sep K t) {key : Bytes} (hk : K key)
    (on : Option Nat) (ho : on.getD maxON ≤ maxON) : ∃ F, getOnAllIoSetItemIter sep t key 0 = .ok F ∧
      ((∃ p ∈ F, p.2.1 ≤ on.getD maxON) → ∃ M, getOnAllIoSetLastItemBackIter sep t key on = .ok M ∧
        M.Pairwise (fun a b => b.2.1 < a.2.1) ∧
        ∀ p, p ∈ M ↔ p.2.1 ≤ on.getD maxON ∧ (F.filter (fun q => decide (q.2.1 = p.2.1))).getLast? = some p) := by
  refine ⟨_, forward_eq hs h hk 0, ?_⟩
  rw [fro_items hs h key]
  rintro ⟨p0, hp0, hp0'⟩
  have hE := itemsTo_eq hs h (key := key) ho
  have hne : itemsTo sep key (on.getD maxON) t ≠ [] := by
    rw [hE]
    intro hq
    have : p0 ∈ (t.filterMap (item sep key)).filter (fun p => decide (p.2.1 ≤ on.getD maxON)) := List.mem_filter.2 ⟨hp0, by simpa using hp0'⟩
    rw [hq] at this; simp at this
  have hit := iterLoop_back hs h hk (on.getD maxON)
  have hrun : getOnAllIoSetLastItemBackIter sep t key on = lastStart sep key (notPast t (suffix sep (onKey sep key (on.getD maxON)) maxON)).reverse := by
    unfold getOnAllIoSetLastItemBackIter
    rw [if_neg (h.ne key hk), (backFrom_eq hs h hk ho).1 hne]
  obtain ⟨hs1, hs2⟩ := items_sorted hs h key
  generalize hR : (itemsTo sep key (on.getD maxON) t).reverse = R at hit
  cases R with
  | nil => exact absurd (by simpa using hR) hne
  | cons e r =>
    obtain ⟨k, n, v⟩ := e
    have hmemE : ∀ p ∈ (k, n, v) :: r, p ∈ t.filterMap (item sep key) ∧ p.2.1 ≤ on.getD maxON := by
      intro p hp
      rw [← hR, List.mem_reverse, hE, List.mem_filter] at hp
      exact ⟨hp.1, by simpa using hp.2⟩
    have hk1 : k = key := hs2 _ (hmemE (k, n, v) (by simp)).1
    subst hk1
    have hpr : ((k, n, v) :: r).Pairwise (fun a b => b.2.1 ≤ a.2.1) := by
      rw [← hR, List.pairwise_reverse, hE]
      exact hs1.filter _
    obtain ⟨hp1, hp2⟩ := List.pairwise_cons.1 hpr
    obtain ⟨f1, f2, f3⟩ := firstOfRuns_spec (key := k) r n (fun p hp => ⟨hs2 p (hmemE p (by simp [hp])).1, hp1 p hp⟩) hp2
    refine ⟨_, hrun.trans (lastStart_eq _ hit), List.pairwise_cons.2 ⟨f1, f2⟩, fun p => ?_⟩
    have hfilt : p.2.1 ≤ on.getD maxON → ((t.filterMap (item sep k)).filter (fun q => decide (q.2.1 = p.2.1))).getLast? =
        (((k, n, v) :: r).filter (fun q => decide (q.2.1 = p.2.1))).head? := by
      intro hpo
      rw [← hR, hE, ← List.filter_reverse, List.filter_filter, ← List.head?_reverse, ← List.filter_reverse]
      congr 1
      apply List.filter_congr
      intro q _
      by_cases hq : q.2.1 = p.2.1
      · simp [hq, hpo]
      · simp [hq]
    rw [List.mem_cons, f3]
    constructor
    · rintro (rfl | ⟨h1, h2⟩)
      · have := (hmemE (k, n, v) (by simp)).2
        refine ⟨this, ?_⟩
        rw [hfilt this, List.filter_cons_of_pos (by simp)]; rfl
      · have hm := (List.mem_filter.1 (List.mem_of_mem_head? h2)).1
        have := (hmemE p (by simp [hm])).2
        refine ⟨this, ?_⟩
        rw [hfilt this, List.filter_cons_of_neg (by simpa using Ne.symm h1)]; exact h2
    · rintro ⟨h1, h2⟩
      rw [hfilt h1] at h2
      by_cases hpn : p.2.1 = n
      · rw [List.filter_cons_of_pos (by simp [hpn])] at h2
        simp only [List.head?_cons, Option.some.injEq] at h2
        exact .inl h2.symm
      · rw [List.filter_cons_of_neg (by simpa using Ne.symm hpn)] at h2
        exact .inr ⟨hpn, h2⟩

/-- **C41 fails for missing keys.** On a sub-database with one entry, iterating another key backwards raises ValueError instead of
yielding nothing, whether the key would sort before or after it; the last-item form raises even on an empty sub-database. -/
theorem c41_missing_raises :
    (let t := (addOnIoSetVal 46 [] [66] 0 [1]).1
     getOnAllIoSetItemBackIter 46 t [65] none = .error .valueError ∧ getOnAllIoSetItemBackIter 46 t [67] none = .error .valueError) ∧
    getOnAllIoSetLastItemBackIter 46 [] [65] none = .error .valueError := by
  decide +kernel

/-- **C37 at numbered keys (partial).** The set functions at numbered keys are the set functions at the key joined with the number, and when no
top key is another one followed by the separator those joined keys are apart, so `c37_refines_partial` applies to them. -/
theorem c37_numbered {sep : Nat} (hs : SepOk sep) (os : List SetOp) (tops : List (Bytes × Nat)) (hops : ∀ o ∈ os, ∃ p ∈ tops, o.key = onKey sep p.1 p.2)
    (hn : ∀ p ∈ tops, p.2 ≤ maxON) (hap : ∀ p ∈ tops, ∀ q ∈ tops, ¬ (p.1 ++ [sep]) <+: q.1) :
    Apart37 sep os ∧ (∀ o ∈ os, o.key ≠ []) ∧ ∀ t key on vals val, key ≠ [] →
      putOnIoSetVals sep t key on vals = putIoSetVals sep t (onKey sep key on) vals ∧
      pinOnIoSetVals sep t key on vals = pinIoSetVals sep t (onKey sep key on) vals ∧
      addOnIoSetVal sep t key on val = addIoSetVal sep t (onKey sep key on) val := by
  refine ⟨?_, ?_, ?_⟩
  · intro o ho o' ho'
    obtain ⟨p, hp, h1⟩ := hops o ho
    obtain ⟨q, hq, h2⟩ := hops o' ho'
    rw [h1, h2]
    exact onKey_apart hs (hap p hp q hq) (hn p hp) (hn q hq)
  · intro o ho
    obtain ⟨p, hp, h1⟩ := hops o ho
    rw [h1]; simp [onKey]
  · intro t key on vals val hk
    unfold putOnIoSetVals pinOnIoSetVals addOnIoSetVal
    simp [hk]

namespace Demo41
def t : Tbl := ((addOnIoSetVal 46 (putOnIoSetVals 46 (putOnIoSetVals 46 [] [65] 0 [[1], [2]]).1 [65] 3 [[5], [4], [3]]).1 [66] 1 [9]).1)
def K : Bytes → Prop := fun k => k = [65] ∨ k = [66]
/-- A table with two keys and three sets meets the hypotheses. -/
theorem wf : OnSetTbl 46 K t := by
  refine ⟨⟨?_, ?_⟩, ?_, ?_⟩
  · unfold Sorted; decide +kernel
  · intro e he
    have : t = [(suffix 46 (onKey 46 [65] 0) 0, [1]), (suffix 46 (onKey 46 [65] 0) 1, [2]), (suffix 46 (onKey 46 [65] 3) 0, [5]),
      (suffix 46 (onKey 46 [65] 3) 1, [4]), (suffix 46 (onKey 46 [65] 3) 2, [3]), (suffix 46 (onKey 46 [66] 1) 0, [9])] := by decide +kernel
    rw [this] at he
    simp only [List.mem_cons, List.not_mem_nil, or_false] at he
    rcases he with rfl | rfl | rfl | rfl | rfl | rfl
    · exact ⟨_, 0, ⟨[65], 0, .inl rfl, by decide, rfl⟩, by decide, rfl⟩
    · exact ⟨_, 1, ⟨[65], 0, .inl rfl, by decide, rfl⟩, by decide, rfl⟩
    · exact ⟨_, 0, ⟨[65], 3, .inl rfl, by decide, rfl⟩, by decide, rfl⟩
    · exact ⟨_, 1, ⟨[65], 3, .inl rfl, by decide, rfl⟩, by decide, rfl⟩
    · exact ⟨_, 2, ⟨[65], 3, .inl rfl, by decide, rfl⟩, by decide, rfl⟩
    · exact ⟨_, 0, ⟨[66], 1, .inr rfl, by decide, rfl⟩, by decide, rfl⟩
  · rintro k k' (rfl | rfl) (rfl | rfl) <;> decide
  · rintro k (rfl | rfl) <;> simp
example : getOnAllIoSetItemBackIter 46 t [65] (some 2) = .ok [([65], 0, [2]), ([65], 0, [1])] := by decide +kernel
example : getOnAllIoSetLastItemBackIter 46 t [65] none = .ok [([65], 3, [3]), ([65], 0, [2])] := by decide +kernel
end Demo41

end Verif.Db
