import Verif.Db.PropsIoDup
import Verif.Db.PropsBack

/-!
# C41 for duplicates at numbered keys

The contents are seen through `getOnIoDupVals`.
-/

namespace Verif.Db

/-- Sub-database of insertion-ordered duplicates at numbered keys, none of whose keys is another one followed by the separator. -/
structure DOnTbl (sep : Nat) (K : Bytes → Prop) (t : DTbl) : Prop where
  sorted : PSorted t
  keys : ∀ e ∈ t, ∃ k n, K k ∧ n ≤ maxON ∧ e.1 = onKey sep k n
  apart : ∀ k k', K k → K k' → ¬ (k ++ [sep]) <+: k'
  ne : ∀ k, K k → k ≠ []

/-- Item of an entry of `key`. -/
def ditem (sep : Nat) (key : Bytes) (e : Bytes × Bytes) : Option (Bytes × Nat × Bytes) :=
  match splitOnKey sep e.1 with
  | .error _ => none
  | .ok (ck, on) => if ck = key then some (ck, on, e.2.drop 33) else none

theorem ditem_eq {sep : Nat} (hs : SepOk sep) (key k : Bytes) (n : Nat) (v : Bytes) :
    ditem sep key (onKey sep k n, v) = if k = key then some (k, n, v.drop 33) else none := by
  unfold ditem; rw [splitOnKey_onKey hs]

theorem dkey_le {t : DTbl} (h : PSorted t) : t.Pairwise (fun a b => lexLt b.1 a.1 = false) := by
  refine List.Pairwise.imp ?_ h
  intro a b hab
  unfold pairLt at hab
  simp only [Bool.or_eq_true, Bool.and_eq_true, decide_eq_true_eq] at hab
  rcases hab with hab | ⟨hab, _⟩
  · exact lexLt_asymm hab
  · rw [hab]; exact lexLt_irrefl _

theorem not_lt_trans {a b c : Bytes} (h1 : lexLt b a = false) (h2 : lexLt c b = false) : lexLt c a = false := by
  cases hq : lexLt c a with
  | false => rfl
  | true =>
    rcases lexLt_total b c with h | h | h
    · rw [lexLt_trans h hq] at h1; exact absurd h1 (by simp)
    · subst h; rw [hq] at h1; exact absurd h1 (by simp)
    · rw [h] at h2; exact absurd h2 (by simp)

theorem dtakeWhile {t : DTbl} (h : t.Pairwise (fun a b => lexLt b.1 a.1 = false)) (y : Bytes) :
    t.takeWhile (fun e => lexLt e.1 y) = t.filter (fun e => lexLt e.1 y) ∧ t.dropWhile (fun e => lexLt e.1 y) = t.filter (fun e => !lexLt e.1 y) := by
  induction t with
  | nil => exact ⟨rfl, rfl⟩
  | cons e t ih =>
    obtain ⟨h1, h2⟩ := List.pairwise_cons.1 h
    obtain ⟨i1, i2⟩ := ih h2
    cases hq : lexLt e.1 y with
    | true =>
      rw [List.takeWhile_cons_of_pos (by simpa using hq), List.dropWhile_cons_of_pos (by simpa using hq), List.filter_cons_of_pos (by simpa using hq),
        List.filter_cons_of_neg (by simp [hq]), i1, i2]
      exact ⟨rfl, rfl⟩
    | false =>
      have hall : ∀ x ∈ t, lexLt x.1 y = false := fun x hx => not_lt_trans hq (h1 x hx)
      rw [List.takeWhile_cons_of_neg (by simp [hq]), List.dropWhile_cons_of_neg (by simp [hq]), List.filter_cons_of_neg (by simp [hq]),
        List.filter_cons_of_pos (by simp [hq])]
      constructor
      · exact (List.filter_eq_nil_iff.2 fun x hx => by simp [hall x hx]).symm
      · congr 1
        exact (List.filter_eq_self.2 fun x hx => by simp [hall x hx]).symm

/-- A loop yields the items of the key if no entry of the key follows one of another key. -/
theorem dupBackLoop_all {sep : Nat} (hs : SepOk sep) {key : Bytes} (hne : key ≠ []) {l : List (Bytes × Bytes)}
    (hent : ∀ e ∈ l, ∃ k n, e.1 = onKey sep k n)
    (hgap : ∀ a e b, l = a ++ e :: b → ∀ k n, e.1 = onKey sep k n → k ≠ key → ∀ e' ∈ b, ditem sep key e' = none) :
    dupBackLoop sep key l = .ok (l.filterMap (ditem sep key)) := by
  induction l with
  | nil => rfl
  | cons e l ih =>
    obtain ⟨x, v⟩ := e
    obtain ⟨k, n, hx⟩ := hent (x, v) (by simp)
    simp only at hx; subst hx
    unfold dupBackLoop
    rw [splitOnKey_onKey hs, List.filterMap_cons, ditem_eq hs]
    simp only
    by_cases hc : k = key
    · subst hc
      rw [if_neg (by simp), if_pos rfl, ih (fun e he => hent e (by simp [he])) (fun a e b hab => hgap ((onKey sep k n, v) :: a) e b (by rw [hab]; rfl))]
    · rw [if_pos ⟨hne, hc⟩, if_neg hc]
      simp only
      congr 1
      symm
      rw [List.filterMap_eq_nil_iff]
      exact hgap [] _ l rfl k n rfl hc

theorem DOnTbl.no_gap {sep : Nat} (hs : SepOk sep) {K : Bytes → Prop} {t : DTbl} (h : DOnTbl sep K t) {key k : Bytes} (hk : K key) (hk' : K k) {n n1 n2 : Nat}
    (h1 : lexLt (onKey sep k n) (onKey sep key n1) = false) (h2 : lexLt (onKey sep key n2) (onKey sep k n) = false) : k = key := by
  have hp : ∀ m, (key ++ sep :: []) <+: onKey sep key m := fun m => ⟨hex32 m, by simp [onKey]⟩
  have := prefix_convex (hp n1) (hp n2) h1 h2
  rcases prefix_split (by simp) (sep_not_mem hs n) this with h3 | h3
  · exact h3.symm
  · exact absurd h3 (h.apart _ _ hk hk')

/-- What the sub-database holds under a key, in order of numbers. -/
theorem ditems_spec {sep : Nat} (hs : SepOk sep) {K : Bytes → Prop} {t : DTbl} (h : DOnTbl sep K t) {key : Bytes} (hk : K key) :
    (∀ p ∈ t.filterMap (ditem sep key), p.1 = key) ∧ (t.filterMap (ditem sep key)).Pairwise (fun a b => a.2.1 ≤ b.2.1) ∧
    ∀ n, ((t.filterMap (ditem sep key)).filter (fun p => decide (p.2.1 = n))).map (·.2.2) = getOnIoDupVals sep t key n := by
  refine ⟨?_, ?_, ?_⟩
  · intro p hp
    obtain ⟨⟨x, v⟩, he, hi⟩ := List.mem_filterMap.1 hp
    obtain ⟨k, n, _, _, hx⟩ := h.keys _ he
    simp only at hx; subst hx
    rw [ditem_eq hs] at hi
    split at hi <;> simp at hi
    rw [← hi]; assumption
  · refine List.Pairwise.filterMap _ (R := fun a b => lexLt b.1 a.1 = false ∧ a ∈ t ∧ b ∈ t) ?_ ?_
    · rintro ⟨x, v⟩ ⟨y, w⟩ ⟨hlt, hx, hy⟩ p hp q hq
      obtain ⟨k, n, _, hn, e1⟩ := h.keys _ hx
      obtain ⟨k', n', _, hn', e2⟩ := h.keys _ hy
      simp only at e1 e2 hlt; subst e1; subst e2
      simp only [ditem_eq hs] at hp hq
      split at hp <;> simp at hp
      split at hq <;> simp at hq
      rename_i e1 e2
      subst e1; subst e2; subst hp; subst hq
      have := lexLt_onKey (sep := sep) k' (m := n') (n := n) (by have := maxON_lt; omega) (by have := maxON_lt; omega)
      simp only
      by_cases hq : n' < n
      · rw [this.2 hq] at hlt; exact absurd hlt (by simp)
      · omega
    · exact List.Pairwise.imp_of_mem (fun ha hb hr => ⟨hr, ha, hb⟩) (dkey_le h.sorted)
  · intro n
    unfold getOnIoDupVals DTbl.dups
    rw [if_neg (h.ne key hk), List.map_map, List.filter_filterMap, List.map_filterMap]
    rw [← List.filterMap_eq_map, List.filterMap_filter]
    apply filterMap_congr'
    rintro ⟨x, v⟩ he
    obtain ⟨k, m, _, _, hx⟩ := h.keys _ he
    simp only at hx; subst hx
    simp only [ditem_eq hs, decide_eq_true_eq]
    by_cases hc : k = key
    · subst hc
      rw [if_pos rfl]
      by_cases hm : m = n
      · subst hm; simp [Option.filter]
      · have : onKey sep k m ≠ onKey sep k n := fun hq => hm (onKey_inj hs hq).2
        simp [Option.filter, hm, this]
    · have : onKey sep k m ≠ onKey sep key n := fun hq => hc (onKey_inj hs hq).1
      simp [hc, this]

/-- **C41 (duplicates, partial).** There is a list `F` of all items of the key, in order of numbers and holding for each number exactly the
values read there, such that iterating backwards from a number in use, or from one above all in use, yields exactly the items
of `F` numbered at most that, in reverse.  Missing: other numbers, where the iteration starts at the next larger number in use
(`c41_dup_starts_above`). -/
theorem c41_dup_back_partial {sep : Nat} (hs : SepOk sep) {K : Bytes → Prop} {t : DTbl} (h : DOnTbl sep K t) {key : Bytes} (hk : K key) :
    ∃ F : List (Bytes × Nat × Bytes), (∀ p ∈ F, p.1 = key) ∧ F.Pairwise (fun a b => a.2.1 ≤ b.2.1) ∧
      (∀ n, (F.filter (fun p => decide (p.2.1 = n))).map (·.2.2) = getOnIoDupVals sep t key n) ∧
      ∀ on, on ≤ maxON → ((getOnIoDupVals sep t key on ≠ []) ∨ ∀ p ∈ F, p.2.1 ≤ on) →
        getOnIoDupItemBackIter sep t key on = .ok (F.filter (fun p => decide (p.2.1 ≤ on))).reverse := by
  obtain ⟨s1, s2, s3⟩ := ditems_spec hs h hk
  refine ⟨t.filterMap (ditem sep key), s1, s2, s3, ?_⟩
  intro on ho huse
  have hle := dkey_le h.sorted
  have hmx := maxON_lt
  -- the loop over the entries up to the number
  have hloop : dupBackLoop sep key (t.filter (fun e => !lexLt (onKey sep key on) e.1)).reverse =
      .ok ((t.filterMap (ditem sep key)).filter (fun p => decide (p.2.1 ≤ on))).reverse := by
    rw [dupBackLoop_all hs (h.ne key hk)]
    · rw [List.filterMap_reverse]
      congr 2
      rw [List.filterMap_filter, List.filter_filterMap]
      apply filterMap_congr'
      rintro ⟨x, v⟩ he
      obtain ⟨k, n, _, hn, hx⟩ := h.keys _ he
      simp only at hx; subst hx
      simp only [ditem_eq hs]
      by_cases hc : k = key
      · subst hc
        rw [if_pos rfl]
        have := lexLt_onKey (sep := sep) k (m := on) (n := n) (by omega) (by omega)
        by_cases hno : on < n
        · rw [this.2 hno]; simp [Option.filter]; omega
        · have : lexLt (onKey sep k on) (onKey sep k n) = false := by
            cases hq : lexLt (onKey sep k on) (onKey sep k n) with
            | false => rfl
            | true => exact absurd (this.1 hq) hno
          rw [this]; simp [Option.filter]; omega
      · rw [if_neg hc]; simp
    · intro e he
      obtain ⟨k, n, _, _, hx⟩ := h.keys e (List.mem_filter.1 (List.mem_reverse.1 he)).1
      exact ⟨k, n, hx⟩
    · rintro a ⟨x, v⟩ b hab k n hx hc ⟨y, w⟩ he'
      simp only at hx; subst hx
      have hrev : t.filter (fun e => !lexLt (onKey sep key on) e.1) = b.reverse ++ (onKey sep k n, v) :: a.reverse := by
        have := congrArg List.reverse hab
        simpa using this
      have hmem := List.mem_filter.1 (by rw [hrev]; simp : (onKey sep k n, v) ∈ t.filter (fun e => !lexLt (onKey sep key on) e.1))
      have hmem' := List.mem_filter.1 (by rw [hrev]; simp [he'] : (y, w) ∈ t.filter (fun e => !lexLt (onKey sep key on) e.1))
      obtain ⟨k', n', _, _, hy⟩ := h.keys _ hmem'.1
      simp only at hy; subst hy
      obtain ⟨k2, n2, hk2, _, hx2⟩ := h.keys _ hmem.1
      have hkk := (onKey_inj hs hx2).1
      rw [ditem_eq hs]
      split
      · rename_i hq; subst hq
        exfalso
        have hl := hle.filter (fun e => !lexLt (onKey sep k' on) e.1)
        rw [hrev] at hl
        have h1 := (List.pairwise_append.1 hl).2.2 (onKey sep k' n', w) (by simpa using he') (onKey sep k n, v) (by simp)
        exact hc (h.no_gap hs hk (hkk ▸ hk2) h1 (by simpa using hmem.2))
      · rfl
  obtain ⟨w1, w2⟩ := dtakeWhile hle (onKey sep key on)
  unfold getOnIoDupItemBackIter
  by_cases ht : t = []
  · subst ht; rfl
  · rw [if_neg ht, if_neg (h.ne key hk)]
    cases hf : t.dropWhile (fun e => lexLt e.1 (onKey sep key on)) with
    | nil =>
      simp only
      rw [← hloop]
      congr 2
      refine (List.filter_eq_self.2 fun e he => ?_).symm
      rw [w2] at hf
      have := List.filter_eq_nil_iff.1 hf e he
      rw [lexLt_asymm (by simpa using this)]; rfl
    | cons e r =>
      obtain ⟨x, v⟩ := e
      have hm : (x, v) ∈ t ∧ lexLt x (onKey sep key on) = false := by
        have : (x, v) ∈ t.filter (fun e => !lexLt e.1 (onKey sep key on)) := by rw [← w2, hf]; simp
        simpa using List.mem_filter.1 this
      obtain ⟨k, n, hkk, hn, hx⟩ := h.keys _ hm.1
      simp only at hx; subst hx
      simp only [splitOnKey_onKey hs]
      -- an entry at the number itself would be first
      have hfirst : ∀ w, (onKey sep key on, w) ∈ t → onKey sep k n = onKey sep key on := by
        intro w hw
        have hl : ((onKey sep k n, v) :: r).Pairwise (fun a b => lexLt b.1 a.1 = false) := by rw [← hf]; exact hle.sublist (List.dropWhile_sublist _)
        have hw' : (onKey sep key on, w) ∈ (onKey sep k n, v) :: r := by
          rw [← hf, w2]; exact List.mem_filter.2 ⟨hw, by simp [lexLt_irrefl]⟩
        rcases List.mem_cons.1 hw' with hq | hq
        · exact (Prod.mk.inj hq).1.symm
        · have := (List.pairwise_cons.1 hl).1 _ hq
          rcases lexLt_total (onKey sep k n) (onKey sep key on) with h1 | h1 | h1
          · rw [h1] at hm; simp at hm
          · exact h1
          · simp only at this; rw [h1] at this; exact absurd this (by simp)
      by_cases hc : k = key
      · rw [if_pos hc]
        subst hc
        have hxo : onKey sep k n = onKey sep k on := by
          rcases huse with hu | hu
          · obtain ⟨w, hw⟩ := List.exists_mem_of_ne_nil _ hu
            unfold getOnIoDupVals at hw
            rw [if_neg (h.ne k hk)] at hw
            obtain ⟨z, hz, _⟩ := List.mem_map.1 hw
            exact hfirst z (mem_dups.1 hz)
          · have h1 : n ≤ on := hu (k, n, v.drop 33) (List.mem_filterMap.2 ⟨_, hm.1, by rw [ditem_eq hs, if_pos rfl]⟩)
            have h2 := lexLt_onKey (sep := sep) k (m := n) (n := on) (by omega) (by omega)
            have : ¬ n < on := fun hq => by rw [h2.2 hq] at hm; simp at hm
            rw [show n = on by omega]
        rw [← hloop]
        congr 2
        apply List.filter_congr
        intro e _
        rw [hxo]
        rcases lexLt_total e.1 (onKey sep k on) with h1 | h1 | h1
        · simp [h1, lexLt_asymm h1]
        · simp [h1, lexLt_irrefl]
        · have : e.1 ≠ onKey sep k on := by intro hq; rw [hq, lexLt_irrefl] at h1; exact absurd h1 (by simp)
          simp [h1, lexLt_asymm h1, this]
      · rw [if_neg hc, w1, ← hloop]
        congr 2
        apply List.filter_congr
        intro e he
        rcases lexLt_total e.1 (onKey sep key on) with h1 | h1 | h1
        · simp [h1, lexLt_asymm h1]
        · have := hfirst e.2 (by rw [← h1]; exact he)
          exact absurd (onKey_inj hs this).1 hc
        · simp [h1, lexLt_asymm h1]

/-- Last value of every number from `m` on. -/
theorem lastFwd_spec {K : Bytes → Prop} {t : DTbl} (h : DOnTbl 46 K t) {key : Bytes} (hk : K key)
    (hmax : getOnIoDupVals 46 t key maxON = []) (f : Nat) : ∀ m, m ≤ maxON → (t.dropWhile (fun e => lexLt e.1 (onKey 46 key m))).length < f →
    ∃ G, lastFwd 46 t key f (t.dropWhile (fun e => lexLt e.1 (onKey 46 key m))) = some (.ok G) ∧
      (∀ p ∈ G, p.1 = key ∧ m ≤ p.2.1) ∧ G.Pairwise (fun a b => a.2.1 < b.2.1) ∧
      ∀ n v, (key, n, v) ∈ G ↔ m ≤ n ∧ (getOnIoDupVals 46 t key n).getLast? = some v := by
  have hs : SepOk 46 := by unfold SepOk; decide
  have hne := h.ne key hk
  have hle := dkey_le h.sorted
  have hmx := maxON_lt
  have hget : ∀ n, getOnIoDupVals 46 t key n = (t.dups (onKey 46 key n)).map (·.drop 33) := by
    intro n; unfold getOnIoDupVals; rw [if_neg hne]
  induction f with
  | zero => intro m _ hl; omega
  | succ f ih =>
    intro m hm hl
    obtain ⟨_, w2⟩ := dtakeWhile hle (onKey 46 key m)
    -- values at a number from m on come from entries left
    have hleft : ∀ n v, m ≤ n → (getOnIoDupVals 46 t key n).getLast? = some v → n ≤ maxON ∧ ∃ w, (onKey 46 key n, w) ∈ t.dropWhile (fun e => lexLt e.1 (onKey 46 key m)) := by
      intro n v hmn hq
      have := List.mem_of_getLast? hq
      rw [hget] at this
      obtain ⟨w, hw, _⟩ := List.mem_map.1 this
      have hwt := mem_dups.1 hw
      obtain ⟨k', n', _, hn', hx'⟩ := h.keys _ hwt
      obtain ⟨_, rfl⟩ := onKey_inj hs hx'
      refine ⟨hn', w, ?_⟩
      rw [w2]
      refine List.mem_filter.2 ⟨hwt, ?_⟩
      have := lexLt_onKey (sep := 46) key (m := n) (n := m) (by omega) (by omega)
      cases hq : lexLt (onKey 46 key n) (onKey 46 key m) with
      | false => rfl
      | true => have := this.1 hq; omega
    cases hf : t.dropWhile (fun e => lexLt e.1 (onKey 46 key m)) with
    | nil =>
      refine ⟨[], rfl, by simp, by simp, fun n v => ?_⟩
      simp only [List.not_mem_nil, false_iff]
      rintro ⟨h1, h2⟩
      obtain ⟨_, w, hw⟩ := hleft n v h1 h2
      rw [hf] at hw; simp at hw
    | cons e r =>
      obtain ⟨x, v0⟩ := e
      have hm0 : (x, v0) ∈ t ∧ lexLt x (onKey 46 key m) = false := by
        have : (x, v0) ∈ t.filter (fun e => !lexLt e.1 (onKey 46 key m)) := by rw [← w2, hf]; simp
        simpa using List.mem_filter.1 this
      have hlr : ((x, v0) :: r).Pairwise (fun a b => lexLt b.1 a.1 = false) := by rw [← hf]; exact hle.sublist (List.dropWhile_sublist _)
      obtain ⟨k, n, hkk, hn, hx⟩ := h.keys _ hm0.1
      simp only at hx; subst hx
      unfold lastFwd
      rw [splitOnKey_onKey hs]
      simp only
      by_cases hc : k = key
      · subst hc
        rw [if_neg (by simp)]
        have hmn : m ≤ n := by
          have := lexLt_onKey (sep := 46) k (m := n) (n := m) (by omega) (by omega)
          have : ¬ n < m := fun hq => by rw [this.2 hq] at hm0; simp at hm0
          omega
        -- n is the smallest number left
        have hmin : ∀ n' v, m ≤ n' → (getOnIoDupVals 46 t k n').getLast? = some v → n ≤ n' := by
          intro n' v h1 h2
          obtain ⟨hn', w, hw⟩ := hleft n' v h1 h2
          rw [hf] at hw
          rcases List.mem_cons.1 hw with hq | hq
          · have := (onKey_inj hs (Prod.mk.inj hq).1).2; omega
          · have h3 := (List.pairwise_cons.1 hlr).1 _ hq
            have := lexLt_onKey (sep := 46) k (m := n') (n := n) (by omega) (by omega)
            have : ¬ n' < n := fun hq => by simp only at h3; rw [this.2 hq] at h3; exact absurd h3 (by simp)
            omega
        have hd : v0 ∈ t.dups (onKey 46 k n) := mem_dups.2 hm0.1
        obtain ⟨w, hw⟩ : ∃ w, (t.dups (onKey 46 k n)).getLast? = some w := by
          cases hq : (t.dups (onKey 46 k n)).getLast? with
          | some w => exact ⟨w, rfl⟩
          | none => rw [List.getLast?_eq_none_iff.1 hq] at hd; simp at hd
        have hnm : n ≠ maxON := by
          intro hq; subst hq
          rw [hget] at hmax
          rw [List.map_eq_nil_iff.1 hmax] at hd; simp at hd
        have hn1 : n + 1 ≤ maxON := by omega
        have hshort : (t.dropWhile (fun e => lexLt e.1 (onKey 46 k (n + 1)))).length < f := by
          obtain ⟨_, w3⟩ := dtakeWhile hle (onKey 46 k (n + 1))
          rw [w2] at hf
          have h1 := List.length_filter_le (fun e => !lexLt e.1 (onKey 46 k (n + 1))) ((onKey 46 k n, v0) :: r)
          have hsub : t.filter (fun e => !lexLt e.1 (onKey 46 k (n + 1))) = r.filter (fun e => !lexLt e.1 (onKey 46 k (n + 1))) := by
            have hx : lexLt (onKey 46 k n) (onKey 46 k (n + 1)) = true := (lexLt_onKey (sep := 46) k (by omega) (by omega)).2 (by omega)
            have : t.filter (fun e => !lexLt e.1 (onKey 46 k (n + 1))) = (t.filter (fun e => !lexLt e.1 (onKey 46 k m))).filter (fun e => !lexLt e.1 (onKey 46 k (n + 1))) := by
              rw [List.filter_filter]
              apply List.filter_congr
              intro e _
              have hx2 : lexLt (onKey 46 k (n + 1)) (onKey 46 k m) = false := by
                cases hq : lexLt (onKey 46 k (n + 1)) (onKey 46 k m) with
                | false => rfl
                | true => have := (lexLt_onKey (sep := 46) k (by omega) (by omega)).1 hq; omega
              cases hq : lexLt e.1 (onKey 46 k (n + 1)) with
              | true => simp
              | false => rw [not_lt_trans hx2 hq]; simp
            rw [this, hf, List.filter_cons_of_neg (by simp [hx])]
          rw [w3, hsub]
          have h2 := List.length_filter_le (fun e => !lexLt e.1 (onKey 46 k (n + 1))) r
          rw [w2, hf] at hl
          simp only [List.length_cons] at hl
          omega
        obtain ⟨G, g1, g2, g3, g4⟩ := ih (n + 1) hn1 hshort
        rw [g1]
        refine ⟨(k, n, w.drop 33) :: G, by rw [hw]; rfl, ?_, ?_, ?_⟩
        · intro p hp
          rcases List.mem_cons.1 hp with rfl | hp
          · exact ⟨rfl, hmn⟩
          · have := g2 p hp; exact ⟨this.1, by omega⟩
        · refine List.pairwise_cons.2 ⟨fun p hp => ?_, g3⟩
          have := g2 p hp; simp only; omega
        · intro n' v
          rw [List.mem_cons, g4]
          have hgl : (getOnIoDupVals 46 t k n).getLast? = some (w.drop 33) := by rw [hget, List.getLast?_map, hw]; rfl
          constructor
          · rintro (hq | ⟨h1, h2⟩)
            · simp only [Prod.mk.injEq, true_and] at hq
              obtain ⟨rfl, rfl⟩ := hq
              exact ⟨hmn, hgl⟩
            · exact ⟨by omega, h2⟩
          · rintro ⟨h1, h2⟩
            by_cases hq : n' = n
            · subst hq
              rw [hgl] at h2
              left; simpa using h2.symm
            · right
              have := hmin n' v h1 h2
              exact ⟨by omega, h2⟩
      · rw [if_pos ⟨hne, hc⟩]
        refine ⟨[], rfl, by simp, by simp, fun n' v => ?_⟩
        simp only [List.not_mem_nil, false_iff]
        rintro ⟨h1, h2⟩
        obtain ⟨_, w, hw⟩ := hleft n' v h1 h2
        rw [hf] at hw
        rcases List.mem_cons.1 hw with hq | hq
        · exact hc (onKey_inj hs (Prod.mk.inj hq).1).1.symm
        · have h3 := (List.pairwise_cons.1 hlr).1 _ hq
          exact hc (h.no_gap hs hk hkk hm0.2 h3)

/-- **C41 (last values, forward).** With the default separator, for a key that does not use the number MaxON, the forward iteration over last
duplicates ends, does not raise, and yields exactly the last value of every number in use from `on`, in order of numbers. -/
theorem c41_last_forward {K : Bytes → Prop} {t : DTbl} (h : DOnTbl 46 K t) {key : Bytes} (hk : K key)
    (hmax : getOnIoDupVals 46 t key maxON = []) {on : Nat} (ho : on ≤ maxON) :
    ∃ G, getOnIoDupLastItemIter 46 t key on = some (.ok G) ∧ (∀ p ∈ G, p.1 = key) ∧ G.Pairwise (fun a b => a.2.1 < b.2.1) ∧
      ∀ n v, (key, n, v) ∈ G ↔ on ≤ n ∧ (getOnIoDupVals 46 t key n).getLast? = some v := by
  unfold getOnIoDupLastItemIter
  rw [if_neg (h.ne key hk)]
  obtain ⟨G, g1, g2, g3, g4⟩ := lastFwd_spec h hk hmax (t.length + 1) on ho (by
    have := (List.dropWhile_sublist (l := t) (fun e => lexLt e.1 (onKey 46 key on))).length_le; omega)
  exact ⟨G, g1, fun p hp => (g2 p hp).1, g3, g4⟩

/-- **C41 fails with another separator.** The forward iteration over last duplicates with separator `_` does not end: having yielded the item at
number 0 it looks for the next one with the default separator and finds number 0 again, however many rounds it is given. -/
theorem c41_last_forward_sep :
    (let t := (addOnIoDupVal 95 [] [65] 0 [1]).1
     t.dropWhile (fun e => lexLt e.1 (onKey 46 [65] (0 + 1))) = t.dropWhile (fun e => lexLt e.1 (onKey 95 [65] 0))) ∧
    ∀ f, lastFwd 95 (addOnIoDupVal 95 [] [65] 0 [1]).1 [65] f (addOnIoDupVal 95 [] [65] 0 [1]).1 = none := by
  have ht : (addOnIoDupVal 95 [] [65] 0 [1]).1 = [(onKey 95 [65] 0, proem 0 [1])] := by decide +kernel
  refine ⟨by decide +kernel, ?_⟩
  intro f
  rw [ht]
  induction f with
  | zero => rfl
  | succ f ih =>
    unfold lastFwd
    rw [splitOnKey_onKey (by unfold SepOk; decide)]
    have hd : [(onKey 95 [65] 0, proem 0 [1])].dropWhile (fun e => lexLt e.1 (onKey 46 [65] (0 + 1))) = [(onKey 95 [65] 0, proem 0 [1])] := by decide +kernel
    simp only [ne_eq, not_true_eq_false, and_false, if_false]
    rw [hd, ih]

namespace Demo41d
def t : DTbl := (addOnIoDupVal 46 (addOnIoDupVal 46 (addOnIoDupVal 46 (addOnIoDupVal 46 [] [65] 0 [1]).1 [65] 3 [5]).1 [65] 3 [4]).1 [66] 1 [9]).1
def K : Bytes → Prop := fun k => k = [65] ∨ k = [66]
/-- A table with two keys meets the hypotheses. -/
theorem wf : DOnTbl 46 K t := by
  have ht : t = [(onKey 46 [65] 0, proem 0 [1]), (onKey 46 [65] 3, proem 0 [5]), (onKey 46 [65] 3, proem 1 [4]), (onKey 46 [66] 1, proem 0 [9])] := by decide +kernel
  refine ⟨by unfold PSorted; decide +kernel, ?_, ?_, ?_⟩
  · intro e he
    rw [ht] at he
    simp only [List.mem_cons, List.not_mem_nil, or_false] at he
    rcases he with rfl | rfl | rfl | rfl
    · exact ⟨[65], 0, .inl rfl, by decide, rfl⟩
    · exact ⟨[65], 3, .inl rfl, by decide, rfl⟩
    · exact ⟨[65], 3, .inl rfl, by decide, rfl⟩
    · exact ⟨[66], 1, .inr rfl, by decide, rfl⟩
  · rintro k k' (rfl | rfl) (rfl | rfl) <;> decide
  · rintro k (rfl | rfl) <;> simp
example : K [65] ∧ getOnIoDupVals 46 t [65] maxON = [] ∧ getOnIoDupVals 46 t [65] 3 ≠ [] := ⟨.inl rfl, by decide +kernel, by decide +kernel⟩
example : getOnIoDupItemBackIter 46 t [65] 3 = .ok [([65], 3, [4]), ([65], 3, [5]), ([65], 0, [1])] := by decide +kernel
example : getOnIoDupLastItemIter 46 t [65] 0 = some (.ok [([65], 0, [1]), ([65], 3, [4])]) := by decide +kernel
end Demo41d

end Verif.Db
