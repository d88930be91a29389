import Verif.Db.RemOnIoSet
import Verif.Db.PropsMap

/-! # C240: removing sets from a number on -/

namespace Verif.Db

theorem remLoop2_eq {sep : Nat} (hs : SepOk sep) (key : Bytes) {l : List Entry} (hent : ∀ e ∈ l, ∃ k n i, e.1 = suffix sep (onKey sep k n) i) :
    remLoop2 sep key l = .ok (l.dropWhile (fun e => (item sep key e).isSome), !(l.takeWhile (fun e => (item sep key e).isSome)).isEmpty) := by
  induction l with
  | nil => rfl
  | cons e l ih =>
    obtain ⟨x, v⟩ := e
    obtain ⟨k, n, i, hx⟩ := hent (x, v) (by simp)
    simp only at hx; subst hx
    have ih := ih fun e he => hent e (by simp [he])
    unfold remLoop2
    rw [split2_eq hs, List.dropWhile_cons, List.takeWhile_cons, item_eq hs]
    dsimp only
    by_cases hc : k = key
    · rw [if_neg (by simpa using hc), if_pos hc, ih]
      simp
    · rw [if_pos hc, if_neg hc]
      simp

/-- Entries of a key are below a number just if their number is. -/
theorem lexLt_below {sep : Nat} (key : Bytes) {n on : Nat} (i : Nat) (hn : n ≤ maxON) (ho : on ≤ maxON) :
    lexLt (suffix sep (onKey sep key n) i) (onKey sep key on) = true ↔ n < on := by
  have hl := maxON_lt
  have hlen : (onKey sep key n).length = (onKey sep key on).length := by
    unfold onKey; simp [hex32_length (n := n) (by omega), hex32_length (n := on) (by omega)]
  have h1 := lexLt_append_len hlen (sep :: hex32 i) []
  rw [List.append_nil, not_lexLt_nil] at h1
  rw [show suffix sep (onKey sep key n) i = onKey sep key n ++ sep :: hex32 i from rfl, h1, lexLt_onKey (sep := sep) key (m := n) (n := on) (by omega) (by omega)]
  simp

/-- From a numbered key on, entries of the key come first. -/
theorem rest_other {sep : Nat} (hs : SepOk sep) {K : Bytes → Prop} {t : Tbl} (h : OnSetTbl sep K t) {key : Bytes} (hk : K key) (on : Nat) :
    ∀ e ∈ (t.fro (onKey sep key on)).dropWhile (fun e => (item sep key e).isSome), item sep key e = none := by
  have hsub : (t.fro (onKey sep key on)).Sublist t := List.dropWhile_sublist _
  have hso := (h.wf.sorted.fro (onKey sep key on)).sublist (List.dropWhile_sublist (fun e => (item sep key e).isSome))
  have hmem : ∀ e ∈ (t.fro (onKey sep key on)).dropWhile (fun e => (item sep key e).isSome), e ∈ t.fro (onKey sep key on) :=
    fun e he => (List.dropWhile_sublist _).subset he
  have hhead : ∀ e l, (t.fro (onKey sep key on)).dropWhile (fun e => (item sep key e).isSome) = e :: l → item sep key e = none := by
    intro e l he
    have := List.head?_dropWhile_not (fun e => (item sep key e).isSome) (t.fro (onKey sep key on))
    rw [he] at this
    simpa using this
  generalize (t.fro (onKey sep key on)).dropWhile (fun e => (item sep key e).isSome) = d at hso hmem hhead ⊢
  cases d with
  | nil => intro e he; cases he
  | cons c r =>
    have hc := hhead c r rfl
    intro e he
    rcases List.mem_cons.mp he with rfl | her
    · exact hc
    · obtain ⟨x, v⟩ := c
      obtain ⟨y, w⟩ := e
      obtain ⟨k, n, i, hkk, _, _, hx⟩ := h.entry (hsub.subset (hmem _ (List.mem_cons_self ..)))
      obtain ⟨k', n', i', _, _, _, hy⟩ := h.entry (hsub.subset (hmem _ he))
      simp only at hx hy; subst hx hy
      rw [item_eq hs] at hc ⊢
      split
      · rename_i hq; subst hq
        exfalso
        have hlt := hso.head _ her
        have hge := ((mem_fro h.wf.sorted).1 (hmem _ (List.mem_cons_self ..))).2
        have hp : (k' ++ [sep]) <+: suffix sep (onKey sep k n) i :=
          prefix_convex (x := onKey sep k' on) (z := suffix sep (onKey sep k' n') i') ⟨hex32 on, by simp [onKey]⟩ ⟨hex32 n' ++ sep :: hex32 i', by simp [suffix, onKey]⟩ hge (lexLt_asymm hlt)
        have hkey : k = k' := by
          rcases prefix_split (by simp) (sep_not_mem hs i) hp with h3 | h3
          · refine absurd ?_ (h.apart _ _ hkk hk)
            exact ⟨hex32 n, by rw [h3]; simp [onKey]⟩
          · rcases prefix_split (by simp) (sep_not_mem hs n) h3 with h4 | h4
            · exact h4.symm
            · exact absurd h4 (h.apart _ _ hk hkk)
        rw [if_pos hkey] at hc
        cases hc
      · rfl

/-- The entries that stay. -/
theorem removed_eq {sep : Nat} (hs : SepOk sep) {K : Bytes → Prop} {t : Tbl} (h : OnSetTbl sep K t) {key : Bytes} (hk : K key) {on : Nat} (ho : on ≤ maxON) :
    remOnAllIoSet sep t key on = (t.filter (fun e => match item sep key e with
      | none => true
      | some p => decide (p.2.1 < on)), .ok ((t.filterMap (item sep key)).any fun p => decide (on ≤ p.2.1))) := by
  have hsub : (t.fro (onKey sep key on)).Sublist t := List.dropWhile_sublist _
  unfold remOnAllIoSet
  rw [if_neg (h.ne key hk), remLoop2_eq hs key fun e he => by
    obtain ⟨k, n, i, _, _, _, hx⟩ := h.entry (hsub.subset he)
    exact ⟨k, n, i, hx⟩]
  dsimp only
  have hrest := rest_other hs h hk on
  have hnum : ∀ e ∈ t, ∀ p, item sep key e = some p → (lexLt e.1 (onKey sep key on) = true ↔ p.2.1 < on) := by
    rintro ⟨x, v⟩ he p hp
    obtain ⟨k, n, i, _, hn, _, hx⟩ := h.entry he
    simp only at hx; subst hx
    rw [item_eq hs] at hp
    by_cases hc : k = key
    · subst hc
      rw [if_pos rfl] at hp
      cases hp
      exact lexLt_below k i hn ho
    · rw [if_neg hc] at hp; cases hp
  have h1 : ∀ e ∈ t.before (onKey sep key on), ∀ p, item sep key e = some p → p.2.1 < on := by
    intro e he p hp
    obtain ⟨hm, hl⟩ := (mem_before h.wf.sorted).1 he
    exact (hnum e hm p hp).1 hl
  have h2 : ∀ e ∈ t.fro (onKey sep key on), ∀ p, item sep key e = some p → on ≤ p.2.1 := by
    intro e he p hp
    obtain ⟨hm, hl⟩ := (mem_fro h.wf.sorted).1 he
    refine Nat.le_of_not_lt fun hc => ?_
    rw [(hnum e hm p hp).2 hc] at hl
    cases hl
  have hsplit := before_fro t (onKey sep key on)
  have hspl2 := List.takeWhile_append_dropWhile (p := fun e => (item sep key e).isSome) (l := t.fro (onKey sep key on))
  have htk : ∀ e ∈ (t.fro (onKey sep key on)).takeWhile (fun e => (item sep key e).isSome), (item sep key e).isSome = true ∧ e ∈ t.fro (onKey sep key on) :=
    fun e he => ⟨List.all_eq_true.1 List.all_takeWhile e he, (List.takeWhile_sublist _).subset he⟩
  generalize (t.fro (onKey sep key on)).takeWhile (fun e => (item sep key e).isSome) = a at hspl2 htk ⊢
  generalize (t.fro (onKey sep key on)).dropWhile (fun e => (item sep key e).isSome) = d at hspl2 hrest ⊢
  generalize t.fro (onKey sep key on) = f at hsplit hspl2 htk h2
  generalize t.before (onKey sep key on) = b at hsplit h1 ⊢
  subst hspl2
  subst hsplit
  congr 1
  · rw [List.filter_append, List.filter_append]
    have e1 : b.filter (fun e => match item sep key e with
        | none => true
        | some p => decide (p.2.1 < on)) = b := by
      refine List.filter_eq_self.2 fun e he => ?_
      cases hq : item sep key e with
      | none => rfl
      | some p => simpa using h1 e he p hq
    have e2 : a.filter (fun e => match item sep key e with
        | none => true
        | some p => decide (p.2.1 < on)) = [] := by
      refine List.filter_eq_nil_iff.2 fun e he => ?_
      cases hq : item sep key e with
      | none => have := (htk e he).1; rw [hq] at this; cases this
      | some p => have := h2 e (htk e he).2 p hq; simpa using this
    have e3 : d.filter (fun e => match item sep key e with
        | none => true
        | some p => decide (p.2.1 < on)) = d := by
      refine List.filter_eq_self.2 fun e he => ?_
      rw [hrest e he]
    rw [e1, e2, e3, List.nil_append]
  · congr 1
    rw [Bool.eq_iff_iff]
    simp only [List.any_eq_true, List.mem_filterMap, List.mem_append, decide_eq_true_eq]
    constructor
    · intro hne
      cases a with
      | nil => cases hne
      | cons e a =>
        obtain ⟨g1, g2⟩ := htk e (by simp)
        obtain ⟨p, hp⟩ := Option.isSome_iff_exists.1 g1
        exact ⟨p, ⟨e, .inr (.inl (by simp)), hp⟩, h2 e g2 p hp⟩
    · rintro ⟨p, ⟨e, he, hp⟩, hle⟩
      rcases he with he | he | he
      · have := h1 e he p hp; omega
      · cases a with
        | nil => cases he
        | cons e a => rfl
      · rw [hrest e he] at hp; cases hp

/-- **C240 (partial).** Removing sets from a number on leaves the sets of the key with lower numbers, removes the others, leaves all sets of other keys, and answers whether there was anything to remove. Missing: keys
that are another one followed by the separator. -/
theorem c240_removed_partial {sep : Nat} (hs : SepOk sep) {K : Bytes → Prop} {t : Tbl} (h : OnSetTbl sep K t) {key : Bytes} (hk : K key) {on : Nat} (ho : on ≤ maxON) :
    ∃ F t', getOnAllIoSetItemIter sep t key 0 = .ok F ∧ remOnAllIoSet sep t key on = (t', .ok (F.any fun p => decide (on ≤ p.2.1))) ∧ OnSetTbl sep K t' ∧
      getOnAllIoSetItemIter sep t' key 0 = .ok (F.filter fun p => decide (p.2.1 < on)) ∧
      ∀ k, K k → k ≠ key → getOnAllIoSetItemIter sep t' k 0 = getOnAllIoSetItemIter sep t k 0 := by
  refine ⟨t.filterMap (item sep key), _, (by rw [forward_eq hs h hk 0, fro_items hs h key]), removed_eq hs h hk ho, h.sublist List.filter_sublist, ?_, ?_⟩
  · have h' := h.sublist (s := t.filter (fun e => match item sep key e with
      | none => true
      | some p => decide (p.2.1 < on))) List.filter_sublist
    rw [forward_eq hs h' hk 0, fro_items hs h' key]
    congr 1
    clear h h'
    induction t with
    | nil => rfl
    | cons e t ih =>
      rw [List.filter_cons, List.filterMap_cons]
      cases hq : item sep key e with
      | none => simp only [if_true, List.filterMap_cons, hq, ih]
      | some p =>
        by_cases hp : p.2.1 < on
        · simp only [hp, decide_true, if_true, List.filterMap_cons, hq, ih, List.filter_cons]
        · simp only [hp, decide_false, Bool.false_eq_true, if_false, ih, List.filter_cons]
  · intro k hkk hne
    have h' := h.sublist (s := t.filter (fun e => match item sep key e with
      | none => true
      | some p => decide (p.2.1 < on))) List.filter_sublist
    rw [forward_eq hs h' hkk 0, fro_items hs h' k, forward_eq hs h hkk 0, fro_items hs h k]
    congr 1
    clear h'
    have hent : ∀ e ∈ t, item sep key e = none ∨ item sep k e = none := by
      rintro ⟨x, v⟩ he
      obtain ⟨k1, n, i, _, _, _, hx⟩ := h.entry he
      simp only at hx; subst hx
      rw [item_eq hs, item_eq hs]
      by_cases hc : k1 = key
      · right
        rw [if_neg (by rw [hc]; exact fun hc => hne hc.symm)]
      · left
        rw [if_neg hc]
    clear h
    induction t with
    | nil => rfl
    | cons e t ih =>
      have ih := ih fun e he => hent e (by simp [he])
      rw [List.filter_cons, List.filterMap_cons]
      rcases hent e (by simp) with hq | hq
      · rw [hq]
        simp only [if_true, List.filterMap_cons, ih]
      · rw [hq]
        cases item sep key e with
        | none => simp only [if_true, List.filterMap_cons, hq, ih]
        | some p =>
          by_cases hp : p.2.1 < on
          · simp only [hp, decide_true, if_true, List.filterMap_cons, hq, ih]
          · simp only [hp, decide_false, Bool.false_eq_true, if_false, ih]

/-- The hypotheses of `c240_removed_partial` are met, and something is removed. -/
example : OnSetTbl 46 Demo41.K Demo41.t ∧ Demo41.K [65] ∧ 1 ≤ maxON ∧ (remOnAllIoSet 46 Demo41.t [65] 1).2 = .ok true ∧ (remOnAllIoSet 46 Demo41.t [65] 1).1.length = 3 ∧
    (remOnAllIoSet 46 Demo41.t [65] 4).2 = .ok false := by
  exact ⟨Demo41.wf, .inl rfl, by decide, by decide +kernel, by decide +kernel, by decide +kernel⟩

/-- **C240 fails for nested keys.** Sets under the key `A.00000000000000000000000000000005` hide those of `A` with greater numbers: removing all sets of `A` leaves the one numbered 9. -/
theorem c240_nested_keys :
    let k : Bytes := [65]
    let t := (putOnIoSetVals 46 (putOnIoSetVals 46 (putOnIoSetVals 46 [] k 0 [[1]]).1 k 9 [[2]]).1 (onKey 46 k 5) 0 [[3]]).1
    (remOnAllIoSet 46 t k 0).2 = .ok true ∧ (remOnAllIoSet 46 t k 0).1.get (suffix 46 (onKey 46 k 9) 0) = some [2] := by decide +kernel

end Verif.Db
