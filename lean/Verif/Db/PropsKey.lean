import Verif.Db.TableLemmas

/-! # C36: ordinal keys; C40: branches -/

namespace Verif.Db

/-! ## C36 -/

/-- **C36, order.** For ordinals below 16^32 the byte order of keys under one top key is the numeric order of the ordinals. -/
theorem c36_order {sep : Nat} (top : Bytes) {m n : Nat} (hm : m ≤ maxON) (hn : n ≤ maxON) :
    (lexLt (onKey sep top m) (onKey sep top n) = true ↔ m < n) ∧
    (lexLt (suffix sep top m) (suffix sep top n) = true ↔ m < n) := by
  have hp : 0 < 16 ^ 32 := by decide
  unfold maxON at hm hn
  exact ⟨lexLt_onKey top (by omega) (by omega), lexLt_onKey top (by omega) (by omega)⟩

/-- **C36, splitting.** Splitting a key gives back its top key and ordinal, for every top key (which may contain the separator)
and every ordinal, also above the maximum. -/
theorem c36_split {sep : Nat} (hs : SepOk sep) (top : Bytes) (n : Nat) :
    splitOnKey sep (onKey sep top n) = .ok (top, n) ∧ unsuffix sep (suffix sep top n) = .ok (top, n) :=
  ⟨splitOnKey_onKey hs top n, unsuffix_suffix hs top n⟩

/-- **C36, injectivity.** Different top keys or ordinals have different keys. -/
theorem c36_injective {sep : Nat} (hs : SepOk sep) {a b : Bytes} {m n : Nat} (h : onKey sep a m = onKey sep b n) : a = b ∧ m = n :=
  onKey_inj hs h

/-- **C36, format.** Up to the maximum the number takes exactly 32 characters. -/
theorem c36_width (sep : Nat) (top : Bytes) {n : Nat} (h : n ≤ maxON) : (onKey sep top n).length = top.length + 33 := by
  have hp : 0 < 16 ^ 32 := by decide
  unfold maxON at h
  unfold onKey
  simp [hex32_length (n := n) (by omega)]

/-- Beyond the maximum the order is lost: 16^32 sorts before 16^32 - 1. -/
theorem c36_overflow : lexLt (onKey 46 [65] (maxON + 1)) (onKey 46 [65] maxON) = true := by decide +kernel

example : SepOk 46 := by unfold SepOk; decide
example : onKey 46 [65, 66] 1024 = [65, 66, 46] ++ List.replicate 29 48 ++ [52, 48, 48] := by decide +kernel
example : splitOnKey 46 (onKey 46 [65, 46, 66] 10) = .ok ([65, 46, 66], 10) := by decide +kernel

/-! ## C40 -/

theorem takeWhile_convex {t : Tbl} (h : Sorted t) (p : Entry → Bool)
    (hp : ∀ x ∈ t, ∀ y ∈ t, ∀ z ∈ t, lexLt x.1 y.1 = true → lexLt y.1 z.1 = true → p x = true → p z = true → p y = true)
    (hfirst : ∀ x ∈ t.head?, p x = false → ∀ z ∈ t, p z = false) : t.takeWhile p = t.filter p := by
  induction t with
  | nil => rfl
  | cons e t ih =>
    rw [List.takeWhile_cons]
    split
    · rename_i he
      rw [List.filter_cons_of_pos (by simpa using he)]
      congr 1
      refine ih h.tail (fun x hx y hy z hz => hp x (by simp [hx]) y (by simp [hy]) z (by simp [hz])) ?_
      intro x hx hpx z hz
      cases t with
      | nil => simp at hz
      | cons a t =>
        simp at hx; subst hx
        cases hpz : p z with
        | false => rfl
        | true =>
          rcases List.mem_cons.1 hz with rfl | hz'
          · rw [hpx] at hpz; exact absurd hpz (by simp)
          · have := hp e (by simp) a (by simp) z (by simp [hz']) (h.head a (by simp)) (h.tail.head z hz') he hpz
            rw [hpx] at this; exact absurd this (by simp)
    · rename_i he
      rw [eq_comm, List.filter_eq_nil_iff]
      intro z hz
      rw [hfirst e (by simp) (by simpa using he) z hz]; simp

/-- Branch entries from the cursor on. -/
theorem branch_eq {t : Tbl} (h : Sorted t) (top : Bytes) :
    (t.fro top).takeWhile (fun e => top.isPrefixOf e.1) = t.filter (fun e => top.isPrefixOf e.1) := by
  rw [takeWhile_convex (h.fro top)]
  · rw [fro_eq h, List.filter_filter]
    apply List.filter_congr
    intro e _
    cases hp : top.isPrefixOf e.1 with
    | false => rfl
    | true => rw [lexLt_of_prefix (List.isPrefixOf_iff_prefix.1 hp)]; rfl
  · intro x hx y hy z hz hxy hyz hpx hpz
    rw [List.isPrefixOf_iff_prefix] at *
    exact prefix_convex hpx hpz (lexLt_asymm hxy) (lexLt_asymm hyz)
  · intro x hx hpx z hz
    have hxm : x ∈ t.fro top := List.mem_of_mem_head? hx
    cases hpz : top.isPrefixOf z.1 with
    | false => rfl
    | true =>
      have h1 : lexLt x.1 top = false := ((mem_fro h).1 hxm).2
      have h2 : lexLt z.1 x.1 = false := by
        rcases List.mem_iff_getElem?.1 hz with ⟨i, hi⟩
        cases hl : t.fro top with
        | nil => rw [hl] at hz; simp at hz
        | cons a l =>
          have hs := h.fro top
          rw [hl] at hx hz hs; simp at hx; subst hx
          rcases List.mem_cons.1 hz with rfl | hz
          · exact lexLt_irrefl _
          · exact lexLt_asymm (hs.head z hz)
      have := prefix_convex (List.prefix_refl top) (List.isPrefixOf_iff_prefix.1 hpz) h1 h2
      rw [← List.isPrefixOf_iff_prefix] at this
      rw [this] at hpx; exact absurd hpx (by simp)

/-- **C40, iteration.** Iterating over a top key yields exactly the entries whose key starts with it, each once, in key order; the
count is their number. The table is any set of entries in key order, which every operation keeps (`c40_kept`). -/
theorem c40_iter {t : Tbl} (h : Sorted t) (top : Bytes) :
    (∀ e, e ∈ getTopItemIter t top ↔ e ∈ t ∧ top <+: e.1) ∧ Sorted (getTopItemIter t top) ∧
    cntTop t top = (getTopItemIter t top).length := by
  unfold getTopItemIter
  refine ⟨?_, ?_, rfl⟩
  · intro e
    rw [branch_eq h, List.mem_filter, List.isPrefixOf_iff_prefix]
  · rw [branch_eq h]; exact h.filter _

/-- **C40, removal.** Removing a branch leaves exactly the entries whose key does not start with the top key, and reports whether
there was any. -/
theorem c40_remove {t : Tbl} (h : Sorted t) (top : Bytes) :
    (∀ e, e ∈ (remTop t top).1 ↔ e ∈ t ∧ ¬ top <+: e.1) ∧ Sorted (remTop t top).1 ∧
    ((remTop t top).2 = true ↔ ∃ e, e ∈ t ∧ top <+: e.1) := by
  have key : (remTop t top).1 = t.filter (fun e => !top.isPrefixOf e.1) := by
    unfold remTop
    simp only
    have h1 : t.before top = (t.before top).filter (fun e => !top.isPrefixOf e.1) := by
      rw [eq_comm, List.filter_eq_self]
      intro e he
      have := ((mem_before h).1 he).2
      cases hp : top.isPrefixOf e.1 with
      | false => rfl
      | true => rw [lexLt_of_prefix (List.isPrefixOf_iff_prefix.1 hp)] at this; exact absurd this (by simp)
    have h2 : (t.fro top).dropWhile (fun e => top.isPrefixOf e.1) = (t.fro top).filter (fun e => !top.isPrefixOf e.1) := by
      have hb := branch_eq h top
      have hsub : ∀ l : Tbl, Sorted l → l.takeWhile (fun e => top.isPrefixOf e.1) = l.filter (fun e => top.isPrefixOf e.1) →
          l.dropWhile (fun e => top.isPrefixOf e.1) = l.filter (fun e => !top.isPrefixOf e.1) := by
        intro l hl hw
        induction l with
        | nil => rfl
        | cons a l ih =>
          rw [List.takeWhile_cons] at hw
          rw [List.dropWhile_cons]
          split
          · rename_i ha
            rw [if_pos ha, List.filter_cons_of_pos (by simpa using ha)] at hw
            rw [List.filter_cons_of_neg (by simp [ha])]
            exact ih hl.tail (by injection hw)
          · rename_i ha
            rw [if_neg ha, eq_comm, List.filter_eq_nil_iff] at hw
            rw [eq_comm, List.filter_eq_self]
            intro x hx
            have := hw x hx
            cases hq : top.isPrefixOf x.1 with
            | false => rfl
            | true => exact absurd hq this
      refine hsub _ (h.fro top) ?_
      rw [hb]
      have : (t.fro top).filter (fun e => top.isPrefixOf e.1) = t.filter (fun e => top.isPrefixOf e.1) := by
        rw [fro_eq h, List.filter_filter]
        apply List.filter_congr
        intro e _
        cases hp : top.isPrefixOf e.1 with
        | false => rfl
        | true => rw [lexLt_of_prefix (List.isPrefixOf_iff_prefix.1 hp)]; rfl
      rw [this]
    rw [h1, h2, ← List.filter_append, before_fro]
  refine ⟨?_, by rw [key]; exact h.filter _, ?_⟩
  · intro e
    rw [key, List.mem_filter, ← List.isPrefixOf_iff_prefix]
    simp only [Bool.not_eq_true', Bool.not_eq_true]
  · unfold remTop
    simp only
    rw [branch_eq h]
    simp [List.filter_eq_nil_iff, ← List.isPrefixOf_iff_prefix]

/-- **C40, order.** Writing, overwriting and deleting keep the key order, starting from an empty table; a written value is the one
read back and no other key is touched. -/
theorem c40_kept {t : Tbl} (h : Sorted t) (k v : Bytes) (o : Bool) :
    Sorted [] ∧ Sorted (t.put k v o).1 ∧ Sorted (t.del k).1 ∧
    (∀ x, x ≠ k → (t.put k v o).1.get x = t.get x ∧ (t.del k).1.get x = t.get x) ∧
    ((t.put k v o).1.get k = if o = true ∨ t.get k = none then some v else t.get k) ∧ (t.del k).1.get k = none := by
  have hput : Sorted (t.put k v o).1 := by
    unfold Tbl.put; split
    · exact h
    · exact (sorted_insert h k v).1
  have hdel : Sorted (t.del k).1 := h.filter _
  refine ⟨by simp [Sorted], hput, hdel, ?_, ?_, ?_⟩
  · intro x hx
    constructor
    · unfold Tbl.put; split
      · rfl
      · apply Option.ext
        intro w
        rw [get_some (sorted_insert h k v).1, get_some h, mem_insert_iff h]
        constructor
        · rintro (hc | hc)
          · injection hc with hc _; exact absurd hc hx
          · exact hc.1
        · exact fun hc => .inr ⟨hc, hx⟩
    · apply Option.ext
      intro w
      rw [get_some hdel, get_some h]
      unfold Tbl.del
      simp [hx]
  · unfold Tbl.put
    by_cases hc : o = false ∧ (t.get k).isSome
    · rw [if_pos hc, if_neg]
      rintro (g | g)
      · rw [g] at hc; exact absurd hc.1 (by simp)
      · rw [g] at hc; exact absurd hc.2 (by simp)
    · rw [if_neg hc, if_pos]
      · exact (get_some (sorted_insert h k v).1).2 (mem_insert_self ..)
      · cases o with
        | true => exact .inl rfl
        | false =>
          right
          cases hg : t.get k with
          | none => rfl
          | some w => rw [hg] at hc; exact absurd ⟨rfl, rfl⟩ hc
  · rw [get_none]
    intro e he
    unfold Tbl.del at he
    simp at he
    exact he.2

example : Sorted [([65, 46, 66], [1]), ([65, 66], [2]), ([66], [3])] ∧
    getTopItemIter [([65, 46, 66], [1]), ([65, 66], [2]), ([66], [3])] [65] = [([65, 46, 66], [1]), ([65, 66], [2])] ∧
    (remTop [([65, 46, 66], [1]), ([65, 66], [2]), ([66], [3])] [65]) = ([([66], [3])], true) := by
  refine ⟨by unfold Sorted; decide, by decide, by decide⟩

end Verif.Db
