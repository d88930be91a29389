import Verif.Thold.Text
import Verif.Thold.Lemmas
import Verif.Codec.PropsTexts

/-! # Helper lemmas for the text forms of thresholds -/

namespace Verif.Thold

/-! ## Numerals -/

theorem digit_table : ∀ d : Fin 16, digitVal (digitChar d.val) = some d.val ∧ digitChar d.val ≠ 'k' ∧ digitChar d.val ≠ 's' ∧
    digitChar d.val ≠ 'v' ∧ digitChar d.val ≠ '/' := by decide +kernel

theorem digit10_table : ∀ d : Fin 10, digitChar d.val ≠ 'a' ∧ digitChar d.val ≠ 'c' ∧
    (Verif.B64.idx (digitChar d.val)).isSome = true := by decide +kernel

/-- Characters of decimal numerals. -/
def IsDigit (c : Char) : Prop := ∃ d : Fin 10, c = digitChar d.val

theorem natText_chars (n : Nat) : ∀ c ∈ natText 10 n, IsDigit c := by
  fun_induction natText 10 n with
  | case1 n h =>
    intro c hc
    simp at hc
    exact ⟨⟨n % 10, by omega⟩, hc⟩
  | case2 n h ih =>
    intro c hc
    rcases List.mem_append.mp hc with hc | hc
    · exact ih c hc
    · simp at hc
      exact ⟨⟨n % 10, by omega⟩, hc⟩

theorem natText_ne_nil (b n : Nat) : natText b n ≠ [] := by
  unfold natText; split <;> simp

/-- Fold of the numeral reader. -/
def readStep (b : Nat) (acc : Option Nat) (c : Char) : Option Nat :=
  match acc, digitVal c with
  | some n, some d => if d < b then some (n * b + d) else none
  | _, _ => none

theorem parseNat_eq (b : Nat) (s : List Char) (h : s ≠ []) : parseNat b s = s.foldl (readStep b) (some 0) := by
  rw [parseNat, if_neg h]; rfl

theorem foldl_natText (b n : Nat) (hb : 2 ≤ b) (hb' : b ≤ 16) :
    (natText b n).foldl (readStep b) (some 0) = some n := by
  fun_induction natText b n with
  | case1 n h =>
    have hn : n < b := by omega
    have hm : n % b = n := Nat.mod_eq_of_lt hn
    simp [readStep, hm, (digit_table ⟨n, by omega⟩).1, hn]
  | case2 n h ih =>
    have hm : n % b < b := Nat.mod_lt _ (by omega)
    rw [List.foldl_append, ih]
    simp [readStep, (digit_table ⟨n % b, by omega⟩).1, hm]
    exact Nat.div_add_mod' n b

theorem parseNat_natText (b n : Nat) (hb : 2 ≤ b) (hb' : b ≤ 16) : parseNat b (natText b n) = some n := by
  rw [parseNat_eq _ _ (natText_ne_nil b n), foldl_natText b n hb hb']

theorem foldl_none (b : Nat) (s : List Char) : s.foldl (readStep b) none = none := by
  induction s with
  | nil => rfl
  | cons c s ih => rw [List.foldl_cons]; simpa [readStep] using ih

theorem parseNat_bad (b : Nat) (s t : List Char) (c : Char) (hc : digitVal c = none) : parseNat b (s ++ c :: t) = none := by
  rw [parseNat_eq _ _ (by simp), List.foldl_append, List.foldl_cons]
  have : readStep b (s.foldl (readStep b) (some 0)) c = none := by
    unfold readStep; rw [hc]; split <;> simp_all
  rw [this, foldl_none]

theorem slash_val : digitVal '/' = none := by decide +kernel

theorem digit_ne {c : Char} (h : IsDigit c) : c ≠ '/' ∧ c ≠ 'k' ∧ c ≠ 's' ∧ c ≠ 'v' ∧ c ≠ 'a' ∧ c ≠ 'c' ∧
    (Verif.B64.idx c).isSome = true := by
  obtain ⟨d, rfl⟩ := h
  have h1 := digit_table ⟨d.val, by omega⟩
  have h2 := digit10_table d
  exact ⟨h1.2.2.2.2, h1.2.1, h1.2.2.1, h1.2.2.2.1, h2.1, h2.2.1, h2.2.2⟩

/-! ## Weights -/

theorem takeWhile_append_of {p : Char → Bool} (s t : List Char) (c : Char) (h : ∀ x ∈ s, p x = true) (hc : p c = false) :
    (s ++ c :: t).takeWhile p = s ∧ (s ++ c :: t).dropWhile p = c :: t := by
  induction s with
  | nil => simp [hc]
  | cons x s ih =>
    have := ih (fun y hy => h y (by simp [hy]))
    simp [h x (by simp), this]

theorem takeWhile_all {p : Char → Bool} (s : List Char) (h : ∀ x ∈ s, p x = true) :
    s.takeWhile p = s ∧ s.dropWhile p = [] := by
  induction s with
  | nil => simp
  | cons x s ih =>
    have := ih (fun y hy => h y (by simp [hy]))
    simp [h x (by simp), this]

/-- Weights of the closed unit interval. -/
def Unit01 (w : Rat) : Prop := 0 ≤ w ∧ w ≤ 1

/-- Characters of a weight text with separator `sep`. -/
def WChar (sep : Char) (c : Char) : Prop := IsDigit c ∨ c = sep

theorem rat_edge {w : Rat} (h : Unit01 w) (hn : ¬ (0 < w ∧ w < 1)) : w = 0 ∨ w = 1 := by
  unfold Unit01 at h
  by_cases h0 : w = 0
  · exact Or.inl h0
  · right; grind

theorem weightText_unit (sep : Char) (w : Rat) (h : Unit01 w) :
    (∃ n d : Nat, 0 < d ∧ w = (n : Rat) / d ∧ n ≤ d ∧ weightText sep w = natText 10 n ++ sep :: natText 10 d) ∨
    (∃ n : Nat, n ≤ 1 ∧ w = (n : Rat) ∧ weightText sep w = natText 10 n) := by
  by_cases hc : 0 < w ∧ w < 1
  · left
    refine ⟨w.num.toNat, w.den, w.den_pos, ?_, ?_, ?_⟩
    · have hnum : 0 ≤ w.num := Rat.num_nonneg.mpr h.1
      have : ((w.num.toNat : Int) : Rat) = (w.num : Rat) := by rw [Int.toNat_of_nonneg hnum]
      have h2 : ((w.num.toNat : Nat) : Rat) = (w.num : Rat) := by
        rw [← this]; rfl
      rw [h2]
      have h3 := Rat.num_divInt_den w
      rw [Rat.divInt_eq_div] at h3
      exact h3.symm
    · have hnum : 0 ≤ w.num := Rat.num_nonneg.mpr h.1
      have hle : w ≤ 1 := h.2
      have := Rat.le_iff w 1
      rw [this] at hle
      simp at hle
      omega
    · simp [weightText, hc]
  · right
    rcases rat_edge h hc with rfl | rfl
    · exact ⟨0, by omega, rfl, by simp [weightText, intText]⟩
    · refine ⟨1, by omega, rfl, ?_⟩
      have : ¬ ((0:Rat) < 1 ∧ (1:Rat) < 1) := hc
      unfold weightText
      rw [if_neg this]
      rfl

theorem weightText_chars (sep : Char) (w : Rat) (h : Unit01 w) : ∀ c ∈ weightText sep w, WChar sep c := by
  intro c hc
  rcases weightText_unit sep w h with ⟨n, d, _, _, _, ht⟩ | ⟨n, _, _, ht⟩
  · rw [ht] at hc
    rcases List.mem_append.mp hc with hc | hc
    · exact Or.inl (natText_chars n c hc)
    · rcases List.mem_cons.mp hc with hc | hc
      · exact Or.inr hc
      · exact Or.inl (natText_chars d c hc)
  · rw [ht] at hc
    exact Or.inl (natText_chars n c hc)

theorem weight_weightText (w : Rat) (h : Unit01 w) : weight (weightText '/' w) = .ok w := by
  rcases weightText_unit '/' w h with ⟨n, d, hd, hw, hle, ht⟩ | ⟨n, hn, hw, ht⟩
  · rw [ht]
    unfold weight
    rw [parseNat_bad _ _ _ _ slash_val]
    obtain ⟨e1, e2⟩ := takeWhile_append_of (p := fun c => decide (c ≠ '/')) (natText 10 n) (natText 10 d) '/'
      (by intro x hx; simpa using (digit_ne (natText_chars n x hx)).1) (by simp)
    simp only [e1, e2, List.drop_succ_cons, List.drop_zero]
    rw [parseNat_natText _ _ (by omega) (by omega), parseNat_natText _ _ (by omega) (by omega)]
    simp only
    rw [if_neg (by omega), ← hw, if_pos h.2]
  · rw [ht]
    unfold weight
    rw [parseNat_natText _ _ (by omega) (by omega)]
    simp only
    rw [← hw, if_pos h.2]

/-! ## Join and split -/

theorem splitC_single (sep : Char) (p : List Char) (h : sep ∉ p) : splitC sep p = [p] := by
  induction p with
  | nil => rfl
  | cons c p ih =>
    simp at h
    rw [splitC, if_neg (Ne.symm h.1), ih h.2]

theorem splitC_append (sep : Char) (p t : List Char) (h : sep ∉ p) : splitC sep (p ++ sep :: t) = p :: splitC sep t := by
  induction p with
  | nil => simp [splitC]
  | cons c p ih =>
    simp at h
    rw [List.cons_append, splitC, if_neg (Ne.symm h.1), ih h.2]

theorem splitC_join (sep : Char) (ps : List (List Char)) (hne : ps ≠ []) (h : ∀ p ∈ ps, sep ∉ p) :
    splitC sep (join sep ps) = ps := by
  fun_induction join sep ps with
  | case1 => exact absurd rfl hne
  | case2 p => exact splitC_single sep p (h p (by simp))
  | case3 p ps hps ih =>
    rw [splitC_append sep p _ (h p (by simp)), ih hps (fun q hq => h q (by simp [hq]))]

theorem mem_join {sep c : Char} {ps : List (List Char)} (h : c ∈ join sep ps) : c = sep ∨ ∃ p ∈ ps, c ∈ p := by
  fun_induction join sep ps with
  | case1 => simp at h
  | case2 p => exact Or.inr ⟨p, by simp, h⟩
  | case3 p ps hps ih =>
    rcases List.mem_append.mp h with h | h
    · exact Or.inr ⟨p, by simp, h⟩
    · rcases List.mem_cons.mp h with h | h
      · exact Or.inl h
      · rcases ih h with h | ⟨q, hq, hc⟩
        · exact Or.inl h
        · exact Or.inr ⟨q, by simp [hq], hc⟩

theorem map_join (f : Char → Char) (sep : Char) (hs : f sep = sep) (ps : List (List Char)) :
    (join sep ps).map f = join sep (ps.map (List.map f)) := by
  fun_induction join sep ps with
  | case1 => rfl
  | case2 p => rfl
  | case3 p ps hps ih =>
    simp only [List.map_append, List.map_cons, hs, ih]
    cases ps with
    | nil => exact absurd rfl hps
    | cons q qs => rfl

theorem mapE_ok {α β : Type} (f : α → Except Err β) (g : β → α) (l : List β) (h : ∀ b ∈ l, f (g b) = .ok b) :
    mapE f (l.map g) = .ok l := by
  induction l with
  | nil => rfl
  | cons b l ih =>
    rw [List.map_cons, mapE, h b (by simp), ih (fun x hx => h x (by simp [hx]))]

/-! ## Elements and clauses -/

/-- All weights of the element lie in the unit interval (guaranteed when read from text by `weight`). -/
def Elt.Unit : Elt → Prop
  | .wt w => Unit01 w
  | .grp k ws => Unit01 k ∧ ∀ w ∈ ws, Unit01 w

theorem subst_weight (w : Rat) (h : Unit01 w) :
    (weightText 's' w).map (fun c => if c = 's' then '/' else c) = weightText '/' w := by
  have hid : ∀ n, (natText 10 n).map (fun c => if c = 's' then '/' else c) = natText 10 n := by
    intro n
    conv => rhs; rw [← List.map_id (natText 10 n)]
    apply List.map_congr_left
    intro c hc
    simp [(digit_ne (natText_chars n c hc)).2.2.1]
  unfold weightText
  split
  · simp [hid]
  · rename_i hc
    rcases rat_edge h hc with rfl | rfl
    · simpa [intText] using hid 0
    · exact hid 1

theorem subst_elt (e : Elt) (h : e.Unit) :
    (eltText 's' e).map (fun c => if c = 's' then '/' else c) = eltText '/' e := by
  cases e with
  | wt w => exact subst_weight w h
  | grp k ws =>
    simp only [eltText]
    rw [map_join _ 'k' (by decide)]
    simp only [List.map_cons, List.map_nil]
    rw [map_join _ 'v' (by decide), subst_weight k h.1, List.map_map]
    congr 4
    apply List.map_congr_left
    intro w hw
    exact subst_weight w (h.2 w hw)

theorem wchar_ne {c : Char} (h : WChar '/' c) : c ≠ 'k' ∧ c ≠ 'v' ∧ c ≠ 'a' ∧ c ≠ 'c' := by
  rcases h with h | rfl
  · have := digit_ne h; exact ⟨this.2.1, this.2.2.2.1, this.2.2.2.2.1, this.2.2.2.2.2.1⟩
  · decide

theorem eltText_ne (e : Elt) (h : e.Unit) : 'a' ∉ eltText '/' e ∧ 'c' ∉ eltText '/' e := by
  have key : ∀ c ∈ eltText '/' e, WChar '/' c ∨ c = 'k' ∨ c = 'v' := by
    intro c hc
    cases e with
    | wt w => exact Or.inl (weightText_chars '/' w h c hc)
    | grp k ws =>
      simp only [eltText] at hc
      rcases mem_join hc with hc | ⟨p, hp, hc⟩
      · exact Or.inr (Or.inl hc)
      · simp only [List.mem_cons, List.not_mem_nil, or_false] at hp
        rcases hp with rfl | rfl
        · exact Or.inl (weightText_chars '/' k h.1 c hc)
        · rcases mem_join hc with hc | ⟨q, hq, hc⟩
          · exact Or.inr (Or.inr hc)
          · obtain ⟨w, hw, rfl⟩ := List.mem_map.mp hq
            exact Or.inl (weightText_chars '/' w (h.2 w hw) c hc)
  constructor
  · intro hm
    rcases key _ hm with h | h | h
    · exact (wchar_ne h).2.2.1 rfl
    · exact absurd h (by decide)
    · exact absurd h (by decide)
  · intro hm
    rcases key _ hm with h | h | h
    · exact (wchar_ne h).2.2.2 rfl
    · exact absurd h (by decide)
    · exact absurd h (by decide)

theorem readElt_eltText (e : Elt) (h : e.Unit) (hg : ∀ k ws, e = .grp k ws → ws ≠ []) :
    readElt (eltText '/' e) = .ok e := by
  have hk : ∀ w, Unit01 w → ∀ x ∈ weightText '/' w, decide (x ≠ 'k') = true := by
    intro w hw x hx
    simpa using (wchar_ne (weightText_chars '/' w hw x hx)).1
  cases e with
  | wt w =>
    obtain ⟨e1, e2⟩ := takeWhile_all (weightText '/' w) (hk w h)
    simp only [readElt, eltText, e1, e2, weight_weightText w h]
  | grp k ws =>
    obtain ⟨e1, e2⟩ := takeWhile_append_of (p := fun c => decide (c ≠ 'k')) (weightText '/' k)
      (join 'v' (ws.map (weightText '/'))) 'k' (hk k h.1) (by simp)
    simp only [readElt, eltText, join, e1, e2, weight_weightText k h.1]
    rw [splitC_join, mapE_ok weight (weightText '/') ws (fun w hw => weight_weightText w (h.2 w hw))]
    · simpa using hg k ws rfl
    · intro p hp
      obtain ⟨w, hw, rfl⟩ := List.mem_map.mp hp
      intro hm
      exact (wchar_ne (weightText_chars '/' w (h.2 w hw) _ hm)).2.1 rfl

/-- Weighted thresholds the constructor accepts, with weights in the unit interval. -/
def WellFormed (cs : List (List Elt)) : Prop :=
  cs ≠ [] ∧ checkWeighted cs = true ∧ ∀ c ∈ cs, ∀ e ∈ c, e.Unit

theorem WellFormed.nonempty {cs : List (List Elt)} (h : WellFormed cs) :
    (∀ c ∈ cs, c ≠ []) ∧ ∀ c ∈ cs, ∀ k ws, Elt.grp k ws ∈ c → ws ≠ [] := by
  have hc := h.2.1
  simp only [checkWeighted, List.all_eq_true, Bool.and_eq_true, decide_eq_true_eq] at hc
  constructor
  · rintro c hcm rfl
    have := (hc _ hcm).2
    exact absurd this (by decide +kernel)
  · rintro c hcm k ws hm rfl
    have := (hc _ hcm).1 _ hm
    simp only [decide_eq_true_eq] at this
    exact absurd this (by decide +kernel)

theorem readBext_bext (cs : List (List Elt)) (h : WellFormed cs) : readBext (bextOfClauses cs) = .ok (.wtd cs) := by
  obtain ⟨hne, hgr⟩ := h.nonempty
  have hsub : (bextOfClauses cs).map (fun c => if c = 's' then '/' else c)
      = join 'a' (cs.map fun c => join 'c' (c.map (eltText '/'))) := by
    unfold bextOfClauses
    rw [map_join _ 'a' (by decide), List.map_map]
    congr 1
    apply List.map_congr_left
    intro c hc
    simp only [Function.comp]
    rw [map_join _ 'c' (by decide), List.map_map]
    congr 1
    apply List.map_congr_left
    intro e he
    exact subst_elt e (h.2.2 c hc e he)
  unfold readBext
  simp only [hsub]
  rw [splitC_join, mapE_ok (fun c => mapE readElt (splitC 'c' c)) (fun c => join 'c' (c.map (eltText '/'))) cs]
  · simp [make, h.2.1]
  · intro c hc
    rw [splitC_join]
    · exact mapE_ok readElt (eltText '/') c (fun e he => readElt_eltText e (h.2.2 c hc e he)
        (fun k ws hk => hgr c hc k ws (hk ▸ he)))
    · simpa using hne c hc
    · intro p hp
      obtain ⟨e, he, rfl⟩ := List.mem_map.mp hp
      exact (eltText_ne e (h.2.2 c hc e he)).2
  · simpa using h.1
  · intro p hp
    obtain ⟨c, hc, rfl⟩ := List.mem_map.mp hp
    intro hm
    rcases mem_join hm with hm | ⟨q, hq, hm⟩
    · exact absurd hm (by decide)
    · obtain ⟨e, he, rfl⟩ := List.mem_map.mp hq
      exact (eltText_ne e (h.2.2 c hc e he)).1 hm

theorem reb64_bext (cs : List (List Elt)) (h : ∀ c ∈ cs, ∀ e ∈ c, e.Unit) :
    Verif.B64.reb64 (bextOfClauses cs) = true := by
  have hw : ∀ w, Unit01 w → ∀ c ∈ weightText 's' w, (Verif.B64.idx c).isSome = true := by
    intro w hw c hc
    rcases weightText_chars 's' w hw c hc with h | rfl
    · exact (digit_ne h).2.2.2.2.2.2
    · decide +kernel
  simp only [Verif.B64.reb64, List.all_eq_true]
  intro x hx
  rcases mem_join hx with rfl | ⟨p, hp, hx⟩
  · decide +kernel
  obtain ⟨c, hc, rfl⟩ := List.mem_map.mp hp
  rcases mem_join hx with rfl | ⟨q, hq, hx⟩
  · decide +kernel
  obtain ⟨e, he, rfl⟩ := List.mem_map.mp hq
  have hu := h c hc e he
  cases e with
  | wt w => exact hw w hu x hx
  | grp k ws =>
    rcases mem_join hx with rfl | ⟨r, hr, hx⟩
    · decide +kernel
    simp only [List.mem_cons, List.not_mem_nil, or_false] at hr
    rcases hr with rfl | rfl
    · exact hw k hu.1 x hx
    · rcases mem_join hx with rfl | ⟨t, ht, hx⟩
      · decide +kernel
      · obtain ⟨w, hwm, rfl⟩ := List.mem_map.mp ht
        exact hw w (hu.2 w hwm) x hx

theorem readSElt_sithElt (e : Elt) (h : e.Unit) : readSElt (sithElt e) = .ok e := by
  cases e with
  | wt w => simp only [sithElt, readSElt, weight_weightText w h]
  | grp k ws =>
    simp only [sithElt, readSElt, weight_weightText k h.1]
    rw [mapE_ok weight (weightText '/') ws (fun w hw => weight_weightText w (h.2 w hw))]

end Verif.Thold
