import Verif.Codec.B64

/-! # Helper lemmas about the Base64 helpers -/

namespace Verif.B64

theorem alphabet_length : alphabet.length = 64 := rfl

theorem idx_chr {i : Nat} (h : i < 64) : idx (chr i) = some i := by
  have key : ∀ i : Fin 64, idx (chr i.val) = some i.val := by decide +kernel
  exact key ⟨i, h⟩

theorem idx_some {c : Char} {i : Nat} (h : idx c = some i) : i < 64 ∧ chr i = c := by
  unfold idx at h
  simp only [Option.ite_none_right_eq_some, Option.some.injEq] at h
  obtain ⟨h1, rfl⟩ := h
  refine ⟨h1, ?_⟩
  unfold chr
  have hl : alphabet.idxOf c < alphabet.length := h1
  rw [List.getD_eq_getElem?_getD, List.getElem?_eq_getElem hl]
  exact List.getElem_idxOf hl

theorem chr_inj {i j : Nat} (hi : i < 64) (hj : j < 64) (h : chr i = chr j) : i = j := by
  have := idx_chr hi
  rw [h, idx_chr hj] at this
  exact (Option.some.inj this).symm

/-- Characters of a digit list. -/
def chrs (ds : List Nat) : List Char := ds.map chr

@[simp] theorem chrs_length (ds : List Nat) : (chrs ds).length = ds.length := by simp [chrs]
@[simp] theorem chrs_nil : chrs [] = [] := rfl
@[simp] theorem chrs_append (xs ys : List Nat) : chrs (xs ++ ys) = chrs xs ++ chrs ys := by simp [chrs]

theorem chrs_inj {xs ys : List Nat} (hx : AllLt 64 xs) (hy : AllLt 64 ys) (h : chrs xs = chrs ys) :
    xs = ys := by
  induction xs generalizing ys with
  | nil => cases ys with
    | nil => rfl
    | cons => simp [chrs] at h
  | cons x xs ih => cases ys with
    | nil => simp [chrs] at h
    | cons y ys =>
      simp [chrs] at h hx hy
      rw [chr_inj hx.1 hy.1 h.1, ih hx.2 hy.2 (by simpa [chrs] using h.2)]

/-- Every string over the alphabet is `chrs` of a digit list. -/
theorem exists_digits {s : List Char} (h : reb64 s = true) :
    ∃ ds, AllLt 64 ds ∧ s = chrs ds := by
  induction s with
  | nil => exact ⟨[], by simp, rfl⟩
  | cons c s ih =>
    simp only [reb64, List.all_cons, Bool.and_eq_true] at h
    obtain ⟨ds, h1, h2⟩ := ih (by simpa [reb64] using h.2)
    obtain ⟨i, hi⟩ := Option.isSome_iff_exists.1 h.1
    have := idx_some hi
    exact ⟨i :: ds, by simp [this.1, h1], by simp [chrs, this.2, h2]⟩

theorem reb64_chrs {ds : List Nat} (h : AllLt 64 ds) : reb64 (chrs ds) = true := by
  induction ds with
  | nil => rfl
  | cons d ds ih =>
    simp at h
    simp [reb64, chrs, idx_chr h.1]
    intro x hx
    simp [idx_chr (h.2 x hx)]

theorem reb64_append (s t : List Char) : reb64 (s ++ t) = (reb64 s && reb64 t) := by simp [reb64]

theorem b64ToIntLoop_chrs (ds : List Nat) (h : AllLt 64 ds) (e i : Nat) (hi : i < 64 ^ e) :
    b64ToIntLoop (chrs ds) e i = .ok (ofDigits 64 ds.reverse * 64 ^ e + i) := by
  induction ds generalizing e i with
  | nil => simp [b64ToIntLoop]
  | cons d ds ih =>
    simp at h
    have hp : 2 ^ (e * 6) = 64 ^ e := by
      rw [Nat.mul_comm, Nat.pow_mul]
    have hor : i ||| (d <<< (e * 6)) = d * 64 ^ e + i := by
      rw [Nat.or_comm, ← Nat.shiftLeft_add_eq_or_of_lt (by rw [hp]; exact hi), Nat.shiftLeft_eq, hp]
    have hlt : d * 64 ^ e + i < 64 ^ (e + 1) := by
      have : (d + 1) * 64 ^ e ≤ 64 * 64 ^ e := Nat.mul_le_mul_right _ h.1
      rw [Nat.pow_succ]
      grind
    show b64ToIntLoop (chr d :: chrs ds) e i = _
    rw [b64ToIntLoop, idx_chr h.1]
    simp only
    rw [hor, ih h.2 _ _ hlt, List.reverse_cons, ofDigits_concat, Nat.pow_succ]
    congr 1
    grind

theorem b64ToInt_chrs {ds : List Nat} (h : AllLt 64 ds) (hne : ds ≠ []) :
    b64ToInt (chrs ds) = .ok (ofDigits 64 ds) := by
  have hne' : chrs ds ≠ [] := by simpa [chrs] using hne
  have hr : (chrs ds).reverse = chrs ds.reverse := by simp [chrs]
  rw [b64ToInt, if_neg hne', hr, b64ToIntLoop_chrs _ (by intro d hd; exact h d (by simpa using hd)) 0 0 (by simp)]
  simp

theorem b64ToIntLoop_error (s : List Char) (h : reb64 s = false) (e i : Nat) :
    b64ToIntLoop s e i = .error .keyError := by
  induction s generalizing e i with
  | nil => simp [reb64] at h
  | cons c s ih =>
    rw [b64ToIntLoop]
    cases hc : idx c with
    | none => rfl
    | some d =>
      have : reb64 s = false := by simpa [reb64, hc] using h
      exact ih this _ _

/-- Outcome of `b64ToInt` on every input. -/
theorem b64ToInt_eq_error {s : List Char} (hs : s ≠ []) (h : reb64 s = false) :
    b64ToInt s = .error .keyError := by
  rw [b64ToInt, if_neg hs]
  apply b64ToIntLoop_error
  simpa [reb64] using h

theorem intDigits_pos (i : Nat) : 0 < (intDigits i).length := by
  rw [intDigits]; split <;> simp

/-- `intDigits i` in `w` digits when it fits. -/
theorem intDigits_spec (i : Nat) :
    AllLt 64 (intDigits i) ∧ ofDigits 64 (intDigits i) = i := by
  fun_induction intDigits i with
  | case1 i h => simp; omega
  | case2 i h ih =>
    simp [ih.1, ofDigits_concat, ih.2]
    omega

/-- no shorter representation -/
theorem intDigits_length_le {i w : Nat} (hw : 0 < w) (h : i < 64 ^ w) : (intDigits i).length ≤ w := by
  induction w generalizing i with
  | zero => omega
  | succ w ih =>
    rw [intDigits]
    split
    · simp
    · next h0 =>
      cases w with
      | zero => simp at h; omega
      | succ w =>
        have : i / 64 < 64 ^ (w + 1) := by
          rw [Nat.pow_succ] at h; omega
        have := ih (by omega) this
        simp; omega

theorem chr_zero : chr 0 = 'A' := rfl

theorem replicate_A (n : Nat) : List.replicate n 'A' = chrs (List.replicate n 0) := by
  simp [chrs, chr_zero]

/-- For a number that fits, `intToB64 i l` is its `l`-digit representation. -/
theorem intToB64_eq {i l : Nat} (h : i < 64 ^ l) : intToB64 i l = chrs (toDigits 64 l i) := by
  unfold intToB64
  split
  · next h0 => subst h0; rfl
  · next h0 =>
    have h1 := intDigits_length_le (Nat.pos_of_ne_zero h0) h
    have h2 := intDigits_spec i
    show List.replicate (l - (List.map chr (intDigits i)).length) 'A' ++ chrs (intDigits i) = _
    rw [replicate_A, ← chrs_append]
    congr 1
    apply ofDigits_inj (b := 64)
    · simp [h2.1, allLt_replicate_zero]
    · exact toDigits_allLt (by omega) _ _
    · simp; omega
    · rw [ofDigits_zeros_append, h2.2, ofDigits_toDigits_of_lt h]

/-- General form of `intToB64` for positive width. -/
theorem intToB64_general {i l : Nat} (hl : 0 < l) :
    ∃ ds, AllLt 64 ds ∧ intToB64 i l = chrs ds ∧ ofDigits 64 ds = i ∧ l ≤ ds.length ∧ ds ≠ [] := by
  refine ⟨List.replicate (l - (intDigits i).length) 0 ++ intDigits i, ?_, ?_, ?_, ?_, ?_⟩
  · simp [(intDigits_spec i).1, allLt_replicate_zero]
  · unfold intToB64
    rw [if_neg (by omega)]
    simp [replicate_A, chrs]
  · rw [ofDigits_zeros_append, (intDigits_spec i).2]
  · simp; omega
  · have := intDigits_pos i
    intro h
    simp at h
    simp [h.2] at this

end Verif.B64
