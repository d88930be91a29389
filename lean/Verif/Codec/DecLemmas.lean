import Verif.Codec.B64Lemmas
import Verif.Codec.Bits
import Verif.Codec.Matter

/-! # Lemmas on the Base64 block encoder and the lenient decoder -/

namespace Verif

theorem toDigits_mod (b w n : Nat) : toDigits b w (n % b ^ w) = toDigits b w n := by
  rcases Nat.eq_zero_or_pos b with rfl | hb
  · cases w with
    | zero => rfl
    | succ w => simp
  · apply ofDigits_inj (b := b) (toDigits_allLt hb _ _) (toDigits_allLt hb _ _) (by simp)
    simp [ofDigits_toDigits]

end Verif

namespace Verif.Matter

open Verif.B64

theorem decIdx_lt {c : Char} {v : Nat} (h : decIdx c = some v) : v < 64 := by
  unfold decIdx at h
  split at h
  · injection h; omega
  · split at h
    · injection h; omega
    · exact (idx_some h).1

theorem decIdx_of_idx {c : Char} {v : Nat} (h : idx c = some v) : decIdx c = some v := by
  unfold decIdx
  split
  · next hc => subst hc; rw [show idx '+' = none by decide +kernel] at h; exact absurd h (by simp)
  · split
    · next hc => subst hc; rw [show idx '/' = none by decide +kernel] at h; exact absurd h (by simp)
    · exact h

theorem decIdx_chr {i : Nat} (h : i < 64) : decIdx (chr i) = some i := decIdx_of_idx (idx_chr h)

theorem decIdx_pad : decIdx '=' = none := by decide +kernel

/-- Sextet values understood by the decoder. -/
def decVals (s : List Char) : List Nat := s.filterMap decIdx

/-- Every character is understood by the decoder. -/
def AllDec (s : List Char) : Prop := ∀ c ∈ s, (decIdx c).isSome = true

instance (s : List Char) : Decidable (AllDec s) :=
  inferInstanceAs (Decidable (∀ c ∈ s, (decIdx c).isSome = true))

theorem allDec_cons {c : Char} {s : List Char} : AllDec (c :: s) ↔ (decIdx c).isSome = true ∧ AllDec s := by
  simp [AllDec]

theorem allDec_append {s t : List Char} : AllDec (s ++ t) ↔ AllDec s ∧ AllDec t := by
  simp [AllDec, or_imp, forall_and]

theorem allDec_chrs {ds : List Nat} (h : AllLt 64 ds) : AllDec (chrs ds) := by
  intro c hc
  simp [chrs] at hc
  obtain ⟨d, hd, rfl⟩ := hc
  simp [decIdx_chr (h d hd)]

theorem decVals_chrs {ds : List Nat} (h : AllLt 64 ds) : decVals (chrs ds) = ds := by
  induction ds with
  | nil => rfl
  | cons d ds ih =>
    simp at h
    simp [decVals, chrs, decIdx_chr h.1]
    simpa [decVals, chrs] using ih h.2

@[simp] theorem decVals_append (s t : List Char) : decVals (s ++ t) = decVals s ++ decVals t := by
  simp [decVals]

theorem decVals_length {s : List Char} (h : AllDec s) : (decVals s).length = s.length := by
  induction s with
  | nil => rfl
  | cons c s ih =>
    rw [allDec_cons] at h
    obtain ⟨v, hv⟩ := Option.isSome_iff_exists.1 h.1
    simp [decVals, hv]
    simpa [decVals] using ih h.2

theorem decVals_allLt (s : List Char) : AllLt 64 (decVals s) := by
  intro d hd
  simp only [decVals, List.mem_filterMap] at hd
  obtain ⟨c, _, hc⟩ := hd
  exact decIdx_lt hc

/-- Bits carried over inside a quad. -/
def leftLen (q : Nat) : Nat := if q = 1 then 6 else if q = 2 then 4 else if q = 3 then 2 else 0

theorem step1 {l v : Nat} (hv : v < 64) :
    toDigits 2 8 (l * 4 + v / 16) ++ toDigits 2 4 (v % 16) = toDigits 2 6 l ++ toDigits 2 6 v := by
  have e1 : toDigits 2 (6 + 2) (l * 2 ^ 2 + v / 16) = toDigits 2 6 l ++ toDigits 2 2 (v / 16) :=
    toDigits_mul_pow_add (by omega)
  have e2 : toDigits 2 (2 + 4) v = toDigits 2 2 (v / 2 ^ 4) ++ toDigits 2 4 v := toDigits_add _ _ _ _
  have e3 := toDigits_mod 2 4 v
  simp at e1 e2 e3
  rw [e1, e2, e3]; simp

theorem step2 {l v : Nat} (hv : v < 64) :
    toDigits 2 8 (l * 16 + v / 4) ++ toDigits 2 2 (v % 4) = toDigits 2 4 l ++ toDigits 2 6 v := by
  have e1 : toDigits 2 (4 + 4) (l * 2 ^ 4 + v / 4) = toDigits 2 4 l ++ toDigits 2 4 (v / 4) :=
    toDigits_mul_pow_add (by omega)
  have e2 : toDigits 2 (4 + 2) v = toDigits 2 4 (v / 2 ^ 2) ++ toDigits 2 2 v := toDigits_add _ _ _ _
  have e3 := toDigits_mod 2 2 v
  simp at e1 e2 e3
  rw [e1, e2, e3]; simp

theorem step3 {l v : Nat} (hv : v < 64) :
    toDigits 2 8 (l * 64 + v) = toDigits 2 2 l ++ toDigits 2 6 v := by
  have e1 : toDigits 2 (2 + 6) (l * 2 ^ 6 + v) = toDigits 2 2 l ++ toDigits 2 6 v :=
    toDigits_mul_pow_add (by omega)
  simpa using e1

/-- Whatever the decoder returns is no longer than the text allows; when it is exactly that long, no character
was skipped and the bytes are the bits of the sextets. -/
theorem a2b_sound (s : List Char) (q l p : Nat) (hq : q ≤ 3) (b : List Nat) (h : a2b s q l p = .ok b) :
    8 * b.length ≤ 6 * s.length + leftLen q ∧
    (8 * b.length = 6 * s.length + leftLen q →
      AllDec s ∧ (l < 2 ^ leftLen q →
        AllLt 256 b ∧ bits 8 b = toDigits 2 (leftLen q) l ++ bits 6 (decVals s))) := by
  induction s generalizing q l p b with
  | nil =>
    simp only [a2b] at h
    split at h
    · next hq0 =>
      injection h with h
      subst h; subst hq0
      simp [leftLen, AllDec, decVals, toDigits]
    · exact absurd h (by simp)
  | cons c s ih =>
    simp only [a2b] at h
    by_cases hpad : c = '='
    · rw [if_pos hpad] at h
      have key : ∀ p', a2b s q l p' = .ok b →
          8 * b.length ≤ 6 * (c :: s).length + leftLen q ∧
          (8 * b.length = 6 * (c :: s).length + leftLen q → AllDec (c :: s) ∧ (l < 2 ^ leftLen q →
            AllLt 256 b ∧ bits 8 b = toDigits 2 (leftLen q) l ++ bits 6 (decVals (c :: s)))) := by
        intro p' h'
        have := (ih q l p' hq b h').1
        simp only [List.length_cons]
        constructor
        · omega
        · intro he; omega
      split at h
      · split at h
        · injection h with h
          subst h
          simp only [List.length_nil, List.length_cons]
          constructor
          · omega
          · intro he; omega
        · exact key _ h
      · exact key _ h
    · rw [if_neg hpad] at h
      cases hv : decIdx c with
      | none =>
        rw [hv] at h
        have := (ih q l p hq b h).1
        simp only [List.length_cons]
        constructor
        · omega
        · intro he; omega
      | some v =>
        rw [hv] at h
        simp only at h
        have hlt := decIdx_lt hv
        have hdv : decVals (c :: s) = v :: decVals s := by simp [decVals, hv]
        have hcd : ∀ {t : List Char}, AllDec t → AllDec (c :: t) := by
          intro t ht; rw [allDec_cons]; exact ⟨by simp [hv], ht⟩
        rcases (by omega : q = 0 ∨ q = 1 ∨ q = 2 ∨ q = 3) with rfl | rfl | rfl | rfl
        · simp only [if_true] at h
          have := ih 1 v 0 (by omega) b h
          simp only [leftLen, List.length_cons] at this ⊢
          simp only [Nat.reducePow, if_true, if_false, Nat.reduceEqDiff, Nat.zero_ne_one] at this ⊢
          refine ⟨by omega, fun he => ?_⟩
          have h2 := this.2 (by omega)
          refine ⟨hcd h2.1, fun _ => ?_⟩
          have h3 := h2.2 (by omega)
          refine ⟨h3.1, ?_⟩
          rw [h3.2, hdv, bits_cons]
          simp [toDigits]
        · simp only [Nat.reduceEqDiff, if_false, if_true] at h
          cases hr : a2b s 2 (v % 16) 0 with
          | error e => rw [hr] at h; exact absurd h (by simp [Except.map])
          | ok r =>
            rw [hr] at h
            simp only [Except.map, Except.ok.injEq] at h
            subst h
            have := ih 2 (v % 16) 0 (by omega) r hr
            simp only [leftLen, List.length_cons] at this ⊢
            simp only [Nat.reducePow, if_true, if_false, Nat.reduceEqDiff] at this ⊢
            refine ⟨by omega, fun he => ?_⟩
            have h2 := this.2 (by omega)
            refine ⟨hcd h2.1, fun hl => ?_⟩
            have h3 := h2.2 (by omega)
            refine ⟨by rw [allLt_cons]; exact ⟨by omega, h3.1⟩, ?_⟩
            rw [bits_cons, h3.2, hdv, bits_cons, ← List.append_assoc, step1 hlt, List.append_assoc]
        · simp only [Nat.reduceEqDiff, if_false, if_true] at h
          cases hr : a2b s 3 (v % 4) 0 with
          | error e => rw [hr] at h; exact absurd h (by simp [Except.map])
          | ok r =>
            rw [hr] at h
            simp only [Except.map, Except.ok.injEq] at h
            subst h
            have := ih 3 (v % 4) 0 (by omega) r hr
            simp only [leftLen, List.length_cons] at this ⊢
            simp only [Nat.reducePow, if_true, if_false, Nat.reduceEqDiff] at this ⊢
            refine ⟨by omega, fun he => ?_⟩
            have h2 := this.2 (by omega)
            refine ⟨hcd h2.1, fun hl => ?_⟩
            have h3 := h2.2 (by omega)
            refine ⟨by rw [allLt_cons]; exact ⟨by omega, h3.1⟩, ?_⟩
            rw [bits_cons, h3.2, hdv, bits_cons, ← List.append_assoc, step2 hlt, List.append_assoc]
        · simp only [Nat.reduceEqDiff, if_false] at h
          cases hr : a2b s 0 0 0 with
          | error e => rw [hr] at h; exact absurd h (by simp [Except.map])
          | ok r =>
            rw [hr] at h
            simp only [Except.map, Except.ok.injEq] at h
            subst h
            have := ih 0 0 0 (by omega) r hr
            simp only [leftLen, List.length_cons] at this ⊢
            simp only [Nat.reducePow, if_true, if_false, Nat.reduceEqDiff, Nat.zero_ne_one] at this ⊢
            refine ⟨by omega, fun he => ?_⟩
            have h2 := this.2 (by omega)
            refine ⟨hcd h2.1, fun hl => ?_⟩
            have h3 := h2.2 (by omega)
            refine ⟨by rw [allLt_cons]; exact ⟨by omega, h3.1⟩, ?_⟩
            rw [bits_cons, h3.2, hdv, bits_cons, step3 hlt]
            simp [toDigits]

/-- On text made only of understood characters and complete quads, the decoder succeeds and skips nothing. -/
theorem a2b_complete (s : List Char) (q l p : Nat) (hq : q ≤ 3) (hs : AllDec s) (hlen : (q + s.length) % 4 = 0) :
    ∃ b, a2b s q l p = .ok b ∧ 8 * b.length = 6 * s.length + leftLen q := by
  induction s generalizing q l p with
  | nil =>
    simp at hlen
    have : q = 0 := by omega
    subst this
    exact ⟨[], by simp [a2b], rfl⟩
  | cons c s ih =>
    rw [allDec_cons] at hs
    obtain ⟨v, hv⟩ := Option.isSome_iff_exists.1 hs.1
    have hpad : c ≠ '=' := by rintro rfl; rw [decIdx_pad] at hv; exact absurd hv (by simp)
    simp only [a2b, if_neg hpad, hv]
    simp only [List.length_cons] at hlen ⊢
    rcases (by omega : q = 0 ∨ q = 1 ∨ q = 2 ∨ q = 3) with rfl | rfl | rfl | rfl
    · obtain ⟨b, h1, h2⟩ := ih 1 v 0 (by omega) hs.2 (by omega)
      exact ⟨b, by simpa using h1, by simp [leftLen] at h2 ⊢; omega⟩
    · obtain ⟨b, h1, h2⟩ := ih 2 (v % 16) 0 (by omega) hs.2 (by omega)
      exact ⟨(l * 4 + v / 16) :: b, by simp [h1, Except.map], by simp [leftLen] at h2 ⊢; omega⟩
    · obtain ⟨b, h1, h2⟩ := ih 3 (v % 4) 0 (by omega) hs.2 (by omega)
      exact ⟨(l * 16 + v / 4) :: b, by simp [h1, Except.map], by simp [leftLen] at h2 ⊢; omega⟩
    · obtain ⟨b, h1, h2⟩ := ih 0 0 0 (by omega) hs.2 (by omega)
      exact ⟨(l * 64 + v) :: b, by simp [h1, Except.map], by simp [leftLen] at h2 ⊢; omega⟩

theorem decodeB64_complete {s : List Char} (hs : AllDec s) (hlen : s.length % 4 = 0) :
    ∃ b, decodeB64 s = .ok b ∧ AllLt 256 b ∧ bits 8 b = bits 6 (decVals s) := by
  obtain ⟨b, h1, h2⟩ := a2b_complete s 0 0 0 (by omega) hs (by simpa using hlen)
  have h3 := (a2b_sound s 0 0 0 (by omega) b h1).2 h2
  have h4 := h3.2 (by simp [leftLen])
  exact ⟨b, h1, h4.1, by simpa [leftLen, toDigits] using h4.2⟩

theorem decodeB64_sound {s : List Char} {b : List Nat} (h : decodeB64 s = .ok b) :
    4 * b.length ≤ 3 * s.length ∧
    (4 * b.length = 3 * s.length → AllDec s ∧ AllLt 256 b ∧ bits 8 b = bits 6 (decVals s)) := by
  have h1 := a2b_sound s 0 0 0 (by omega) b h
  simp only [leftLen] at h1
  refine ⟨by simp at h1; omega, fun he => ?_⟩
  have h2 := h1.2 (by simp; omega)
  have h3 := h2.2 (by simp)
  exact ⟨h2.1, h3.1, by simpa [toDigits] using h3.2⟩

/-- The encoder on whole 24-bit groups: no pad characters, and the sextets carry the same bits. -/
theorem encodeB64_aligned (b : List Nat) (hb : AllLt 256 b) (hlen : b.length % 3 = 0) :
    ∃ ds, AllLt 64 ds ∧ encodeB64 b = chrs ds ∧ bits 6 ds = bits 8 b := by
  fun_induction encodeB64 b with
  | case1 => exact ⟨[], by simp, rfl, rfl⟩
  | case2 a => simp at hlen
  | case3 a b => simp at hlen
  | case4 a b c rest ih =>
    simp only [allLt_cons] at hb
    simp only [List.length_cons] at hlen
    obtain ⟨ds, h1, h2, h3⟩ := ih hb.2.2.2 (by omega)
    refine ⟨a / 4 :: (a % 4 * 16 + b / 16) :: (b % 16 * 4 + c / 64) :: c % 64 :: ds, ?_, ?_, ?_⟩
    · simp only [allLt_cons]
      exact ⟨by omega, by omega, by omega, by omega, h1⟩
    · simp [chrs, h2]
    · simp only [bits_cons, h3]
      have s1 := step1 (l := a / 4) (v := a % 4 * 16 + b / 16) (by omega)
      have s2 := step2 (l := b / 16) (v := b % 16 * 4 + c / 64) (by omega)
      have s3 := step3 (l := c / 64) (v := c % 64) (by omega)
      have e1 : a / 4 * 4 + (a % 4 * 16 + b / 16) / 16 = a := by omega
      have e2 : (a % 4 * 16 + b / 16) % 16 = b / 16 := by omega
      have e3 : b / 16 * 16 + (b % 16 * 4 + c / 64) / 4 = b := by omega
      have e4 : (b % 16 * 4 + c / 64) % 4 = c / 64 := by omega
      have e5 : c / 64 * 64 + c % 64 = c := by omega
      rw [e1, e2] at s1
      rw [e3, e4] at s2
      rw [e5] at s3
      rw [s3, ← List.append_assoc, ← s1, List.append_assoc, ← List.append_assoc (toDigits 2 4 (b/16)), ← s2]
      simp only [List.append_assoc]

end Verif.Matter
