import Verif.Codec.Texts
import Verif.Codec.PropsMatter

/-! # Helper lemmas for the text and number primitives -/

namespace Verif.Matter

open Verif.B64

theorem toDigits_zero (b w : Nat) : toDigits b w 0 = List.replicate w 0 := by
  induction w with
  | zero => rfl
  | succ w ih => simp [toDigits, ih, List.replicate_succ']

theorem bits_replicate_zero (w n : Nat) : bits w (List.replicate n 0) = List.replicate (w * n) 0 := by
  induction n with
  | zero => simp [bits]
  | succ n ih =>
    rw [List.replicate_succ, bits_cons, ih, toDigits_zero, List.replicate_append_replicate]
    congr 1; rw [Nat.mul_succ]; omega

/-- The decoded bytes of a wadded text start with the lead, and encoding gives the wadded text back. -/
theorem wad_roundtrip (s : List Char) (hs : AllDec s) :
    ∃ raw, rawOfText s = .ok raw ∧ AllLt 256 raw ∧
      encodeB64 (zeros (leadSize s.length) ++ raw) = List.replicate (wadSize s.length) 'A' ++ chrs (decVals s) ∧
      (3 - raw.length % 3) % 3 = leadSize s.length ∧
      4 * (raw.length + leadSize s.length) = 3 * (s.length + wadSize s.length) := by
  have hbase : AllDec (List.replicate (wadSize s.length) 'A' ++ s) := by
    rw [allDec_append]
    refine ⟨?_, hs⟩
    rw [replicate_A]
    exact allDec_chrs (allLt_replicate_zero (by omega) _)
  have hlen : (List.replicate (wadSize s.length) 'A' ++ s).length % 4 = 0 := by
    simp only [List.length_append, List.length_replicate, wadSize]; omega
  obtain ⟨b, h1, h2, h3⟩ := decodeB64_complete hbase hlen
  have hdv : decVals (List.replicate (wadSize s.length) 'A' ++ s)
      = List.replicate (wadSize s.length) 0 ++ decVals s := by
    rw [replicate_A]
    have : decVals (chrs (List.replicate (wadSize s.length) 0)) = _ :=
      decVals_chrs (allLt_replicate_zero (by omega) _)
    simp only [decVals, List.filterMap_append] at this ⊢
    rw [this]
  rw [hdv, bits_append, bits_replicate_zero] at h3
  have hblen : 8 * b.length = 6 * wadSize s.length + 6 * s.length := by
    have := congrArg List.length h3
    simpa [decVals_length hs] using this
  have hb : b = zeros (leadSize s.length) ++ b.drop (leadSize s.length) := by
    have hle : 8 * leadSize s.length ≤ 6 * wadSize s.length := by unfold leadSize wadSize; omega
    have ht : b.take (leadSize s.length) = zeros (leadSize s.length) := by
      apply bits_inj (w := 8) (by omega) (h2.take _) (allLt_replicate_zero (by omega) _)
      rw [bits_take, h3, bits_replicate_zero, List.take_append_of_le_length (by simp; omega), List.take_replicate,
        Nat.min_eq_left hle]
    rw [← ht, List.take_append_drop]
  obtain ⟨ds, e1, e2, e3⟩ := encodeB64_aligned b h2 (by unfold wadSize at hblen; omega)
  have hds : ds = List.replicate (wadSize s.length) 0 ++ decVals s := by
    apply bits_inj (w := 6) (by omega) e1
    · intro d hd
      rcases List.mem_append.mp hd with h | h
      · exact allLt_replicate_zero (by omega) _ d h
      · exact decVals_allLt s d h
    · rw [e3, h3, bits_append, bits_replicate_zero]
  refine ⟨b.drop (leadSize s.length), by simp only [rawOfText, h1], h2.drop _, ?_, ?_, ?_⟩
  · rw [← hb, e2, hds, replicate_A]; simp [chrs]
  · simp only [List.length_drop]; unfold leadSize wadSize at *; omega
  · simp only [List.length_drop]; unfold leadSize wadSize at *; omega

theorem textOfRaw_spec (s : List Char) (hs : AllDec s) (raw : List Nat)
    (h : rawOfText s = .ok raw) (hA : ∀ rest, s = 'A' :: rest → 2 ≤ wadSize s.length) :
    textOfRaw (leadSize s.length) raw = chrs (decVals s) := by
  obtain ⟨raw', h1, _, h3, _, _⟩ := wad_roundtrip s hs
  rw [h] at h1; injection h1 with h1; subst h1
  have hw : wadSize s.length < 4 := by unfold wadSize; omega
  unfold textOfRaw
  simp only [h3]
  cases s with
  | nil => simp [wadSize, decVals, chrs]
  | cons c cs =>
    rw [allDec_cons] at hs
    obtain ⟨v, hv⟩ := Option.isSome_iff_exists.mp hs.1
    have hdv : decVals (c :: cs) = v :: decVals cs := by simp [decVals, hv]
    have hne : ∀ x, wadSize (c :: cs).length = x → x < 2 → chr v ≠ 'A' := by
      intro x hx hx2 hc
      have hv0 : v = 0 := by
        have := idx_chr (decIdx_lt hv)
        rw [hc] at this
        have hA' : idx 'A' = some 0 := by decide +kernel
        rw [hA'] at this; exact (Option.some.inj this).symm
      have hcA : c = 'A' := by
        subst hv0
        unfold decIdx at hv
        split at hv
        · simp at hv
        · split at hv
          · simp at hv
          · have := (idx_some hv).2
            rw [← this]; rfl
      have := hA cs (by rw [hcA])
      omega
    rw [hdv]
    have hcase : wadSize (c :: cs).length = 0 ∨ wadSize (c :: cs).length = 1 ∨ wadSize (c :: cs).length = 2 ∨
        wadSize (c :: cs).length = 3 := by omega
    rcases hcase with hc | hc | hc | hc
    · have hl : leadSize (c :: cs).length = 0 := by unfold leadSize wadSize at *; omega
      rw [hc, hl]
      simp [chrs, hne 0 hc (by omega)]
    · have hl : leadSize (c :: cs).length = 0 := by unfold leadSize wadSize at *; omega
      rw [hc, hl]
      simp [chrs]
    · have hl : leadSize (c :: cs).length = 1 := by unfold leadSize wadSize at *; omega
      rw [hc, hl]
      simp [chrs, List.replicate]
    · have hl : leadSize (c :: cs).length = 2 := by unfold leadSize wadSize at *; omega
      rw [hc, hl]
      simp [chrs, List.replicate]

/-- Construction with a variable size code: the raw is kept and the lead size is the one the raw length asks for. -/
theorem make_var {code : List Char} {raw : List Nat} {sz : Sizage} (hs : sizes? code = some sz)
    (hf : sz.fs = none) (hlen : (raw.length + 2) / 3 ≤ 64 ^ 4 - 1) :
    ∃ m sz', make code [] raw none = .ok m ∧ m.raw = raw ∧ sizes? m.code = some sz' ∧
      sz'.ls = (3 - raw.length % 3) % 3 ∧ sz'.fs = none ∧ m.code.getLast? = code.getLast? := by
  obtain ⟨m, sz', h1, h2, h3, h4, h5, h6, _, _, h7, _⟩ := (c09_variable_size code [] raw sz hs hf).1 hlen
  exact ⟨m, sz', h1, h2, h3, by omega, h4, h7⟩

theorem var_last_A : ∀ e ∈ sizes, e.2.fs = none → e.1.getLast? = some 'A' → e.1 ∈ bexDex := by decide +kernel
theorem var_last_H : ∀ e ∈ sizes, e.2.fs = none → e.1.getLast? = some 'H' → e.1 ∈ decDex := by decide +kernel

theorem allDec_of_reb64 {s : List Char} (h : reb64 s = true) : AllDec s ∧ chrs (decVals s) = s := by
  obtain ⟨ds, h1, rfl⟩ := exists_digits h
  exact ⟨allDec_chrs h1, by rw [decVals_chrs h1]⟩

end Verif.Matter
