import Verif.Codec.MatterMake

/-! # C50: every fixed size code carries material of the size it is documented for -/

namespace Verif.Matter

open Verif.B64

/-- What the comments of `MatterCodex` (coring.py:235-299) say about a code: the number of bytes of material (bits / 8, key and
signature sizes of the named algorithm, sealed box = plain text + 48) and the number of characters of the special value. -/
structure Doc where
  code : String
  bytes : Nat
  chars : Nat

/-- coring.py:235-299, the documented sizes of the fixed size codes. -/
def docs : List Doc :=
  [⟨"A", 256 / 8, 0⟩, ⟨"B", 32, 0⟩, ⟨"C", 32, 0⟩, ⟨"D", 32, 0⟩, ⟨"E", 256 / 8, 0⟩, ⟨"F", 256 / 8, 0⟩, ⟨"G", 256 / 8, 0⟩,
   ⟨"H", 256 / 8, 0⟩, ⟨"I", 256 / 8, 0⟩, ⟨"J", 256 / 8, 0⟩, ⟨"K", 448 / 8, 0⟩, ⟨"L", 56, 0⟩, ⟨"M", 2, 0⟩, ⟨"N", 8, 0⟩,
   ⟨"O", 32, 0⟩, ⟨"P", 44 + 48, 0⟩, ⟨"Q", 256 / 8, 0⟩, ⟨"R", 5, 0⟩, ⟨"S", 11, 0⟩, ⟨"T", 14, 0⟩, ⟨"U", 17, 0⟩, ⟨"V", 1, 0⟩,
   ⟨"W", 2, 0⟩, ⟨"X", 0, 3⟩, ⟨"Y", 0, 7⟩, ⟨"Z", 0, 11⟩, ⟨"a", 256 / 8, 0⟩, ⟨"b", 3, 3⟩, ⟨"0A", 128 / 8, 0⟩, ⟨"0B", 64, 0⟩,
   ⟨"0C", 64, 0⟩, ⟨"0D", 512 / 8, 0⟩, ⟨"0E", 512 / 8, 0⟩, ⟨"0F", 512 / 8, 0⟩, ⟨"0G", 512 / 8, 0⟩, ⟨"0H", 4, 0⟩, ⟨"0I", 64, 0⟩,
   ⟨"0J", 0, 1⟩, ⟨"0K", 0, 2⟩, ⟨"0L", 0, 5⟩, ⟨"0M", 0, 6⟩, ⟨"0N", 0, 9⟩, ⟨"0O", 0, 10⟩, ⟨"1AAA", 33, 0⟩, ⟨"1AAB", 33, 0⟩,
   ⟨"1AAC", 57, 0⟩, ⟨"1AAD", 57, 0⟩, ⟨"1AAE", 114, 0⟩, ⟨"1AAF", 0, 4⟩, ⟨"1AAG", 32 * 3 / 4, 0⟩, ⟨"1AAH", 24 + 48, 0⟩,
   ⟨"1AAI", 33, 0⟩, ⟨"1AAJ", 33, 0⟩, ⟨"1AAK", 0, 0⟩, ⟨"1AAL", 0, 0⟩, ⟨"1AAM", 0, 0⟩, ⟨"1AAN", 0, 8⟩, ⟨"1AAO", 0, 0⟩,
   ⟨"1AAP", 0, 0⟩, ⟨"1__-", 4, 2⟩, ⟨"1___", 3, 0⟩, ⟨"2__-", 3, 1⟩, ⟨"2___", 2, 0⟩, ⟨"3__-", 2, 2⟩, ⟨"3___", 1, 0⟩]

theorem docs_table : ∀ d ∈ docs, ∃ sz fs, sizes? d.code.toList = some sz ∧ sz.fs = some fs ∧ rawSize sz fs = d.bytes ∧
    sz.ss - sz.xs = d.chars ∧ (sz.ss = 0 ↔ d.chars = 0) := by
  have h : ∀ d ∈ docs, (match sizes? d.code.toList with
      | none => false
      | some sz => match sz.fs with
        | none => false
        | some fs => decide (rawSize sz fs = d.bytes ∧ sz.ss - sz.xs = d.chars ∧ (sz.ss = 0 ↔ d.chars = 0))) = true := by
    decide +kernel
  intro d hd
  have := h d hd
  split at this
  · exact absurd this (by simp)
  · rename_i sz hsz
    split at this
    · exact absurd this (by simp)
    · rename_i fs hfs
      simp only [decide_eq_true_eq] at this
      exact ⟨sz, fs, hsz, hfs, this⟩

/-- Every fixed size code of the table is documented. -/
theorem c50_all_documented (code : List Char) (sz : Sizage) (fs : Nat) (h : sizes? code = some sz) (hf : sz.fs = some fs) :
    ∃ d ∈ docs, d.code.toList = code := by
  have key : ∀ x ∈ sizes, x.2.fs ≠ none → docs.any (fun d => d.code.toList == x.1) = true := by decide +kernel
  have hmem : (code, sz) ∈ sizes := by
    unfold sizes? at h
    obtain ⟨l1, l2, heq, _⟩ := List.lookup_eq_some_iff.1 h
    rw [heq]; simp
  have := key _ hmem (by rw [hf]; simp)
  rw [List.any_eq_true] at this
  obtain ⟨d, hd, he⟩ := this
  exact ⟨d, hd, by simpa using he⟩

/-- **C50.** For every documented code, the constructor takes exactly the documented number of bytes from the given material,
refuses less, and takes exactly the documented number of characters of the special value, refusing fewer or characters outside
Base64. -/
theorem c50_sizes (d : Doc) (hd : d ∈ docs) (soft : List Char) (raw : List Nat) (rize : Option Int) :
    (d.bytes ≤ raw.length ∧ d.chars ≤ soft.length ∧ reb64 (soft.take d.chars) = true →
      make d.code.toList soft raw rize = .ok ⟨d.code.toList, soft.take d.chars, raw.take d.bytes⟩) ∧
    (raw.length < d.bytes ∨ soft.length < d.chars ∨ reb64 (soft.take d.chars) = false →
      ∃ e, make d.code.toList soft raw rize = .error e) := by
  obtain ⟨sz, fs, h1, h2, h3, h4, h5⟩ := docs_table d hd
  have hne : d.code.toList ≠ [] := by
    intro h; rw [h] at h1
    have : sizes? [] = none := by decide +kernel
    rw [this] at h1; exact absurd h1 (by simp)
  have hz : d.chars = 0 → reb64 (soft.take d.chars) = true := by intro h; rw [h]; rfl
  unfold make
  rw [if_neg hne, h1]
  simp only [h2, fixedSoft, h4, h3]
  constructor
  · rintro ⟨g1, g2, g3⟩
    by_cases hss : 0 < sz.ss
    · simp [hss, g3, List.length_take, Nat.min_eq_left g1, Nat.min_eq_left g2]
    · have : d.chars = 0 := h5.1 (by omega)
      simp [hss, this, List.length_take, Nat.min_eq_left g1]
  · intro g
    by_cases hss : 0 < sz.ss
    · simp only [hss, if_true]
      by_cases hl : (List.take d.chars soft).length ≠ d.chars
      · rw [if_pos hl]; exact ⟨_, rfl⟩
      · rw [if_neg hl]
        by_cases hr : reb64 (List.take d.chars soft) = true
        · simp only [hr, Bool.not_true, Bool.false_eq_true, if_false]
          have : (List.take d.bytes raw).length ≠ d.bytes := by
            rw [List.length_take] at hl ⊢
            rcases g with g | g | g
            · omega
            · omega
            · rw [g] at hr; exact absurd hr (by simp)
          rw [if_pos this]; exact ⟨_, rfl⟩
        · simp [hr]
    · have h0 : d.chars = 0 := h5.1 (by omega)
      simp only [hss, if_false]
      have : (List.take d.bytes raw).length ≠ d.bytes := by
        rw [List.length_take]
        rcases g with g | g | g
        · omega
        · omega
        · rw [hz h0] at g; exact absurd g (by simp)
      rw [if_pos this]; exact ⟨_, rfl⟩

/-- Both cases occur. -/
example : make "M".toList [] [1, 2, 3] none = .ok ⟨"M".toList, [], [1, 2]⟩ ∧
    make "0L".toList "abcdef".toList [] none = .ok ⟨"0L".toList, "abcde".toList, []⟩ ∧
    make "M".toList [] [1] none = .error .rawMaterial := by decide +kernel

end Verif.Matter
