import Verif.Codec.B64Lemmas
import Verif.Codec.Bits

/-!
# C01, C02: Base64 integers and code conversion
-/

namespace Verif.B64

/-- Sextet values of a text; specification only (unknown characters are dropped, the theorems are
about texts over the alphabet). -/
def sextets (s : List Char) : List Nat := s.filterMap idx

theorem sextets_chrs {ds : List Nat} (h : AllLt 64 ds) : sextets (chrs ds) = ds := by
  induction ds with
  | nil => rfl
  | cons d ds ih =>
    simp at h
    simp [sextets, chrs, idx_chr h.1]
    simpa [sextets, chrs] using ih h.2

/-- The characters are those of RFC 4648's URL-safe alphabet: `A-Z`, `a-z`, `0-9`, `-`, `_`. -/
theorem c01_alphabet (i : Nat) (h : i < 64) :
    chr i = (if i < 26 then Char.ofNat ('A'.toNat + i) else if i < 52 then Char.ofNat ('a'.toNat + (i - 26))
      else if i < 62 then Char.ofNat ('0'.toNat + (i - 52)) else if i = 62 then '-' else '_') := by
  have key : ∀ i < 64, chr i = (if i < 26 then Char.ofNat ('A'.toNat + i) else if i < 52 then Char.ofNat ('a'.toNat + (i - 26))
      else if i < 62 then Char.ofNat ('0'.toNat + (i - 52)) else if i = 62 then '-' else '_') := by decide +kernel
  exact key i h

/-- C01: reading back what `intToB64` wrote yields the number; the text uses only the alphabet, has at
least `l` characters, and no Base64 text of at least `l ≥ 1` characters denoting `n` is shorter. -/
theorem c01_int_roundtrip (n l : Nat) (hl : 0 < l) :
    b64ToInt (intToB64 n l) = .ok n ∧ reb64 (intToB64 n l) = true ∧ l ≤ (intToB64 n l).length ∧
    ∀ t, b64ToInt t = .ok n → l ≤ t.length → (intToB64 n l).length ≤ t.length := by
  obtain ⟨ds, h1, h2, h3, h4, h5⟩ := intToB64_general (i := n) hl
  refine ⟨?_, ?_, ?_, ?_⟩
  · rw [h2, b64ToInt_chrs h1 h5, h3]
  · rw [h2, reb64_chrs h1]
  · rw [h2, chrs_length]; exact h4
  · intro t ht htl
    by_cases hr : reb64 t = true
    · obtain ⟨es, e1, rfl⟩ := exists_digits hr
      have hne : es ≠ [] := by rintro rfl; simp at htl; omega
      rw [b64ToInt_chrs e1 hne] at ht
      have hv : ofDigits 64 es = n := by injection ht
      have hlt := ofDigits_lt e1
      rw [hv] at hlt
      have := intDigits_length_le (List.length_pos_iff.2 hne) hlt
      unfold intToB64
      rw [if_neg (by omega)]
      simp at htl ⊢
      omega
    · have hne : t ≠ [] := by rintro rfl; simp at htl; omega
      rw [b64ToInt_eq_error hne (by simpa using hr)] at ht
      exact absurd ht (by simp)

example : intToB64 4095 1 = ['_', '_'] ∧ b64ToInt ['_', '_'] = .ok 4095 ∧ intToB64 5 3 = ['A', 'A', 'F'] := by
  decide +kernel

/-- C01, the two degenerate cases: width zero yields the empty text, which `b64ToInt` refuses. -/
theorem c01_int_width_zero (n : Nat) : intToB64 n 0 = [] ∧ b64ToInt [] = .error .valueError :=
  ⟨rfl, rfl⟩

/-- C01, converse: a nonempty text over the alphabet is recovered from its value and length. -/
theorem c01_text_roundtrip (s : List Char) (hs : s ≠ []) (h : reb64 s = true) :
    ∃ n, b64ToInt s = .ok n ∧ intToB64 n s.length = s := by
  obtain ⟨ds, h1, rfl⟩ := exists_digits h
  have hne : ds ≠ [] := by rintro rfl; exact hs rfl
  refine ⟨_, b64ToInt_chrs h1 hne, ?_⟩
  rw [chrs_length, intToB64_eq (ofDigits_lt h1), toDigits_ofDigits h1]

/-- C01: any other text is refused. -/
theorem c01_text_refused (s : List Char) (h : reb64 s = false) : b64ToInt s = .error .keyError := by
  apply b64ToInt_eq_error _ h
  rintro rfl
  simp [reb64] at h

example : reb64 ['a', '=', 'b'] = false ∧ reb64 ['A', '-', '9'] = true := by decide +kernel

theorem sceil34_bits (l : Nat) : 8 * sceil34 l = 6 * l + 2 * (l % 4) := by
  unfold sceil34; omega

theorem codeB64ToB2_chrs {ds : List Nat} (h : AllLt 64 ds) (hne : ds ≠ []) :
    codeB64ToB2 (chrs ds) =
      .ok (toDigits 256 (sceil34 ds.length) (ofDigits 64 ds * 2 ^ (2 * (ds.length % 4)))) := by
  have hlt : ofDigits 64 ds * 2 ^ (2 * (ds.length % 4)) < 256 ^ sceil34 ds.length := by
    have e : (256 : Nat) ^ sceil34 ds.length = 64 ^ ds.length * 2 ^ (2 * (ds.length % 4)) := by
      rw [show (256 : Nat) = 2 ^ 8 from rfl, show (64 : Nat) = 2 ^ 6 from rfl, ← Nat.pow_mul, ← Nat.pow_mul,
        ← Nat.pow_add, sceil34_bits]
    rw [e]
    exact Nat.mul_lt_mul_of_pos_right (ofDigits_lt h) (Nat.pow_pos (by omega))
  unfold codeB64ToB2
  rw [b64ToInt_chrs h hne]
  simp only [bind, Except.bind, chrs_length, toBytes, Nat.shiftLeft_eq]
  rw [if_pos hlt]

/-- Bits of a byte string computed from its value, cut after `6*l` of its bits. -/
theorem ofDigits_take_bits {b : List Nat} (hb : AllLt 256 b) {l : Nat} (hl : sceil34 l ≤ b.length) :
    ofDigits 256 (b.take (sceil34 l)) / 2 ^ (2 * (l % 4)) = ofDigits 2 ((bits 8 b).take (6 * l)) := by
  have e2 : ((bits 8 b).take (8 * sceil34 l)).take (6 * l) = (bits 8 b).take (6 * l) := by
    rw [List.take_take]
    congr 1
    have := sceil34_bits l
    omega
  have hlen : (bits 8 (b.take (sceil34 l))).length = 8 * sceil34 l := by
    rw [bits_length, List.length_take]; congr 1; omega
  rw [← e2, ← bits_take, ofDigits_take (bits_allLt _ _), hlen,
    ofDigits_bits (hb.take _), sceil34_bits]
  congr 2
  omega

/-- C02: text to binary.  The binary form has ceil(3·len/4) bytes and its bits are the sextets of the text
followed by zero pad bits. -/
theorem c02_b64_to_b2 (s : List Char) (hs : s ≠ []) (h : reb64 s = true) :
    ∃ b, codeB64ToB2 s = .ok b ∧ AllLt 256 b ∧ b.length = (3 * s.length + 3) / 4 ∧
      bits 8 b = bits 6 (sextets s) ++ List.replicate (2 * (s.length % 4)) 0 := by
  obtain ⟨ds, h1, rfl⟩ := exists_digits h
  have hne : ds ≠ [] := by rintro rfl; exact hs rfl
  refine ⟨_, codeB64ToB2_chrs h1 hne, toDigits_allLt (by omega) _ _, ?_, ?_⟩
  · simp [sceil34]; congr 1; omega
  · rw [sextets_chrs h1]
    apply ofDigits_inj (b := 2) (bits_allLt _ _)
    · simp [bits_allLt, allLt_replicate_zero]
    · simp; exact sceil34_bits _
    · rw [ofDigits_bits (toDigits_allLt (by omega) _ _), ofDigits_append, ofDigits_bits h1,
        List.length_replicate, ofDigits_replicate_zero, chrs_length]
      have hlt : ofDigits 64 ds * 2 ^ (2 * (ds.length % 4)) < 256 ^ sceil34 ds.length := by
        have e : (256 : Nat) ^ sceil34 ds.length = 64 ^ ds.length * 2 ^ (2 * (ds.length % 4)) := by
          rw [show (256 : Nat) = 2 ^ 8 from rfl, show (64 : Nat) = 2 ^ 6 from rfl, ← Nat.pow_mul,
            ← Nat.pow_mul, ← Nat.pow_add, sceil34_bits]
        rw [e]
        exact Nat.mul_lt_mul_of_pos_right (ofDigits_lt h1) (Nat.pow_pos (by omega))
      show ofDigits 256 _ = _
      rw [ofDigits_toDigits_of_lt hlt]
      rfl

/-- C02: binary to text.  With enough bytes the answer is the text whose sextets are the first `6*l` bits;
whatever follows those bits is irrelevant. -/
theorem c02_b2_to_b64 (b : List Nat) (l : Nat) (hb : AllLt 256 b) (hl : 3 * l ≤ 4 * b.length) :
    ∃ s, codeB2ToB64 b l = .ok s ∧ s.length = l ∧ reb64 s = true ∧
      bits 6 (sextets s) = (bits 8 b).take (6 * l) := by
  have hn : sceil34 l ≤ b.length := by unfold sceil34; omega
  have hv := ofDigits_take_bits hb hn
  have hblen : ((bits 8 b).take (6 * l)).length = 6 * l := by
    rw [List.length_take, bits_length]; omega
  have hlt : ofDigits 256 (b.take (sceil34 l)) / 2 ^ (2 * (l % 4)) < 64 ^ l := by
    rw [hv, show (64 : Nat) = 2 ^ 6 from rfl, ← Nat.pow_mul]
    have := ofDigits_lt ((bits_allLt 8 b).take (6 * l))
    rwa [hblen] at this
  refine ⟨chrs (toDigits 64 l (ofDigits 256 (b.take (sceil34 l)) / 2 ^ (2 * (l % 4)))), ?_, by simp,
    reb64_chrs (toDigits_allLt (by omega) _ _), ?_⟩
  · unfold codeB2ToB64
    simp only
    rw [if_neg (by omega), Nat.shiftRight_eq_div_pow, intToB64_eq hlt]
  · rw [sextets_chrs (toDigits_allLt (by omega) _ _)]
    apply ofDigits_inj (b := 2) (bits_allLt _ _) ((bits_allLt _ _).take _)
    · rw [hblen]; simp
    · rw [ofDigits_bits (toDigits_allLt (by omega) _ _), ← hv]
      exact ofDigits_toDigits_of_lt hlt

/-- C02: too few bytes are refused. -/
theorem c02_b2_short (b : List Nat) (l : Nat) (hl : 4 * b.length < 3 * l) :
    codeB2ToB64 b l = .error .valueError ∧ nabSextets b l = .error .valueError := by
  have hn : sceil34 l > b.length := by unfold sceil34; omega
  simp [codeB2ToB64, nabSextets, hn]

/-- C02: lossless, also when further bytes follow the code. -/
theorem c02_code_roundtrip (s : List Char) (hs : s ≠ []) (h : reb64 s = true) (rest : List Nat)
    (hrest : AllLt 256 rest) :
    ∃ b, codeB64ToB2 s = .ok b ∧ codeB2ToB64 (b ++ rest) s.length = .ok s := by
  obtain ⟨b, h1, h2, h3, h4⟩ := c02_b64_to_b2 s hs h
  refine ⟨b, h1, ?_⟩
  obtain ⟨t, t1, t2, t3, t4⟩ := c02_b2_to_b64 (b ++ rest) s.length (by simp [h2, hrest])
    (by simp [h3]; omega)
  rw [t1]
  congr 1
  obtain ⟨ds, d1, rfl⟩ := exists_digits h
  obtain ⟨es, e1, rfl⟩ := exists_digits t3
  rw [sextets_chrs d1] at h4
  rw [sextets_chrs e1, bits_append, h4, List.append_assoc,
    List.take_append_of_le_length (by simp), List.take_of_length_le (by simp)] at t4
  rw [bits_inj (w := 6) (by omega) e1 d1 t4]

/-- C02: `nabSextets` keeps exactly the first `l` sextets and zeroes the rest of the last byte. -/
theorem c02_nab_sextets (b : List Nat) (l : Nat) (hb : AllLt 256 b) (hl : 3 * l ≤ 4 * b.length) :
    ∃ r, nabSextets b l = .ok r ∧ AllLt 256 r ∧ r.length = (3 * l + 3) / 4 ∧
      bits 8 r = (bits 8 b).take (6 * l) ++ List.replicate (2 * (l % 4)) 0 := by
  have hn : sceil34 l ≤ b.length := by unfold sceil34; omega
  have hv := ofDigits_take_bits hb hn
  have hblen : ((bits 8 b).take (6 * l)).length = 6 * l := by
    rw [List.length_take, bits_length]; omega
  have hlt : ofDigits 2 ((bits 8 b).take (6 * l)) * 2 ^ (2 * (l % 4)) < 256 ^ sceil34 l := by
    have := ofDigits_lt ((bits_allLt 8 b).take (6 * l))
    rw [hblen] at this
    rw [show (256 : Nat) = 2 ^ 8 from rfl, ← Nat.pow_mul, sceil34_bits, Nat.pow_add]
    exact Nat.mul_lt_mul_of_pos_right this (Nat.pow_pos (by omega))
  refine ⟨toDigits 256 (sceil34 l) (ofDigits 2 ((bits 8 b).take (6 * l)) * 2 ^ (2 * (l % 4))), ?_,
    toDigits_allLt (by omega) _ _, ?_, ?_⟩
  · unfold nabSextets
    simp only
    rw [if_neg (by omega), Nat.shiftRight_eq_div_pow, Nat.shiftLeft_eq, hv, toBytes, if_pos hlt]
  · simp [sceil34]; congr 1; omega
  · apply ofDigits_inj (b := 2) (bits_allLt _ _)
    · rw [allLt_append]; exact ⟨(bits_allLt _ _).take _, allLt_replicate_zero (by omega) _⟩
    · rw [bits_length, toDigits_length, List.length_append, hblen, List.length_replicate, sceil34_bits]
    · rw [ofDigits_bits (toDigits_allLt (by omega) _ _), ofDigits_append, List.length_replicate,
        ofDigits_replicate_zero]
      show ofDigits 256 _ = _
      rw [ofDigits_toDigits_of_lt hlt]
      rfl

example : codeB64ToB2 ['-', 'A', 'A'] = .ok [248, 0, 0] ∧ codeB2ToB64 [248, 0, 63, 7] 3 = .ok ['-', 'A', 'A']
    ∧ nabSextets [255, 255, 9] 1 = .ok [252] := by decide +kernel

end Verif.B64
