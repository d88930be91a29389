import Verif.Codec.Indexer
import Verif.Codec.MatterForms

/-! # What `Indexer` accepts and makes, characterised for the codes of signatures -/

namespace Verif.Idr

open Verif.B64
open Verif.Matter (encodeB64 decodeB64 zeros decVals AllDec decVals_append decVals_replicate_A allDec_append allDec_replicate_A
  decodeB64_complete decodeB64_sound bits_zeros ofDigits_eq_zero sextets_append sextets_allLt sextets_length sextets_inj framed_arith
  encodeB64_aligned decVals_chrs allDec_chrs decVals_length idx_of_mem_reb64 nab_first)

/-- Conditions on the size table for signatures. -/
def WF (code : List Char) (sz : Xizage) (f : Nat) : Prop :=
  code.length = sz.hs ∧ 0 < sz.hs ∧ (code.head?.bind hards) = some sz.hs ∧ reb64 code = true ∧ sz.ls = 0 ∧ sz.os ≤ sz.ss ∧ 0 < sz.ms ∧
    sz.fs = some f ∧ f % 4 = 0 ∧ sz.cs % 4 ≠ 3 ∧ sz.cs < f ∧ (sz.os = 0 ∨ sz.os = sz.ms) ∧ sz.hs ≤ 2

instance (code : List Char) (sz : Xizage) (f : Nat) : Decidable (WF code sz f) := by unfold WF; infer_instance

theorem table_wf : ∀ e ∈ sizes, e.1 ∈ sigCodes → WF e.1 e.2 (e.2.fs.getD 0) := by decide +kernel

theorem wf_of_sizes {code : List Char} {sz : Xizage} (h : sizes? code = some sz) (hc : code ∈ sigCodes) : ∃ f, WF code sz f :=
  ⟨_, table_wf (code, sz) (Matter.mem_of_lookup h) hc⟩

theorem sig_sizes : ∀ c ∈ sigCodes, (sizes? c).isSome = true := by decide +kernel

theorem sig_cases : ∀ c ∈ sigCodes, (c ∈ crtCodes ∧ c ∉ bthCodes) ∨ (c ∉ crtCodes ∧ c ∈ bthCodes) := by decide +kernel

theorem cs_eq {code : List Char} {sz : Xizage} {f : Nat} (hwf : WF code sz f) : sz.cs = sz.hs + sz.ms + sz.os := by
  have := hwf.2.2.2.2.2.1
  simp only [Xizage.cs, Xizage.ms]
  omega

/-! ## Numbers of fixed width -/

theorem intToB64_length {i w : Nat} (h : i < 64 ^ w) : (intToB64 i w).length = w := by rw [intToB64_eq h]; simp

theorem intToB64_reb64 {i w : Nat} (h : i < 64 ^ w) : reb64 (intToB64 i w) = true := by
  rw [intToB64_eq h]; exact reb64_chrs (toDigits_allLt (by omega) _ _)

theorem b64ToInt_fixed {s : List Char} {w i : Nat} (hw : 0 < w) (hl : s.length = w) : b64ToInt s = .ok i ↔ i < 64 ^ w ∧ s = intToB64 i w := by
  have hne : s ≠ [] := by rintro rfl; simp at hl; omega
  constructor
  · intro h
    by_cases hb : reb64 s = true
    · obtain ⟨ds, d1, rfl⟩ := exists_digits hb
      have hd : ds ≠ [] := by rintro rfl; exact hne rfl
      rw [b64ToInt_chrs d1 hd] at h
      injection h with h
      rw [chrs_length] at hl
      have := ofDigits_lt d1
      rw [hl, h] at this
      exact ⟨this, by rw [intToB64_eq this, ← h, ← hl, toDigits_ofDigits d1]⟩
    · rw [b64ToInt_eq_error hne (by simpa using hb)] at h; exact absurd h (by simp)
  · rintro ⟨h1, rfl⟩
    rw [intToB64_eq h1, b64ToInt_chrs (toDigits_allLt (by omega) _ _), ofDigits_toDigits_of_lt h1]
    intro h
    have := congrArg List.length h
    simp at this
    omega

/-! ## Valid signatures -/

/-- The other index that goes with a code: none for the current list; for both lists any that fits, the index itself if there is no room. -/
def OndexOk (code : List Char) (sz : Xizage) (index : Nat) : Option Nat → Prop
  | none => code ∈ crtCodes
  | some o => code ∈ bthCodes ∧ (sz.os = 0 → o = index) ∧ (sz.os ≠ 0 → o < 64 ^ sz.os)

/-- A signature whose parts have the sizes the table asks for. -/
structure Valid (m : Ixr) (sz : Xizage) (f : Nat) : Prop where
  sig : m.code ∈ sigCodes
  size : sizes? m.code = some sz
  wf : WF m.code sz f
  index : m.index < 64 ^ sz.ms
  ondex : OndexOk m.code sz m.index m.ondex
  rawLen : m.raw.length = (f - sz.cs) * 3 / 4
  raw : AllLt 256 m.raw

/-- The characters of the indices. -/
def soft (sz : Xizage) (m : Ixr) : List Char := intToB64 m.index sz.ms ++ intToB64 (m.ondex.getD 0) sz.os

theorem Valid.ondexFits {m : Ixr} {sz : Xizage} {f : Nat} (v : Valid m sz f) : intToB64 (m.ondex.getD 0) sz.os = [] ∧ sz.os = 0 ∨
    (0 < sz.os ∧ m.ondex.getD 0 < 64 ^ sz.os) := by
  rcases Nat.eq_zero_or_pos sz.os with h | h
  · left; rw [h]; exact ⟨rfl, rfl⟩
  · right
    refine ⟨h, ?_⟩
    have := v.ondex
    cases ho : m.ondex with
    | none => simp [Nat.pow_pos]
    | some o =>
      rw [ho] at this
      exact this.2.2 (by omega)

theorem Valid.ondexLen {m : Ixr} {sz : Xizage} {f : Nat} (v : Valid m sz f) : (intToB64 (m.ondex.getD 0) sz.os).length = sz.os ∧
    reb64 (intToB64 (m.ondex.getD 0) sz.os) = true := by
  rcases v.ondexFits with ⟨h, h0⟩ | ⟨_, h⟩
  · rw [h, h0]; exact ⟨rfl, rfl⟩
  · exact ⟨intToB64_length h, intToB64_reb64 h⟩

theorem Valid.bothLen {m : Ixr} {sz : Xizage} {f : Nat} (v : Valid m sz f) : (both sz m).length = sz.cs := by
  rw [both, List.length_append, List.length_append, intToB64_length v.index, v.ondexLen.1, v.wf.1, cs_eq v.wf]; omega

theorem Valid.bothB64 {m : Ixr} {sz : Xizage} {f : Nat} (v : Valid m sz f) : reb64 (both sz m) = true := by
  rw [both, reb64_append, reb64_append, v.wf.2.2.2.1, intToB64_reb64 v.index, v.ondexLen.2]; rfl

/-- The bits of a signature: code and indices, mid pad, raw. -/
def sigBits (sz : Xizage) (m : Ixr) : List Nat :=
  bits 6 (sextets (both sz m)) ++ (List.replicate (2 * (sz.cs % 4)) 0 ++ bits 8 m.raw)

theorem infil_valid {m : Ixr} {sz : Xizage} {f : Nat} (v : Valid m sz f) :
    ∃ mat, infil m = .ok (both sz m ++ mat) ∧ reb64 mat = true ∧ mat.length = f - sz.cs ∧
      bits 6 (decVals mat) = List.replicate (2 * (sz.cs % 4)) 0 ++ bits 8 m.raw := by
  obtain ⟨h1, h2, h3, h4, hls, h6, h7, hfs, hf4, hc3, hcf, hos, hhs⟩ := v.wf
  obtain ⟨x, hx1, hx2, hx3⟩ := framed_arith (cs := sz.cs) hf4 (by omega) hc3
  have hrl := v.rawLen
  have hps : (3 - (m.raw.length % 3)) % 3 = sz.cs % 4 := by omega
  obtain ⟨ds, d1, d2, d3⟩ := encodeB64_aligned (zeros (sz.cs % 4) ++ m.raw)
    (by rw [allLt_append]; exact ⟨allLt_replicate_zero (by omega) _, v.raw⟩)
    (by simp only [zeros, List.length_append, List.length_replicate]; omega)
  have hdl : ds.length = sz.cs % 4 + (f - sz.cs) := by
    have := congrArg List.length d3
    simp only [bits_length, zeros, List.length_append, List.length_replicate] at this
    omega
  have hml : (chrs (ds.drop (sz.cs % 4))).length = f - sz.cs := by rw [chrs_length, List.length_drop]; omega
  refine ⟨chrs (ds.drop (sz.cs % 4)), ?_, reb64_chrs (d1.drop _), hml, ?_⟩
  · unfold infil
    rw [v.size]
    simp only [fullOf, hfs, hps]
    rw [if_neg (by have := v.index; omega)]
    rw [if_neg]
    · rw [if_neg (by simp [v.bothLen]), if_neg (by omega), d2, hls]
      have : (chrs ds).drop (sz.cs % 4 - 0) = chrs (ds.drop (sz.cs % 4)) := by simp [chrs]
      rw [this, if_neg]
      rw [List.length_append, v.bothLen, hml]; omega
    · have := v.ondex
      cases ho : m.ondex with
      | none => simp
      | some o =>
        rw [ho] at this
        simp only [Option.any_some, Bool.and_eq_true, decide_eq_true_eq, not_and]
        intro h0
        have := this.2.2 h0
        omega
  · rw [decVals_chrs (d1.drop _), bits_drop, d3, bits_append, zeros, bits_zeros]
    have : List.replicate (8 * (sz.cs % 4)) 0 = List.replicate (6 * (sz.cs % 4)) 0 ++ List.replicate (2 * (sz.cs % 4)) 0 := by
      rw [List.replicate_append_replicate]; congr 1; omega
    rw [this, List.append_assoc, List.drop_append_of_le_length (by simp), List.drop_of_length_le (by simp)]
    simp

theorem binfil_valid {m : Ixr} {sz : Xizage} {f : Nat} (v : Valid m sz f) :
    ∃ b, binfil m = .ok b ∧ AllLt 256 b ∧ 4 * b.length = 3 * f ∧ bits 8 b = sigBits sz m := by
  obtain ⟨h1, h2, h3, h4, hls, h6, h7, hfs, hf4, hc3, hcf, hos, hhs⟩ := v.wf
  obtain ⟨x, hx1, hx2, hx3⟩ := framed_arith (cs := sz.cs) hf4 (by omega) hc3
  have hrl := v.rawLen
  have hps : (3 - (m.raw.length % 3)) % 3 = sz.cs % 4 := by omega
  have hbl := v.bothLen
  have hne : both sz m ≠ [] := by
    intro h; rw [h] at hbl; simp [Xizage.cs] at hbl; omega
  obtain ⟨bc, b1, b2, b3, b4⟩ := c02_b64_to_b2 (both sz m) hne v.bothB64
  rw [hbl] at b3 b4
  refine ⟨bc ++ m.raw, ?_, ?_, ?_, ?_⟩
  · unfold binfil
    rw [v.size]
    simp only [fullOf, hfs, hps]
    rw [if_neg]
    · rw [if_neg]
      · rw [if_neg (by simp [hbl]), if_neg (by omega)]
        unfold codeB64ToB2 at b1
        cases hi : b64ToInt (both sz m) with
        | error e => rw [hi] at b1; exact absurd b1 (by simp [bind, Except.bind])
        | ok i =>
          rw [hi] at b1
          simp only [bind, Except.bind, hbl] at b1
          simp only [hls, Nat.sub_zero, b1, zeros, List.replicate_zero, List.nil_append]
          rw [if_neg]
          rw [List.length_append, b3]; omega
      · have := v.ondex
        cases ho : m.ondex with
        | none => simp
        | some o =>
          rw [ho] at this
          simp only [Option.any_some, Bool.and_eq_true, decide_eq_true_eq, not_and]
          intro h0
          have := this.2.2 h0
          omega
    · have h8 := v.index
      have : 64 ^ sz.ms ≤ 64 ^ sz.ss := Nat.pow_le_pow_right (by omega) (by unfold Xizage.ms; omega)
      omega
  · rw [allLt_append]; exact ⟨b2, v.raw⟩
  · rw [List.length_append, b3]; omega
  · rw [bits_append, b4, sigBits, List.append_assoc]

/-! ## Reading texts -/

theorem exfilMat_eq {sz : Xizage} (hls : sz.ls = 0) (mat : List Char) : exfilMat sz mat =
    match decodeB64 (List.replicate (sz.cs % 4) 'A' ++ mat) with
    | .error e => .error e
    | .ok paw => if ofDigits 256 (paw.take (sz.cs % 4)) % 2 ^ (2 * (sz.cs % 4)) ≠ 0 then .error .valueError else .ok (paw.drop (sz.cs % 4)) := by
  unfold exfilMat
  by_cases h : sz.cs % 4 = 0
  · simp only [h, hls]
    rw [if_neg (by simp)]
    simp only [List.replicate_zero, List.nil_append]
    cases decodeB64 mat with
    | error e => rfl
    | ok paw => simp
  · simp only
    rw [if_pos h]
    cases decodeB64 (List.replicate (sz.cs % 4) 'A' ++ mat) <;> rfl

theorem prepad {ps : Nat} {paw : List Nat} {rest : List Nat} (h2 : AllLt 256 paw)
    (h : bits 8 paw = List.replicate (6 * ps) 0 ++ rest) (hr : AllLt 2 rest) : ofDigits 256 (paw.take ps) < 2 ^ (2 * ps) := by
  have : ofDigits 256 (paw.take ps) = ofDigits 2 (bits 8 (paw.take ps)) := (ofDigits_bits (w := 8) (h2.take _)).symm
  rw [this, bits_take, h, List.take_append, List.length_replicate, List.take_of_length_le (by simp; omega), ofDigits_zeros_append]
  have h3 := ofDigits_lt (hr.take (8 * ps - 6 * ps))
  have h4 : (rest.take (8 * ps - 6 * ps)).length ≤ 2 * ps := by rw [List.length_take]; omega
  exact Nat.lt_of_lt_of_le h3 (Nat.pow_le_pow_right (by omega) h4)

theorem exfilMat_ok_iff {sz : Xizage} {f : Nat} {mat : List Char} {raw : List Nat} (hls : sz.ls = 0) (hf4 : f % 4 = 0)
    (hc3 : sz.cs % 4 ≠ 3) (hcf : sz.cs < f) (hml : mat.length = f - sz.cs) :
    (exfilMat sz mat = .ok raw ∧ raw.length = (f - sz.cs) * 3 / 4) ↔
      AllDec mat ∧ bits 6 (decVals mat) = List.replicate (2 * (sz.cs % 4)) 0 ++ bits 8 raw ∧ AllLt 256 raw := by
  obtain ⟨x, hx1, hx2, hx3⟩ := framed_arith (cs := sz.cs) hf4 (by omega) hc3
  rw [exfilMat_eq hls]
  generalize hps : sz.cs % 4 = ps at *
  have hbl : (List.replicate ps 'A' ++ mat).length = ps + (f - sz.cs) := by simp [hml]
  constructor
  · rintro ⟨h, hl⟩
    cases hd : decodeB64 (List.replicate ps 'A' ++ mat) with
    | error e => rw [hd] at h; exact absurd h (by simp)
    | ok paw =>
      rw [hd] at h
      dsimp only at h
      split at h
      · exact absurd h (by simp)
      next hpi =>
      injection h with h
      subst h
      have hsound := decodeB64_sound hd
      rw [hbl] at hsound
      rw [List.length_drop] at hl
      have hlen : 4 * paw.length = 3 * (ps + (f - sz.cs)) := by omega
      obtain ⟨s1, s2, s3⟩ := hsound.2 hlen
      rw [decVals_append, decVals_replicate_A, bits_append, bits_zeros] at s3
      have hlt := prepad s2 s3 (bits_allLt _ _)
      simp only [Decidable.not_not] at hpi
      rw [Nat.mod_eq_of_lt hlt] at hpi
      have hz := ofDigits_eq_zero (by omega) hpi
      refine ⟨(allDec_append.1 s1).2, ?_, s2.drop _⟩
      have hsplit : bits 8 paw = bits 8 (paw.take ps) ++ bits 8 (paw.drop ps) := by rw [← bits_append, List.take_append_drop]
      have htk : (paw.take ps).length = ps := by rw [List.length_take]; omega
      rw [hsplit, hz, htk, bits_zeros] at s3
      have : List.replicate (8 * ps) 0 = List.replicate (6 * ps) 0 ++ List.replicate (2 * ps) 0 := by
        rw [List.replicate_append_replicate]; congr 1; omega
      rw [this, List.append_assoc] at s3
      exact (List.append_cancel_left s3).symm
  · rintro ⟨hdec, hb, hr⟩
    obtain ⟨paw, hb1, hb2, hb3⟩ := decodeB64_complete (s := List.replicate ps 'A' ++ mat)
      (allDec_append.2 ⟨allDec_replicate_A _, hdec⟩) (by rw [hbl]; omega)
    rw [hb1]
    dsimp only
    rw [decVals_append, decVals_replicate_A, bits_append, bits_zeros, hb] at hb3
    have hpaw : paw = List.replicate ps 0 ++ raw := by
      apply bits_inj (w := 8) (by omega) hb2
      · rw [allLt_append]; exact ⟨allLt_replicate_zero (by omega) _, hr⟩
      · rw [hb3, bits_append, bits_zeros, ← List.append_assoc, List.replicate_append_replicate]
        congr 2; omega
    have hlen := congrArg List.length hb
    rw [bits_length, decVals_length hdec, hml, List.length_append, bits_length, List.length_replicate] at hlen
    have hz : List.take ps (List.replicate ps 0 ++ raw) = List.replicate ps 0 := by
      rw [List.take_append_of_le_length (by simp), List.take_of_length_le (by simp)]
    have hdr : List.drop ps (List.replicate ps 0 ++ raw) = raw := by
      rw [List.drop_append_of_le_length (by simp), List.drop_of_length_le (by simp)]; simp
    rw [hpaw, hz, hdr, ofDigits_replicate_zero, if_neg (by simp)]
    exact ⟨rfl, by omega⟩

/-- The text carries the signature at its front. -/
structure Carries (t : List Char) (m : Ixr) (sz : Xizage) (f : Nat) (mat rest : List Char) : Prop where
  valid : Valid m sz f
  text : t = both sz m ++ (mat ++ rest)
  len : mat.length = f - sz.cs
  dec : AllDec mat
  bitsEq : bits 6 (decVals mat) = List.replicate (2 * (sz.cs % 4)) 0 ++ bits 8 m.raw

theorem readOndex_ok_iff {hard : List Char} {sz : Xizage} {f index : Nat} {chars : List Char} {ondex : Option Nat} (hwf : WF hard sz f)
    (hs : hard ∈ sigCodes) (hl : chars.length = sz.os) :
    readOndex hard sz index chars = .ok ondex ↔ OndexOk hard sz index ondex ∧ chars = intToB64 (ondex.getD 0) sz.os := by
  unfold readOndex
  rcases sig_cases hard hs with ⟨hc, hb⟩ | ⟨hc, hb⟩
  · rw [if_pos hc]
    by_cases h0 : sz.os = 0
    · rw [if_pos h0]
      rw [h0] at hl
      have : chars = [] := List.eq_nil_of_length_eq_zero hl
      subst this
      cases ondex with
      | none => simp [OndexOk, hc, h0, intToB64]
      | some o => simp [OndexOk, hb]
    · rw [if_neg h0]
      cases hi : b64ToInt chars with
      | error e =>
        simp only
        constructor
        · intro h; exact absurd h (by simp)
        · rintro ⟨h1, h2⟩
          cases ondex with
          | some o => simp [OndexOk, hb] at h1
          | none =>
            have := (b64ToInt_fixed (by omega) hl).2 ⟨Nat.pow_pos (by omega), h2⟩
            rw [hi] at this; exact absurd this (by simp)
      | ok o =>
        simp only
        have h3 := (b64ToInt_fixed (by omega) hl).1 hi
        by_cases ho : o = 0
        · subst ho
          rw [if_neg (by simp)]
          cases ondex with
          | none => simp [OndexOk, hc, h3.2]
          | some o => simp [OndexOk, hb]
        · rw [if_pos ho]
          constructor
          · intro h; exact absurd h (by simp)
          · rintro ⟨h1, h2⟩
            cases ondex with
            | some o => simp [OndexOk, hb] at h1
            | none =>
              exfalso
              have := (b64ToInt_fixed (by omega) hl).2 ⟨Nat.pow_pos (by omega), h2⟩
              rw [hi] at this
              simp at this
              exact ho this
  · rw [if_neg hc]
    by_cases h0 : sz.os = 0
    · rw [if_pos h0]
      rw [h0] at hl
      have : chars = [] := List.eq_nil_of_length_eq_zero hl
      subst this
      cases ondex with
      | none => simp [OndexOk, hc]
      | some o => simp [OndexOk, hb, h0, intToB64, eq_comm]
    · rw [if_neg h0]
      cases hi : b64ToInt chars with
      | error e =>
        simp only
        constructor
        · intro h; exact absurd h (by simp)
        · rintro ⟨h1, h2⟩
          cases ondex with
          | none => simp [OndexOk, hc] at h1
          | some o =>
            have := (b64ToInt_fixed (by omega) hl).2 ⟨h1.2.2 h0, h2⟩
            rw [hi] at this; exact absurd this (by simp)
      | ok o =>
        simp only
        have h3 := (b64ToInt_fixed (by omega) hl).1 hi
        cases ondex with
        | none => simp [OndexOk, hc]
        | some o' =>
          constructor
          · intro h
            simp at h
            subst h
            exact ⟨⟨hb, fun h => absurd h h0, fun _ => h3.1⟩, h3.2⟩
          · rintro ⟨h1, h2⟩
            have := (b64ToInt_fixed (by omega) hl).2 ⟨h1.2.2 h0, h2⟩
            rw [hi] at this
            simp at this
            simp [this]

/-- `_exfil` accepts, with the code of a signature, exactly the texts that carry one at the front. -/
theorem exfil_ok_iff (t : List Char) (m : Ixr) :
    (exfil t = .ok m ∧ m.code ∈ sigCodes) ↔ ∃ sz f mat rest, Carries t m sz f mat rest := by
  constructor
  · rintro ⟨h, hsig⟩
    cases t with
    | nil => exact absurd h (by simp [exfil])
    | cons first tl =>
    simp only [exfil] at h
    cases hh : hards first with
    | none => rw [hh] at h; simp only at h; (repeat' split at h) <;> exact absurd h (by simp)
    | some hs =>
      rw [hh] at h
      simp only at h
      split at h
      · exact absurd h (by simp)
      next hlen =>
      generalize ht : first :: tl = t at *
      cases hsz : sizes? (t.take hs) with
      | none => rw [hsz] at h; exact absurd h (by simp)
      | some sz =>
        rw [hsz] at h
        simp only [exfilSoft] at h
        split at h
        · exact absurd h (by simp)
        next hlen2 =>
        cases hi : b64ToInt ((t.drop sz.hs).take sz.ms) with
        | error e => rw [hi] at h; exact absurd h (by simp)
        | ok index =>
          rw [hi] at h
          simp only at h
          cases ho : readOndex (t.take hs) sz index ((t.drop (sz.hs + sz.ms)).take sz.os) with
          | error e => rw [ho] at h; exact absurd h (by simp)
          | ok ondex =>
            rw [ho] at h
            simp only [exfilRaw] at h
            cases hfo : fullOf sz index .validation with
            | error e => rw [hfo] at h; exact absurd h (by simp)
            | ok f =>
              rw [hfo] at h
              simp only at h
              split at h
              · exact absurd h (by simp)
              next hlen3 =>
              cases hm : exfilMat sz ((t.take f).drop sz.cs) with
              | error e => rw [hm] at h; exact absurd h (by simp)
              | ok raw =>
                rw [hm] at h
                simp only at h
                split at h
                · exact absurd h (by simp)
                next hrl =>
                injection h with h
                subst h
                simp only at hsig
                obtain ⟨f', hwf⟩ := wf_of_sizes hsz hsig
                have ⟨h1, h2, h3, h4, hls, h6, h7, hfs, hf4, hc3, hcf, hos, hhs⟩ := hwf
                have hff : f' = f := by
                  simp only [fullOf, hfs] at hfo; injection hfo
                subst hff
                have htl : (t.take f').length = f' := by rw [List.length_take]; omega
                rw [htl] at hrl
                simp only [Decidable.not_not] at hrl
                have hml : ((t.take f').drop sz.cs).length = f' - sz.cs := by rw [List.length_drop, htl]
                obtain ⟨e1, e2, e3⟩ := (exfilMat_ok_iff hls hf4 hc3 hcf hml).1 ⟨hm, hrl⟩
                have hcs := cs_eq hwf
                have hil : ((t.drop sz.hs).take sz.ms).length = sz.ms := by rw [List.length_take, List.length_drop]; omega
                have hol : ((t.drop (sz.hs + sz.ms)).take sz.os).length = sz.os := by rw [List.length_take, List.length_drop]; omega
                obtain ⟨i1, i2⟩ := (b64ToInt_fixed h7 hil).1 hi
                obtain ⟨o1, o2⟩ := (readOndex_ok_iff hwf hsig hol).1 ho
                have hth : hs = sz.hs := by
                  rw [← h1, List.length_take]; omega
                refine ⟨sz, f', (t.take f').drop sz.cs, t.drop f', ⟨hsig, hsz, hwf, i1, o1, hrl, e3⟩, ?_, hml, e1, e2⟩
                simp only [both]
                rw [← i2, ← o2, hth]
                have a1 : t.take sz.cs = t.take sz.hs ++ ((t.drop sz.hs).take sz.ms ++ (t.drop (sz.hs + sz.ms)).take sz.os) := by
                  rw [hcs, List.take_add, List.take_add, List.append_assoc]
                have a2 : (t.take f').drop sz.cs ++ t.drop f' = t.drop sz.cs := by
                  have : t.drop f' = (t.drop sz.cs).drop (f' - sz.cs) := by rw [List.drop_drop]; congr 1; omega
                  rw [List.drop_take, this, List.take_append_drop]
                rw [a2, ← a1, List.take_append_drop]
  · rintro ⟨sz, f, mat, rest, c⟩
    have v := c.valid
    obtain ⟨h1, h2, h3, h4, hls, h6, h7, hfs, hf4, hc3, hcf, hos, hhs⟩ := v.wf
    have hcs := cs_eq v.wf
    have hbl := v.bothLen
    refine ⟨?_, v.sig⟩
    have htl : t.length = f + rest.length := by
      rw [c.text, List.length_append, List.length_append, hbl, c.len]; omega
    have htake : t.take sz.hs = m.code := by
      rw [c.text, both, List.append_assoc, ← h1]; simp
    have hd1 : t.drop sz.hs = (intToB64 m.index sz.ms ++ intToB64 (m.ondex.getD 0) sz.os) ++ (mat ++ rest) := by
      rw [c.text, both, List.append_assoc, ← h1]; simp
    have hidx : (t.drop sz.hs).take sz.ms = intToB64 m.index sz.ms := by
      rw [hd1, List.append_assoc, List.take_append_of_le_length (by rw [intToB64_length v.index]; omega),
        List.take_of_length_le (by rw [intToB64_length v.index]; omega)]
    have hondex : (t.drop (sz.hs + sz.ms)).take sz.os = intToB64 (m.ondex.getD 0) sz.os := by
      rw [← List.drop_drop, hd1, List.append_assoc, List.drop_append_of_le_length (by rw [intToB64_length v.index]; omega),
        List.drop_of_length_le (by rw [intToB64_length v.index]; omega), List.nil_append,
        List.take_append_of_le_length (by rw [v.ondexLen.1]; omega), List.take_of_length_le (by rw [v.ondexLen.1]; omega)]
    have hmat : (t.take f).drop sz.cs = mat := by
      rw [c.text, ← List.append_assoc, List.take_append_of_le_length (by rw [List.length_append, hbl, c.len]; omega),
        List.take_of_length_le (by rw [List.length_append, hbl, c.len]; omega), ← hbl]
      simp
    cases htt : t with
    | nil => rw [htt] at htl; simp at htl; omega
    | cons first tl =>
    have hfirst : hards first = some sz.hs := by
      have : m.code.head? = some first := by
        rw [← htake, htt]
        cases hh : sz.hs with
        | zero => omega
        | succ j => simp
      rw [this] at h3
      simpa using h3
    simp only [exfil, hfirst]
    rw [← htt, if_neg (by omega), htake, v.size]
    simp only [exfilSoft]
    rw [if_neg (by omega), hidx, (b64ToInt_fixed h7 (intToB64_length v.index)).2 ⟨v.index, rfl⟩]
    simp only
    rw [hondex, (readOndex_ok_iff v.wf v.sig v.ondexLen.1).2 ⟨v.ondex, rfl⟩]
    simp only [exfilRaw, fullOf, hfs]
    rw [if_neg (by omega), hmat]
    obtain ⟨e1, e2⟩ := (exfilMat_ok_iff (raw := m.raw) hls hf4 hc3 hcf c.len).2 ⟨c.dec, c.bitsEq, v.raw⟩
    rw [e1]
    simp only
    have htl2 : (t.take f).length = f := by rw [List.length_take]; omega
    rw [htl2, if_neg (by simp [e2])]

end Verif.Idr
