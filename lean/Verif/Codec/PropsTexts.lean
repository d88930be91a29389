import Verif.Codec.TextsLemmas

/-! # Text and number primitives: properties C44 to C47 -/

namespace Verif.Matter

open Verif.B64

/-! ## C44 Bexter -/

theorem escape_spec (bext : List Char) (h : reb64 bext = true) :
    reb64 (escape bext) = true ∧ (∀ rest, escape bext = 'A' :: rest → 2 ≤ wadSize (escape bext).length) ∧
      unescape (escape bext) = bext ∧ (escape bext).length ≤ bext.length + 1 := by
  cases bext with
  | nil => simp [escape, unescape, reb64]
  | cons c cs =>
    unfold escape
    simp only
    split
    · refine ⟨?_, by simp, by simp [unescape], by simp⟩
      simp only [reb64, List.all_cons, Bool.and_eq_true] at h ⊢
      exact ⟨by decide +kernel, h⟩
    · rename_i hc
      simp only [not_or, not_and] at hc
      refine ⟨h, ?_, by simp [unescape, hc.2], by omega⟩
      intro rest hr
      injection hr with h1 _
      have := hc.1 h1
      omega

/-- **C44.** Every Base64 text (short enough for the longest code) can be carried by a `Bexter`, in text and in binary
form, and is read back unchanged. -/
theorem c44_bexter_roundtrip (bext : List Char) (h : reb64 bext = true) (hlen : bext.length < 4 * (64 ^ 4 - 1)) :
    ∃ m t b, mkBexter bext true = .ok m ∧ bextOf m true = .ok bext ∧
      infil m = .ok t ∧ bexterOfText t = .ok m ∧ binfil m = .ok b ∧ bexfil b = .ok m := by
  obtain ⟨e1, e2, e3, e4⟩ := escape_spec bext h
  obtain ⟨a1, a2⟩ := allDec_of_reb64 e1
  obtain ⟨raw, r1, r2, r3, r4, r5⟩ := wad_roundtrip (escape bext) a1
  have hw : wadSize (escape bext).length ≤ 3 := by unfold wadSize; omega
  have hl : leadSize (escape bext).length ≤ 2 := by unfold leadSize; omega
  have hw2 : ((escape bext).length + wadSize (escape bext).length) % 4 = 0 := by unfold wadSize; omega
  obtain ⟨m, sz, m1, m2, m3, m4, m5, m6⟩ := make_var (code := ['4', 'A']) (raw := raw) (sz := ⟨2, 2, 0, none, 0⟩)
    (by decide +kernel) rfl (by omega)
  have hcode : m.code ∈ bexDex := by
    have := var_last_A (m.code, sz) (mem_of_lookup m3) m5
    exact this (by rw [m6]; rfl)
  have hm : mkBexter bext true = .ok m := by
    simp [mkBexter, h, bextRawify, r1, m1, hcode]
  obtain ⟨t, t1, t2, _, _⟩ := c03_text_roundtrip _ _ _ _ _ r2 m1
  obtain ⟨b, b1, b2, _⟩ := c04_binary_roundtrip _ _ _ _ _ r2 m1
  refine ⟨m, t, b, hm, ?_, t1, ?_, b1, b2⟩
  · have hls : sz.ls = leadSize (escape bext).length := by rw [m4, r4]
    simp only [bextOf, m3, m2, hls, if_true]
    rw [textOfRaw_spec _ a1 raw r1 e2, a2, e3]
  · simp [bexterOfText, t2, hcode]

/-- Text that is not Base64 is refused. -/
theorem c44_bexter_refuses (bext : List Char) (escapive : Bool) (h : reb64 bext = false) :
    mkBexter bext escapive = .error .valueError := by simp [mkBexter, h]

/-- Without escaping a leading `A` can be lost (the reason for the escape). -/
theorem c44_no_escape_loses : ∃ bext m, reb64 bext = true ∧ mkBexter bext false = .ok m ∧ bextOf m false ≠ .ok bext :=
  ⟨['A', 'B', 'C', 'D'], ⟨['4', 'A'], ['A', 'B'], [0, 16, 131]⟩, by decide +kernel⟩

example : (do let m ← mkBexter "1s2c1s2a1".toList true; infil m) = .ok "6AADAAA1s2c1s2a1".toList := by decide +kernel
example : (do let m ← mkBexter "A-BC".toList true; bextOf m true) = .ok "A-BC".toList := by decide +kernel

/-! ## C45 Number -/

theorem numWithCode_spec {n : Nat} {code : List Char} {sz : Sizage} {fs : Nat} (hs : sizes? code = some sz)
    (hf : sz.fs = some fs) (hd : code ∈ numDex) (hss : sz.ss = 0) (hne : code ≠ [])
    (hn : n < 256 ^ rawSize sz fs) :
    ∃ m, numWithCode n code = .ok m ∧ m.code = code ∧ numOf m = n ∧ m.raw.length = rawSize sz fs ∧
      make code [] (toDigits 256 (rawSize sz fs) n) none = .ok m := by
  have hmk : make code [] (toDigits 256 (rawSize sz fs) n) none
      = .ok ⟨code, [], toDigits 256 (rawSize sz fs) n⟩ := by
    have ht : (toDigits 256 (rawSize sz fs) n).take (rawSize sz fs) = toDigits 256 (rawSize sz fs) n :=
      List.take_of_length_le (by simp)
    simp [make, hne, hs, hf, fixedSoft, hss, ht]
  refine ⟨_, ?_, rfl, ?_, ?_, hmk⟩
  · simp [numWithCode, hs, hf, hn, hmk, hd]
  · simp [numOf, ofDigits_toDigits, Nat.mod_eq_of_lt hn]
  · simp

/-- Sizes of the number codes: the number of bytes each carries. -/
def numBytes (code : List Char) : Nat :=
  match sizes? code with
  | some sz => match sz.fs with | some fs => rawSize sz fs | none => 0
  | none => 0

theorem numDex_table : ∀ c ∈ numDex, c ≠ [] ∧ ∃ e ∈ sizes, sizes? c = some e.2 ∧ e.2.ss = 0 ∧
    e.2.fs = some (e.2.fs.getD 0) ∧ numBytes c = rawSize e.2 (e.2.fs.getD 0) := by decide +kernel

/-- **C45.** With an explicit number code, a number is accepted exactly when it fits, and then its text and binary
forms read back as the same number. -/
theorem c45_number_roundtrip (n : Nat) (code : List Char) (hc : code ∈ numDex) :
    (n < 256 ^ numBytes code → ∃ m t b, mkNumber n (some code) = .ok m ∧ m.code = code ∧ numOf m = n ∧
        infil m = .ok t ∧ numberOfText t = .ok m ∧ binfil m = .ok b ∧ bexfil b = .ok m) ∧
    (256 ^ numBytes code ≤ n → mkNumber n (some code) = .error .invalidValue) := by
  obtain ⟨hne, e, _, h1, h2, h3, h4⟩ := numDex_table code hc
  rw [h4]
  generalize e.2.fs.getD 0 = fs at h3 ⊢
  constructor
  · intro hn
    obtain ⟨m, m1, m2, m3, _, m5⟩ := numWithCode_spec h1 h3 hc h2 hne hn
    have hlt : AllLt 256 (toDigits 256 (rawSize e.2 fs) n) := toDigits_allLt (by omega) _ _
    obtain ⟨t, t1, t2, _, _⟩ := c03_text_roundtrip _ _ _ _ _ hlt m5
    obtain ⟨b, b1, b2, _⟩ := c04_binary_roundtrip _ _ _ _ _ hlt m5
    exact ⟨m, t, b, m1, m2, m3, t1, by simp [numberOfText, t2, m2, hc], b1, b2⟩
  · intro hn
    simp only [mkNumber, numWithCode, h1, h3]
    rw [if_neg (by omega)]

/-- **C45.** Without a code, every number below `256 ^ 17` is accepted with a code of the family 2, 5, 8, 11, 14 or 17
bytes in which it fits, no smaller one of the family would do, and it reads back as the same number; larger
numbers are refused. -/
theorem c45_number_auto (n : Nat) :
    (n < 256 ^ 17 → ∃ m t k, mkNumber n none = .ok m ∧ numOf m = n ∧ infil m = .ok t ∧ numberOfText t = .ok m ∧
        m.raw.length = 3 * k + 2 ∧ k ≤ 5 ∧ n < 256 ^ (3 * k + 2) ∧ (0 < k → 256 ^ (3 * k - 1) ≤ n)) ∧
    (256 ^ 17 ≤ n → mkNumber n none = .error .invalidValue) := by
  have go : ∀ (c : List Char) (sz : Sizage) (fs k : Nat), sizes? c = some sz → sz.fs = some fs → c ∈ numDex →
      sz.ss = 0 → c ≠ [] → rawSize sz fs = 3 * k + 2 → k ≤ 5 → numCode n = .ok c → n < 256 ^ (3 * k + 2) →
      (0 < k → 256 ^ (3 * k - 1) ≤ n) →
      ∃ m t k, mkNumber n none = .ok m ∧ numOf m = n ∧ infil m = .ok t ∧ numberOfText t = .ok m ∧
        m.raw.length = 3 * k + 2 ∧ k ≤ 5 ∧ n < 256 ^ (3 * k + 2) ∧ (0 < k → 256 ^ (3 * k - 1) ≤ n) := by
    intro c sz fs k h1 h2 h3 h4 h5 h6 h7 h8 h9 h10
    obtain ⟨m, m1, m2, m3, m4, m5⟩ := numWithCode_spec h1 h2 h3 h4 h5 (by rw [h6]; exact h9)
    have hlt : AllLt 256 (toDigits 256 (rawSize sz fs) n) := toDigits_allLt (by omega) _ _
    obtain ⟨t, t1, t2, _, _⟩ := c03_text_roundtrip _ _ _ _ _ hlt m5
    exact ⟨m, t, k, by simp only [mkNumber, h8, m1], m3, t1, by simp only [numberOfText, t2, m2, h3, if_true],
      by rw [m4, h6], h7, h9, h10⟩
  constructor
  · intro hn
    by_cases c1 : n ≤ 256 ^ 2 - 1
    · exact go ['M'] ⟨1, 0, 0, some 4, 0⟩ 4 0 (by decide +kernel) rfl (by decide +kernel) rfl (by simp) (by decide)
        (by omega) (by simp only [numCode]; rw [if_pos c1]) (by omega) (by omega)
    by_cases c2 : n ≤ 256 ^ 5 - 1
    · exact go ['R'] ⟨1, 0, 0, some 8, 0⟩ 8 1 (by decide +kernel) rfl (by decide +kernel) rfl (by simp) (by decide)
        (by omega) (by simp only [numCode]; rw [if_neg c1, if_pos c2]) (by omega) (by omega)
    by_cases c3 : n ≤ 256 ^ 8 - 1
    · exact go ['N'] ⟨1, 0, 0, some 12, 0⟩ 12 2 (by decide +kernel) rfl (by decide +kernel) rfl (by simp) (by decide)
        (by omega) (by simp only [numCode]; rw [if_neg c1, if_neg c2, if_pos c3]) (by omega) (by omega)
    by_cases c4 : n ≤ 256 ^ 11 - 1
    · exact go ['S'] ⟨1, 0, 0, some 16, 0⟩ 16 3 (by decide +kernel) rfl (by decide +kernel) rfl (by simp) (by decide)
        (by omega) (by simp only [numCode]; rw [if_neg c1, if_neg c2, if_neg c3, if_pos c4]) (by omega) (by omega)
    by_cases c5 : n ≤ 256 ^ 14 - 1
    · exact go ['T'] ⟨1, 0, 0, some 20, 0⟩ 20 4 (by decide +kernel) rfl (by decide +kernel) rfl (by simp) (by decide)
        (by omega) (by simp only [numCode]; rw [if_neg c1, if_neg c2, if_neg c3, if_neg c4, if_pos c5])
        (by omega) (by omega)
    · exact go ['U'] ⟨1, 0, 0, some 24, 0⟩ 24 5 (by decide +kernel) rfl (by decide +kernel) rfl (by simp) (by decide)
        (by omega) (by simp only [numCode]; rw [if_neg c1, if_neg c2, if_neg c3, if_neg c4, if_neg c5, if_pos (by omega)])
        (by omega) (by omega)
  · intro hn
    simp only [mkNumber, numCode]
    rw [if_neg (by omega), if_neg (by omega), if_neg (by omega), if_neg (by omega), if_neg (by omega),
      if_neg (by omega)]

example : mkNumber 65536 none = .ok ⟨['R'], [], [0, 0, 1, 0, 0]⟩ := by decide +kernel
example : infil ⟨['M'], [], [1, 2]⟩ = .ok "MAEC".toList := by decide +kernel

/-! ## C46 Decimer -/

/-- **C46, false as stated.** The exponent sign of a large float is lost: the canonical text of `1e16` is `1e+16`, which
reads back as `1e-16`. -/
theorem c46_exponent_sign_flips : ∃ m, mkDecimer "1e+16".toList = .ok m ∧ dnsOf m = .ok "1e-16".toList :=
  ⟨⟨['6', 'H'], ['A', 'C'], [53, 123, 237, 122]⟩, by decide +kernel⟩

/-- **C46 (partial).** A decimal number text of Base64 characters and periods, not starting with `A` and without the
letter `p`, reads back unchanged from text form. Missing: texts with `+`, see `c46_exponent_sign_flips`. -/
theorem c46_decimer_roundtrip_partial (dns : List Char)
    (hchars : ∀ c ∈ dns, (idx c).isSome = true ∧ c ≠ 'p' ∨ c = '.') (hA : ∀ rest, dns ≠ 'A' :: rest)
    (hlen : dns.length < 4 * (64 ^ 4 - 1)) :
    ∃ m t, mkDecimer dns = .ok m ∧ dnsOf m = .ok dns ∧ infil m = .ok t ∧ exfil t = .ok m := by
  have hre : reb64 (dns.map decTo) = true := by
    simp only [reb64, List.all_eq_true, List.mem_map]
    rintro c ⟨x, hx, rfl⟩
    unfold decTo
    split
    · decide +kernel
    · rename_i hne
      rcases hchars x hx with h | h
      · exact h.1
      · exact absurd h hne
  have hback : (dns.map decTo).map decFrom = dns := by
    rw [List.map_map]
    conv => rhs; rw [← List.map_id dns]
    apply List.map_congr_left
    intro c hc
    simp only [Function.comp, decTo, decFrom, id]
    rcases hchars c hc with h | h
    · by_cases hd : c = '.'
      · simp [hd]
      · simp [hd, h.2]
    · simp [h]
  obtain ⟨a1, a2⟩ := allDec_of_reb64 hre
  obtain ⟨raw, r1, r2, r3, r4, r5⟩ := wad_roundtrip _ a1
  have hw : wadSize (dns.map decTo).length ≤ 3 := by unfold wadSize; omega
  have hl : leadSize (dns.map decTo).length ≤ 2 := by unfold leadSize; omega
  have hw2 : ((dns.map decTo).length + wadSize (dns.map decTo).length) % 4 = 0 := by unfold wadSize; omega
  have hll : (dns.map decTo).length = dns.length := by simp
  obtain ⟨m, sz, m1, m2, m3, m4, m5, m6⟩ := make_var (code := ['4', 'H']) (raw := raw) (sz := ⟨2, 2, 0, none, 0⟩)
    (by decide +kernel) rfl (by omega)
  have hcode : m.code ∈ decDex := by
    have := var_last_H (m.code, sz) (mem_of_lookup m3) m5
    exact this (by rw [m6]; rfl)
  obtain ⟨t, t1, t2, _, _⟩ := c03_text_roundtrip _ _ _ _ _ r2 m1
  refine ⟨m, t, by simp [mkDecimer, r1, m1, hcode], ?_, t1, t2⟩
  have hls : sz.ls = leadSize (dns.map decTo).length := by rw [m4, r4]
  simp only [dnsOf, m3, m2, hls]
  rw [textOfRaw_spec _ a1 raw r1, a2, hback]
  intro rest hr
  cases dns with
  | nil => simp at hr
  | cons c cs =>
    simp only [List.map_cons, List.cons.injEq] at hr
    exfalso
    apply hA cs
    have := hr.1
    unfold decTo at this
    split at this
    · exact absurd this (by decide)
    · rw [this]

example : (do let m ← mkDecimer "-12345.6789".toList; dnsOf m) = .ok "-12345.6789".toList := by decide +kernel

/-! ## C47 Dater -/

/-- Characters of an RFC-3339 profile date-time. -/
def dtChars : List Char := "0123456789T:.+-".toList

theorem dtChars_ok : ∀ c ∈ dtChars, (idx (dtTo c)).isSome = true ∧ dtFrom (dtTo c) = c := by decide +kernel

/-- **C47.** A 32 character date-time over the characters of the RFC-3339 profile is accepted and reads back unchanged,
in the object and from its text form. -/
theorem c47_dater_roundtrip (dts : List Char) (hchars : ∀ c ∈ dts, c ∈ dtChars) (hlen : dts.length = 32) :
    ∃ m, mkDater dts = .ok m ∧ dtsOf m = .ok dts ∧ infil m = .ok (dtCode ++ dts.map dtTo) ∧
      exfil (dtCode ++ dts.map dtTo) = .ok m := by
  have hre : reb64 (dts.map dtTo) = true := by
    simp only [reb64, List.all_eq_true, List.mem_map]
    rintro c ⟨x, hx, rfl⟩
    exact (dtChars_ok x (hchars x hx)).1
  have hback : (dts.map dtTo).map dtFrom = dts := by
    rw [List.map_map]
    conv => rhs; rw [← List.map_id dts]
    apply List.map_congr_left
    intro c hc
    exact (dtChars_ok c (hchars c hc)).2
  obtain ⟨a1, a2⟩ := allDec_of_reb64 hre
  have hll : (dts.map dtTo).length = 32 := by simp [hlen]
  obtain ⟨raw, r1, r2, r3, r4, r5⟩ := wad_roundtrip _ a1
  rw [hll] at r3 r4 r5
  have hrl : raw.length = 24 := by simp [wadSize, leadSize] at r5; omega
  have hmk : make dtCode [] raw none = .ok ⟨dtCode, [], raw⟩ := by
    have hs : sizes? dtCode = some ⟨4, 0, 0, some 36, 0⟩ := by decide +kernel
    have ht : raw.take 24 = raw := List.take_of_length_le (by omega)
    simp [make, hs, fixedSoft, rawSize, Sizage.cs, ht, hrl]
    simp [dtCode]
  obtain ⟨t, t1, t2, _, _⟩ := c03_text_roundtrip _ _ _ _ _ r2 hmk
  have hs : sizes? dtCode = some ⟨4, 0, 0, some 36, 0⟩ := by decide +kernel
  have htt : t = dtCode ++ dts.map dtTo := by
    simp [leadSize, wadSize, zeros] at r3
    have ht := t1
    simp [infil, hs, both, pads, hrl, zeros, Sizage.cs, r3, a2, hlen] at ht
    rw [if_neg (by decide)] at ht
    injection ht with ht
    exact ht.symm
  subst htt
  refine ⟨⟨dtCode, [], raw⟩, by simp [mkDater, t2], ?_, t1, t2⟩
  simp only [dtsOf, t1, hs]
  have : (dtCode ++ dts.map dtTo).drop 4 = dts.map dtTo := by simp [dtCode]
  rw [this, hback]

/-- Anything shorter is refused. -/
theorem c47_dater_short : mkDater "2020-08-22T17:50:09+00:00".toList = .error .shortage := by decide +kernel

example : (do let m ← mkDater "2020-08-22T17:50:09.988921+00:00".toList; dtsOf m)
    = .ok "2020-08-22T17:50:09.988921+00:00".toList := by decide +kernel

end Verif.Matter
