import Verif.Codec.IndexerLemmas

/-! # What `Indexer` reads from bytes -/

namespace Verif.Idr

open Verif.B64
open Verif.Matter (zeros nab_first sextets_append sextets_allLt sextets_length sextets_inj framed_arith)

/-- The same sizes as those of a primitive. -/
def Xizage.mat (sz : Xizage) (f : Nat) : Matter.Sizage := ⟨sz.hs, sz.ss, 0, some f, 0⟩

/-- Some code of a primitive with a hard part of one or two characters. -/
def dummy (sz : Xizage) : List Char := if sz.hs = 1 then ['D'] else ['0', 'A']

theorem dummy_wf {code : List Char} {sz : Xizage} {f : Nat} (hwf : WF code sz f) : Matter.WF (dummy sz) (sz.mat f) := by
  obtain ⟨h1, h2, h3, h4, hls, h6, h7, hfs, hf4, hc3, hcf, hos, hhs⟩ := hwf
  have hcs : (sz.mat f).cs = sz.cs := rfl
  obtain ⟨y, hy1, hy2, hy3⟩ := framed_arith (cs := sz.cs) hf4 (by omega) hc3
  refine ⟨?_, h2, ?_, ?_, by simp [Xizage.mat], by simp [Xizage.mat], ?_⟩
  · simp only [dummy, Xizage.mat]; split <;> simp <;> omega
  · simp only [dummy, Xizage.mat]
    split
    · next h => rw [h]; decide +kernel
    · have : sz.hs = 2 := by omega
      rw [this]; decide +kernel
  · simp only [dummy]; split <;> decide +kernel
  · simp only [Xizage.mat] at *
    refine ⟨hf4, by omega, by rw [hcs]; exact hc3, by rw [hcs]; omega, Or.inr (by rw [hcs]; omega)⟩

theorem bexfilRaw_ok_iff {b : List Nat} (hb : AllLt 256 b) {hard : List Char} {sz : Xizage} {f i : Nat} {o : Option Nat} {m : Ixr}
    (hwf : WF hard sz f) : bexfilRaw b hard sz i o = .ok m ↔
      3 * f ≤ 4 * b.length ∧ m.code = hard ∧ m.index = i ∧ m.ondex = o ∧ m.raw.length = (f - sz.cs) * 3 / 4 ∧ AllLt 256 m.raw ∧
      bits 8 (b.take (f * 3 / 4)) = (bits 8 b).take (6 * sz.cs) ++ (List.replicate (2 * (sz.cs % 4)) 0 ++ bits 8 m.raw) := by
  have hcs : (sz.mat f).cs = sz.cs := rfl
  have key : bexfilRaw b hard sz i o = .ok m ↔ ∃ mm, Matter.bexfilRaw b (dummy sz) [] (sz.mat f) f = .ok mm ∧
      m = ⟨hard, i, o, mm.raw⟩ := by
    obtain ⟨h1, h2, h3, h4, hls, h6, h7, hfs, hf4, hc3, hcf, hos, hhs⟩ := hwf
    have hmls : (sz.mat f).ls = 0 := rfl
    simp only [bexfilRaw, fullOf, hfs, Matter.bexfilRaw, hls, hcs, hmls, Nat.add_zero, List.take_zero]
    have h0 : ofDigits 256 [] = 0 := rfl
    simp only [h0]
    by_cases hl : b.length < sceil34 f
    · rw [if_pos hl, if_pos hl]; simp
    rw [if_neg hl, if_neg hl]
    generalize hpi : ofDigits 256 (List.take 1 (List.drop (sceil34 sz.cs - 1) (List.take (sceil34 f) b))) = pi
    have hc : (if sz.cs % 4 ≠ 0 then pi % 2 ^ (2 * (sz.cs % 4)) ≠ 0 else (0 : Nat) ≠ 0) ↔
        pi % 2 ^ (2 * (sz.cs % 4)) ≠ 0 := by
      split
      · rfl
      · next h => simp only [Decidable.not_not] at h; rw [h]; simp [Nat.mod_one]
    by_cases hp : pi % 2 ^ (2 * (sz.cs % 4)) ≠ 0
    · rw [if_pos (hc.2 hp), if_pos hp]; simp
    rw [if_neg (fun h => hp (hc.1 h)), if_neg hp]
    have hz : ¬ ((0 : Nat) ≠ 0) := by simp
    rw [if_neg hz]
    split
    · simp
    · simp [eq_comm]
  have hfr : Matter.framedSize (sz.mat f) [] = .ok f := rfl
  rw [key]
  constructor
  · rintro ⟨mm, h, rfl⟩
    obtain ⟨e1, e2, e3, e4, e5, e6⟩ := (Matter.bexfilRaw_ok_iff hb (dummy_wf hwf) hfr).1 h
    rw [hcs] at e4 e6
    exact ⟨e1, rfl, rfl, rfl, e4, e5, e6⟩
  · rintro ⟨e1, e2, e3, e4, e5, e6, e7⟩
    refine ⟨⟨dummy sz, [], m.raw⟩, (Matter.bexfilRaw_ok_iff hb (dummy_wf hwf) hfr).2 ⟨e1, rfl, rfl, e5, e6, e7⟩, ?_⟩
    subst e2; subst e3; subst e4
    rfl

theorem two_checks {c d : Prop} [Decidable c] [Decidable d] {e1 e2 : Err} {r m : Ixr}
    (h : (if c then .error e1 else if d then .error e2 else .ok r : Except Err Ixr) = .ok m) : m = r := by
  by_cases hc : c
  · rw [if_pos hc] at h; exact absurd h (by simp)
  · rw [if_neg hc] at h
    by_cases hd : d
    · rw [if_pos hd] at h; exact absurd h (by simp)
    · rw [if_neg hd] at h; injection h with h; exact h.symm

/-- The bytes carry the signature at their front. -/
structure CarriesB (b : List Nat) (m : Ixr) (sz : Xizage) (f : Nat) (pre rest : List Nat) : Prop where
  valid : Valid m sz f
  bytes : b = pre ++ rest
  len : 4 * pre.length = 3 * f
  bitsEq : bits 8 pre = sigBits sz m

theorem bards_chr {v : Nat} (h : v < 64) : bards [4 * v] = hards (chr v) := by
  have key : ∀ v : Fin 64, bards [4 * v.val] = hards (chr v.val) := by decide +kernel
  exact key ⟨v, h⟩

theorem reb64_take {s : List Char} (h : reb64 s = true) (k : Nat) : reb64 (s.take k) = true := by
  have : reb64 (s.take k ++ s.drop k) = true := by rw [List.take_append_drop]; exact h
  rw [reb64_append] at this
  simp at this
  exact this.1

/-- `_bexfil` accepts, with the code of a signature, exactly the byte strings that carry one at the front. -/
theorem bexfil_ok_iff (b : List Nat) (hb : AllLt 256 b) (m : Ixr) :
    (bexfil b = .ok m ∧ m.code ∈ sigCodes) ↔ ∃ sz f pre rest, CarriesB b m sz f pre rest := by
  constructor
  · rintro ⟨h, hsig⟩
    cases b with
    | nil => exact absurd h (by simp [bexfil])
    | cons x tl =>
    have hx : x < 256 := by simp at hb; exact hb.1
    simp only [bexfil] at h
    rw [if_neg (by simp), nab_first hx] at h
    simp only at h
    rw [bards_chr (by omega)] at h
    cases hh : hards (chr (x / 4)) with
    | none => rw [hh] at h; exact absurd h (by simp)
    | some hs =>
      rw [hh] at h
      simp only at h
      split at h
      · exact absurd h (by simp)
      next hlen =>
      generalize hbq : x :: tl = b at *
      obtain ⟨hard, k1, k2, k3, k4⟩ := c02_b2_to_b64 b hs hb (by simp only [sceil34] at hlen; omega)
      rw [k1] at h
      simp only at h
      cases hsz : sizes? hard with
      | none => rw [hsz] at h; exact absurd h (by simp)
      | some sz =>
        rw [hsz] at h
        simp only [bexfilSoft] at h
        split at h
        · exact absurd h (by simp)
        next hlen2 =>
        obtain ⟨bth, j1, j2, j3, j4⟩ := c02_b2_to_b64 b sz.cs hb (by simp only [sceil34] at hlen2; omega)
        rw [j1] at h
        simp only at h
        cases hi : b64ToInt ((bth.drop sz.hs).take sz.ms) with
        | error e => rw [hi] at h; exact absurd h (by simp)
        | ok index =>
          rw [hi] at h
          simp only at h
          cases ho : readOndex hard sz index ((bth.drop (sz.hs + sz.ms)).take sz.os) with
          | error e => rw [ho] at h; exact absurd h (by simp)
          | ok ondex =>
            rw [ho] at h
            simp only at h
            have hcode : m.code = hard := by
              simp only [bexfilRaw] at h
              cases hfo : fullOf sz index .validation with
              | error e => rw [hfo] at h; exact absurd h (by simp)
              | ok f =>
                rw [hfo] at h
                simp only at h
                split at h
                · exact absurd h (by simp)
                have := two_checks h
                rw [this]
            rw [hcode] at hsig
            obtain ⟨f, hwf⟩ := wf_of_sizes hsz hsig
            obtain ⟨e1, e2, e3, e4, e5, e6, e7⟩ := (bexfilRaw_ok_iff hb hwf).1 h
            have ⟨h1, h2, h3, h4, hls, h6, h7, hfs, hf4, hc3, hcf, hos, hhs⟩ := hwf
            have hcs := cs_eq hwf
            have hhs : sz.hs = hs := by rw [← h1, k2]
            have hil : ((bth.drop sz.hs).take sz.ms).length = sz.ms := by rw [List.length_take, List.length_drop]; omega
            have hol : ((bth.drop (sz.hs + sz.ms)).take sz.os).length = sz.os := by rw [List.length_take, List.length_drop]; omega
            obtain ⟨i1, i2⟩ := (b64ToInt_fixed h7 hil).1 hi
            obtain ⟨o1, o2⟩ := (readOndex_ok_iff hwf hsig hol).1 ho
            have hhard : hard = bth.take sz.hs := by
              have htb : reb64 (bth.take sz.hs) = true := reb64_take j3 _
              apply sextets_inj k3 htb
              apply bits_inj (w := 6) (by omega) (sextets_allLt _) (sextets_allLt _)
              have hbt : sextets bth = sextets (bth.take sz.hs) ++ sextets (bth.drop sz.hs) := by
                rw [← sextets_append, List.take_append_drop]
              have hbl2 : (bits 6 (sextets (bth.take sz.hs))).length = 6 * sz.hs := by
                rw [bits_length, sextets_length htb, List.length_take]; omega
              rw [k4]
              have : (bits 8 b).take (6 * hs) = ((bits 8 b).take (6 * sz.cs)).take (6 * hs) := by
                rw [List.take_take]; congr 1; omega
              rw [this, ← j4, hbt, bits_append, List.take_append_of_le_length (by omega),
                List.take_of_length_le (by omega)]
            have hboth : both sz m = bth := by
              unfold both
              rw [e2, e3, e4, ← i2, ← o2, hhard]
              have a1 : bth.take sz.cs = bth.take sz.hs ++ ((bth.drop sz.hs).take sz.ms ++ (bth.drop (sz.hs + sz.ms)).take sz.os) := by
                rw [hcs, List.take_add, List.take_add, List.append_assoc]
              rw [← a1, List.take_of_length_le (by omega)]
            obtain ⟨y, hy1, hy2, hy3⟩ := framed_arith (cs := sz.cs) hf4 (by omega) hc3
            refine ⟨sz, f, b.take (f * 3 / 4), b.drop (f * 3 / 4),
              ⟨by rw [e2]; exact hsig, by rw [e2]; exact hsz, by rw [e2]; exact hwf, by rw [e3]; exact i1, by rw [e2, e3, e4]; exact o1, e5, e6⟩,
              (List.take_append_drop _ _).symm, ?_, ?_⟩
            · rw [List.length_take]; omega
            · rw [e7, sigBits, hboth, j4]
  · rintro ⟨sz, f, pre, rest, c⟩
    have v := c.valid
    have ⟨h1, h2, h3, h4, hls, h6, h7, hfs, hf4, hc3, hcf, hos, hhs⟩ := v.wf
    refine ⟨?_, v.sig⟩
    obtain ⟨y, hy1, hy2, hy3⟩ := framed_arith (cs := sz.cs) hf4 (by omega) hc3
    have hbl := v.bothLen
    have hbr := v.bothB64
    have hcs := cs_eq v.wf
    have hpl := c.len
    have hblen : b.length = pre.length + rest.length := by rw [c.bytes]; simp
    have hbits : bits 8 b = sigBits sz m ++ bits 8 rest := by rw [c.bytes, bits_append, c.bitsEq]
    have hbo : bits 6 (sextets (both sz m)) = (bits 8 b).take (6 * sz.cs) := by
      have : (bits 6 (sextets (both sz m))).length = 6 * sz.cs := by
        rw [bits_length, sextets_length hbr, hbl]
      rw [hbits, sigBits, List.append_assoc, List.take_append_of_le_length (by omega),
        List.take_of_length_le (by omega)]
    obtain ⟨hard, k1, k2, k3, k4⟩ := c02_b2_to_b64 b sz.hs hb (by omega)
    obtain ⟨bth, j1, j2, j3, j4⟩ := c02_b2_to_b64 b sz.cs hb (by omega)
    have hbth : bth = both sz m := by
      apply sextets_inj j3 hbr
      apply bits_inj (w := 6) (by omega) (sextets_allLt _) (sextets_allLt _)
      rw [j4, hbo]
    have hhard : hard = m.code := by
      apply sextets_inj k3 h4
      apply bits_inj (w := 6) (by omega) (sextets_allLt _) (sextets_allLt _)
      have : (bits 6 (sextets m.code)).length = 6 * sz.hs := by
        rw [bits_length, sextets_length h4, h1]
      have h2 : (bits 8 b).take (6 * sz.hs) = ((bits 8 b).take (6 * sz.cs)).take (6 * sz.hs) := by
        rw [List.take_take]; congr 1; omega
      rw [k4, h2, ← hbo, both, sextets_append, bits_append, List.take_append_of_le_length (by omega),
        List.take_of_length_le (by omega)]
    cases hbe : b with
    | nil => rw [hbe] at hblen; simp at hblen; omega
    | cons x tl =>
    have hx : x < 256 := by rw [hbe] at hb; simp at hb; exact hb.1
    have hfirst : hards (chr (x / 4)) = some sz.hs := by
      cases hc : m.code with
      | nil => rw [hc] at h1; simp at h1; omega
      | cons c0 ctl =>
        rw [hc] at h3
        simp at h3
        rw [← h3]
        have hc0 : reb64 (c0 :: ctl) = true := by rw [← hc]; exact h4
        simp only [reb64, List.all_cons, Bool.and_eq_true] at hc0
        obtain ⟨d, hd⟩ := Option.isSome_iff_exists.1 hc0.1
        have hd' := idx_some hd
        have hs0 : sextets (both sz m) = d :: sextets (ctl ++ (intToB64 m.index sz.ms ++ intToB64 (m.ondex.getD 0) sz.os)) := by
          rw [both, hc]; simp [sextets, hd]
        have hb6 : toDigits 2 6 d = toDigits 2 6 (x / 4) := by
          have e1 : (bits 8 b).take 6 = toDigits 2 6 d := by
            have : (bits 8 b).take 6 = ((bits 8 b).take (6 * sz.cs)).take 6 := by
              rw [List.take_take]; congr 1; omega
            rw [this, ← hbo, hs0, bits_cons, List.take_append_of_le_length (by simp),
              List.take_of_length_le (by simp)]
          have e2 : (bits 8 b).take 6 = toDigits 2 6 (x / 4) := by
            rw [hbe, bits_cons, toDigits_add 2 6 2 x, List.append_assoc,
              List.take_append_of_le_length (by simp), List.take_of_length_le (by simp)]
          rw [← e1, e2]
        have : d = x / 4 := by
          have e := congrArg (ofDigits 2) hb6
          rwa [ofDigits_toDigits_of_lt (by omega), ofDigits_toDigits_of_lt (by omega)] at e
        rw [← this, hd'.2]
    simp only [bexfil]
    rw [if_neg (by simp), nab_first hx]
    simp only
    rw [bards_chr (by omega), hfirst]
    simp only
    rw [← hbe, if_neg (by simp only [sceil34]; omega), k1]
    simp only
    rw [hhard, v.size]
    simp only [bexfilSoft]
    rw [if_neg (by simp only [sceil34]; omega), j1, hbth]
    simp only
    have hd1 : (both sz m).drop sz.hs = intToB64 m.index sz.ms ++ intToB64 (m.ondex.getD 0) sz.os := by
      rw [both, ← h1]; simp
    have hil := intToB64_length v.index
    have hidx : ((both sz m).drop sz.hs).take sz.ms = intToB64 m.index sz.ms := by
      rw [hd1, List.take_append_of_le_length (by omega), List.take_of_length_le (by omega)]
    have hondex : ((both sz m).drop (sz.hs + sz.ms)).take sz.os = intToB64 (m.ondex.getD 0) sz.os := by
      rw [← List.drop_drop, hd1, List.drop_append_of_le_length (by omega),
        List.drop_of_length_le (by omega), List.nil_append, List.take_of_length_le (by rw [v.ondexLen.1]; omega)]
    rw [hidx, (b64ToInt_fixed h7 hil).2 ⟨v.index, rfl⟩]
    simp only
    rw [hondex, (readOndex_ok_iff v.wf v.sig v.ondexLen.1).2 ⟨v.ondex, rfl⟩]
    simp only
    rw [bexfilRaw_ok_iff hb v.wf]
    refine ⟨by omega, rfl, rfl, rfl, v.rawLen, v.raw, ?_⟩
    have : b.take (f * 3 / 4) = pre := by
      rw [c.bytes, List.take_append_of_le_length (by omega), List.take_of_length_le (by omega)]
    rw [this, c.bitsEq, sigBits, hbo]

end Verif.Idr
