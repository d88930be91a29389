import Verif.Codec.IndexerBin
import Verif.Codec.PropsMatter

/-!
# C78 - C80: properties of indexed signatures (`Indexer`, `Siger`)

`siger (make …)` is `Siger(raw=…, code=…, index=…, ondex=…)`, `infil`/`binfil` are `.qb64b`/`.qb2`, `siger (exfil …)` and `siger (bexfil …)` are
`Siger(qb64b=…)` and `Siger(qb2=…)`, `signed` is `Signer.sign` with an index.
-/

namespace Verif.Idr

open Verif.B64
open Verif.Matter (encodeB64 decodeB64 decode_of_bits encode_of_bits idx_of_mem_reb64 sextets_append framed_arith canonChar canon_map
  decVals_chrs allDec_chrs decVals_allLt)

/-! ## The sizes a signature may have, as a table of its own -/

/-- The largest index a code has room for (and the largest other index if it has room for one). -/
def room (code : List Char) : Nat :=
  match code with
  | '2' :: _ => 4095
  | '3' :: _ => 262143
  | _ => 63

/-- Whether the code has room for an other index. -/
def roomy (code : List Char) : Bool := decide (code.length = 2)

/-- Bytes of a signature. -/
def sigBytes (code : List Char) : Nat :=
  match code with
  | '0' :: _ => 114
  | '3' :: _ => 114
  | _ => 64

/-- Characters of the text form. -/
def sigChars (code : List Char) : Nat :=
  match code with
  | '0' :: _ => 156
  | '2' :: _ => 92
  | '3' :: _ => 160
  | _ => 88

theorem spec_sizes : ∀ e ∈ sizes, e.1 ∈ sigCodes → 64 ^ e.2.ms = room e.1 + 1 ∧ (roomy e.1 = false → e.2.os = 0) ∧
    (roomy e.1 = true → e.2.os ≠ 0 ∧ 64 ^ e.2.os = room e.1 + 1) ∧ (e.2.fs.getD 0 - e.2.cs) * 3 / 4 = sigBytes e.1 ∧
    e.2.fs = some (sigChars e.1) := by decide +kernel

theorem spec_of {code : List Char} {sz : Xizage} {f : Nat} (hs : code ∈ sigCodes) (hsz : sizes? code = some sz) (hwf : WF code sz f) :
    64 ^ sz.ms = room code + 1 ∧ (roomy code = false → sz.os = 0) ∧ (roomy code = true → sz.os ≠ 0 ∧ 64 ^ sz.os = room code + 1) ∧
      (f - sz.cs) * 3 / 4 = sigBytes code ∧ f = sigChars code := by
  obtain ⟨a, b, c, d, e⟩ := spec_sizes (code, sz) (Matter.mem_of_lookup hsz) hs
  have hfs := hwf.2.2.2.2.2.2.2.1
  simp only at a b c d e
  rw [hfs] at d e
  simp only [Option.getD_some] at d
  injection e with e
  exact ⟨a, b, c, d, e⟩

theorem siger_ok {r : Except Err Ixr} {m : Ixr} : siger r = .ok m ↔ r = .ok m ∧ m.code ∈ sigCodes := by
  cases r with
  | error e => simp [siger]
  | ok m' =>
    simp only [siger]
    constructor
    · intro h
      split at h
      · exact absurd h (by simp)
      next hn =>
      injection h with h
      subst h
      exact ⟨rfl, by simpa using hn⟩
    · rintro ⟨h, hm⟩
      injection h with h
      subst h
      rw [if_neg (by simpa using hm)]

/-- The constructor on signature codes, decided outright. -/
theorem make_iff {code : List Char} (hs : code ∈ sigCodes) (index : Int) (ondex : Option Int) (raw : List Nat) (m : Ixr) :
    make code index ondex raw = .ok m ↔
      (0 ≤ index ∧ index ≤ room code) ∧
      (code ∈ crtCodes → ondex = none) ∧
      (code ∈ bthCodes → ∀ o, ondex = some o → (roomy code = true ∧ 0 ≤ o ∧ o ≤ room code) ∨ (roomy code = false ∧ o = index)) ∧
      sigBytes code ≤ raw.length ∧
      m = ⟨code, index.toNat, if code ∈ bthCodes then some (ondex.getD index).toNat else none, raw.take (sigBytes code)⟩ := by
  obtain ⟨sz, hsz⟩ := Option.isSome_iff_exists.1 (sig_sizes code hs)
  obtain ⟨f, hwf⟩ := wf_of_sizes hsz hs
  obtain ⟨s1, s2, s3, s4, s5⟩ := spec_of hs hsz hwf
  have hfs := hwf.2.2.2.2.2.2.2.1
  have hne : code ≠ [] := by
    intro h; have h1 := hwf.1; have := hwf.2.1; rw [h] at h1; simp at h1; omega
  have s1' : ((64 : Int) ^ sz.ms) = (room code : Int) + 1 := by exact_mod_cast s1
  have htl : (raw.take (sigBytes code)).length = sigBytes code ↔ sigBytes code ≤ raw.length := by rw [List.length_take]; omega
  simp only [make, if_neg hne, hsz, fullOf, hfs, s4, s1']
  by_cases hi : index < 0 ∨ index > (room code : Int) + 1 - 1
  · rw [if_pos hi]
    constructor
    · intro h; exact absurd h (by simp)
    · rintro ⟨h, _⟩; omega
  rw [if_neg hi]
  have hcb := sig_cases code hs
  -- the last step
  have last : ∀ (o : Option Nat), ((if (raw.take (sigBytes code)).length ≠ sigBytes code then .error .rawMaterial
      else .ok ⟨code, index.toNat, o, raw.take (sigBytes code)⟩ : Except Err Ixr) = .ok m ↔
      sigBytes code ≤ raw.length ∧ m = ⟨code, index.toNat, o, raw.take (sigBytes code)⟩) := by
    intro o
    by_cases h : sigBytes code ≤ raw.length
    · rw [if_neg (by simpa using htl.2 h)]
      simp [h, eq_comm]
    · rw [if_pos (by rw [Ne, htl]; exact h)]
      simp [h]
  cases ondex with
  | none =>
    simp only [Option.any_none]
    rw [if_neg (by simp)]
    rcases hcb with ⟨hc, hb⟩ | ⟨hc, hb⟩
    · simp only [makeOndex]
      rw [if_neg (by simp), if_neg hb]
      simp only [Option.map_none]
      rw [last, if_neg hb]
      constructor
      · rintro ⟨h1, h2⟩; exact ⟨by omega, by simp, by simp [hb], h1, h2⟩
      · rintro ⟨_, _, _, h1, h2⟩; exact ⟨h1, h2⟩
    · simp only [makeOndex]
      rw [if_neg (by simp), if_pos hb]
      simp only [Option.map_some]
      rw [last, if_pos hb]
      have : index.natAbs = index.toNat := by omega
      simp only [this, Option.getD_none]
      constructor
      · rintro ⟨h1, h2⟩; exact ⟨by omega, by simp, by simp, h1, h2⟩
      · rintro ⟨_, _, _, h1, h2⟩; exact ⟨h1, h2⟩
  | some o =>
    rcases hcb with ⟨hc, hb⟩ | ⟨hc, hb⟩
    · constructor
      · intro h
        split at h
        · exact absurd h (by simp)
        simp only [makeOndex] at h
        rw [if_pos ⟨hc, by simp⟩] at h
        exact absurd h (by simp)
      · rintro ⟨_, h, _⟩; exact absurd (h hc) (by simp)
    · simp only [Option.any_some]
      cases hr : roomy code with
      | false =>
        have h0 := s2 hr
        rw [if_neg (by simp [h0])]
        simp only [makeOndex]
        rw [if_neg (by simp [hc]), if_pos hb]
        simp only [h0]
        by_cases he : o = index
        · subst he
          rw [if_neg (by simp)]
          simp only [Option.map_some]
          rw [last, if_pos hb]
          have : o.natAbs = o.toNat := by omega
          simp only [this, Option.getD_some]
          constructor
          · rintro ⟨h1, h2⟩; exact ⟨by omega, fun h => absurd h hc, by simp, h1, h2⟩
          · rintro ⟨_, _, _, h1, h2⟩; exact ⟨h1, h2⟩
        · rw [if_pos ⟨he, trivial⟩]
          constructor
          · intro h; exact absurd h (by simp)
          · rintro ⟨_, _, h, _⟩
            have := h hb o rfl
            simp at this
            exact absurd this he
      | true =>
        obtain ⟨h0, h1⟩ := s3 hr
        have h1' : ((64 : Int) ^ sz.os) = (room code : Int) + 1 := by exact_mod_cast h1
        by_cases ho : 0 ≤ o ∧ o ≤ (room code : Int)
        · rw [if_neg (by rw [h1']; simp; omega)]
          simp only [makeOndex]
          rw [if_neg (by simp [hc]), if_pos hb]
          simp only [h0, and_false, if_false, Option.map_some]
          rw [last, if_pos hb]
          have : o.natAbs = o.toNat := by omega
          simp only [this, Option.getD_some]
          constructor
          · rintro ⟨h1, h2⟩
            refine ⟨by omega, fun h => absurd h hc, ?_, h1, h2⟩
            intro _ o' ho'
            injection ho' with ho'
            subst ho'
            exact Or.inl ⟨trivial, ho⟩
          · rintro ⟨_, _, _, h1, h2⟩; exact ⟨h1, h2⟩
        · rw [if_pos (by rw [h1']; simp [h0]; omega)]
          constructor
          · intro h; exact absurd h (by simp)
          · rintro ⟨_, _, h, _⟩
            rcases h hb o rfl with h | h
            · exact absurd h.2 ho
            · exact absurd h.1 (by simp)

theorem make_code {code : List Char} {index : Int} {ondex : Option Int} {raw : List Nat} {m : Ixr}
    (h : make code index ondex raw = .ok m) : m.code = code := by
  unfold make at h
  split at h
  · exact absurd h (by simp)
  cases hsz : sizes? code with
  | none => rw [hsz] at h; exact absurd h (by simp)
  | some sz =>
    rw [hsz] at h
    simp only at h
    split at h
    · exact absurd h (by simp)
    split at h
    · exact absurd h (by simp)
    cases ho : makeOndex code sz index ondex with
    | error e => rw [ho] at h; exact absurd h (by simp)
    | ok o =>
      rw [ho] at h
      simp only at h
      cases hf : fullOf sz index.toNat .invalidCodeSize with
      | error e => rw [hf] at h; exact absurd h (by simp)
      | ok f =>
        rw [hf] at h
        simp only at h
        split at h
        · exact absurd h (by simp)
        injection h with h
        rw [← h]

/-- Everything the constructor of `Siger` accepts has parts of the right sizes. -/
theorem make_valid {code : List Char} {index : Int} {ondex : Option Int} {raw : List Nat} {m : Ixr} (hraw : AllLt 256 raw)
    (h : siger (make code index ondex raw) = .ok m) : ∃ sz, Valid m sz (sigChars code) ∧ m.code = code := by
  obtain ⟨h, hs⟩ := siger_ok.1 h
  have hc := make_code h
  rw [hc] at hs
  obtain ⟨sz, hsz⟩ := Option.isSome_iff_exists.1 (sig_sizes code hs)
  obtain ⟨f, hwf⟩ := wf_of_sizes hsz hs
  obtain ⟨s1, s2, s3, s4, s5⟩ := spec_of hs hsz hwf
  obtain ⟨i1, i2, i3, i4, rfl⟩ := (make_iff hs index ondex raw m).1 h
  subst s5
  refine ⟨sz, ⟨hs, hsz, hwf, ?_, ?_, ?_, hraw.take _⟩, rfl⟩
  · simp only; rw [s1]; omega
  · simp only
    rcases sig_cases code hs with ⟨hcr, hb⟩ | ⟨hcr, hb⟩
    · rw [if_neg hb]; exact hcr
    · rw [if_pos hb]
      refine ⟨hb, ?_, ?_⟩
      · intro h0
        cases ondex with
        | none => rfl
        | some o =>
          rcases i3 hb o rfl with h | h
          · exact absurd h0 (s3 h.1).1
          · simp [h.2]
      · intro h0
        have hr : roomy code = true := by
          cases hr : roomy code with
          | true => rfl
          | false => exact absurd (s2 hr) h0
        rw [(s3 hr).2]
        cases ondex with
        | none => simp only [Option.getD_none]; omega
        | some o =>
          rcases i3 hb o rfl with h | h
          · simp only [Option.getD_some]; omega
          · rw [hr] at h; exact absurd h.1 (by simp)
  · simp only; rw [List.length_take, s4]; omega

/-! ## C78 -/

/-- C78: parsing the text of any signature the constructor accepts gives the same signature, and the text has the length its code says. -/
theorem c78_text (code : List Char) (index : Int) (ondex : Option Int) (raw : List Nat) (m : Ixr) (hraw : AllLt 256 raw)
    (h : siger (make code index ondex raw) = .ok m) :
    ∃ t, infil m = .ok t ∧ siger (exfil t) = .ok m ∧ t.length = sigChars code ∧ reb64 t = true := by
  obtain ⟨sz, v, hc⟩ := make_valid hraw h
  obtain ⟨mat, h1, h2, h3, h4⟩ := infil_valid v
  have hlt := v.wf.2.2.2.2.2.2.2.2.2.2.1
  refine ⟨_, h1, siger_ok.2 ((exfil_ok_iff _ m).2 ⟨sz, _, mat, [], v, by simp, h3, (idx_of_mem_reb64 h2).1, h4⟩), ?_, ?_⟩
  · rw [List.length_append, v.bothLen, h3]; omega
  · rw [reb64_append, v.bothB64, h2]; rfl

/-- C78: and so does parsing its binary form. -/
theorem c78_binary (code : List Char) (index : Int) (ondex : Option Int) (raw : List Nat) (m : Ixr) (hraw : AllLt 256 raw)
    (h : siger (make code index ondex raw) = .ok m) :
    ∃ b, binfil m = .ok b ∧ siger (bexfil b) = .ok m ∧ 4 * b.length = 3 * sigChars code ∧ AllLt 256 b := by
  obtain ⟨sz, v, hc⟩ := make_valid hraw h
  obtain ⟨b, h1, h2, h3, h4⟩ := binfil_valid v
  exact ⟨b, h1, siger_ok.2 ((bexfil_ok_iff b h2 m).2 ⟨sz, _, b, [], v, by simp, h3, h4⟩), h3, h2⟩

theorem forms_bits {m : Ixr} {sz : Xizage} {f : Nat} (v : Valid m sz f) :
    ∃ t b, infil m = .ok t ∧ binfil m = .ok b ∧ reb64 t = true ∧ AllLt 256 b ∧ t.length % 4 = 0 ∧ 4 * b.length = 3 * t.length ∧
      bits 6 (sextets t) = bits 8 b := by
  obtain ⟨mat, h1, h2, h3, h4⟩ := infil_valid v
  obtain ⟨b, b1, b2, b3, b4⟩ := binfil_valid v
  have hlt := v.wf.2.2.2.2.2.2.2.2.2.2.1
  have hf4 := v.wf.2.2.2.2.2.2.2.2.1
  have hl : (both sz m ++ mat).length = f := by rw [List.length_append, v.bothLen, h3]; omega
  refine ⟨_, b, h1, b1, by rw [reb64_append, v.bothB64, h2]; rfl, b2, by omega, by omega, ?_⟩
  rw [b4, sigBits, sextets_append, bits_append, ← (idx_of_mem_reb64 h2).2, h4]

/-- C78: the binary form is the Base64 decoding of the text form and conversely. -/
theorem c78_aligned (code : List Char) (index : Int) (ondex : Option Int) (raw : List Nat) (m : Ixr) (hraw : AllLt 256 raw)
    (h : siger (make code index ondex raw) = .ok m) :
    ∃ t b, infil m = .ok t ∧ binfil m = .ok b ∧ decodeB64 t = .ok b ∧ encodeB64 b = t := by
  obtain ⟨sz, v, hc⟩ := make_valid hraw h
  obtain ⟨t, b, h1, h2, h3, h4, h5, h6, h7⟩ := forms_bits v
  exact ⟨t, b, h1, h2, decode_of_bits h3 h4 h5 h7, encode_of_bits h3 h4 (by omega) h7⟩

/-- C78 beyond signatures, disagreement: `Indexer` accepts a raw for the test codes with lead bytes, and then has no text form; the other index
of the variable size test code comes back as the index although none was given. -/
theorem c78_test_codes :
    (∃ m, make ['1', 'z'] 1 (some 1) (List.replicate 54 1) = .ok m ∧ infil m = .error .invalidCodeSize) ∧
    (∃ m t m', make ['0', 'z'] 1 none [1, 2, 3] = .ok m ∧ m.ondex = none ∧ infil m = .ok t ∧ exfil t = .ok m' ∧ m'.ondex = some 1) :=
  ⟨⟨⟨['1', 'z'], 1, some 1, List.replicate 54 1⟩, by decide +kernel⟩,
    ⟨⟨['0', 'z'], 1, none, [1, 2, 3]⟩, ['0', 'z', 'A', 'B', 'A', 'Q', 'I', 'D'], ⟨['0', 'z'], 1, some 1, [1, 2, 3]⟩, by decide +kernel⟩⟩

example : siger (make ['2', 'A'] 70 (some 4095) (List.replicate 64 9)) = .ok ⟨['2', 'A'], 70, some 4095, List.replicate 64 9⟩ ∧
    (infil ⟨['2', 'A'], 70, some 4095, List.replicate 64 9⟩).map (List.take 7) = .ok ['2', 'A', 'B', 'G', '_', '_', 'A'] := by decide +kernel

/-! ## C79 -/

theorem carries_text {t : List Char} {m : Ixr} {sz : Xizage} {f : Nat} {mat rest : List Char} (c : Carries t m sz f mat rest) :
    t.length = f + rest.length ∧ t.take f = both sz m ++ mat ∧ f = sigChars m.code := by
  have v := c.valid
  have hlt := v.wf.2.2.2.2.2.2.2.2.2.2.1
  have hl : (both sz m ++ mat).length = f := by rw [List.length_append, v.bothLen, c.len]; omega
  refine ⟨?_, ?_, (spec_of v.sig v.size v.wf).2.2.2.2⟩
  · rw [c.text, ← List.append_assoc, List.length_append, hl]
  · rw [c.text, ← List.append_assoc, List.take_append_of_le_length (by omega), List.take_of_length_le (by omega)]

/-- C79: what follows a signature in the stream changes neither the signature read nor how much is consumed. -/
theorem c79_self_framing (t : List Char) (m : Ixr) (h : siger (exfil t) = .ok m) (rest : List Char) :
    sigChars m.code ≤ t.length ∧ siger (exfil (t.take (sigChars m.code) ++ rest)) = .ok m ∧
      ∃ t', infil m = .ok t' ∧ t'.length = sigChars m.code := by
  obtain ⟨sz, f, mat, r, c⟩ := (exfil_ok_iff t m).1 (siger_ok.1 h)
  obtain ⟨h1, h2, h3⟩ := carries_text c
  rw [← h3, h2]
  refine ⟨by omega, siger_ok.2 ((exfil_ok_iff _ m).2 ⟨sz, f, mat, rest, c.valid, by simp, c.len, c.dec, c.bitsEq⟩), ?_⟩
  obtain ⟨mat', h4, _, h6, _⟩ := infil_valid c.valid
  have hlt := c.valid.wf.2.2.2.2.2.2.2.2.2.2.1
  exact ⟨_, h4, by rw [List.length_append, c.valid.bothLen, h6]; omega⟩

/-- C79 in the binary domain. -/
theorem c79_self_framing_binary (b : List Nat) (hb : AllLt 256 b) (m : Ixr) (h : siger (bexfil b) = .ok m) (rest : List Nat)
    (hrest : AllLt 256 rest) :
    sigChars m.code * 3 / 4 ≤ b.length ∧ siger (bexfil (b.take (sigChars m.code * 3 / 4) ++ rest)) = .ok m := by
  obtain ⟨sz, f, pre, r, c⟩ := (bexfil_ok_iff b hb m).1 (siger_ok.1 h)
  have h3 := (spec_of c.valid.sig c.valid.size c.valid.wf).2.2.2.2
  have hlen := c.len
  have hl : b.length = pre.length + r.length := by rw [c.bytes]; simp
  rw [← h3]
  have htk : b.take (f * 3 / 4) = pre := by
    rw [c.bytes, List.take_append_of_le_length (by omega), List.take_of_length_le (by omega)]
  refine ⟨by omega, ?_⟩
  rw [htk]
  refine siger_ok.2 ((bexfil_ok_iff _ ?_ m).2 ⟨sz, f, pre, rest, c.valid, rfl, c.len, c.bitsEq⟩)
  rw [allLt_append]
  exact ⟨by rw [← htk]; exact hb.take _, hrest⟩

/-- A reader of `k` signatures: `Siger(qb64b=…, strip=True)` deletes the text form of what it read from the front, repeat. -/
def readN : Nat → List Char → Except Err (List Ixr × List Char)
  | 0, s => .ok ([], s)
  | k + 1, s =>
    match siger (exfil s) with
    | .error e => .error e
    | .ok m =>
      match infil m with
      | .error e => .error e
      | .ok t =>
        match readN k (s.drop t.length) with
        | .error e => .error e
        | .ok (ms, r) => .ok (m :: ms, r)

/-- C79: a concatenation of signatures reads back as the same signatures in the same order, leaving what follows. -/
theorem c79_stream (ms : List Ixr)
    (hms : ∀ m ∈ ms, ∃ code index ondex raw, AllLt 256 raw ∧ siger (make code index ondex raw) = .ok m) (rest : List Char) :
    ∃ ts : List (List Char), ms.map infil = ts.map Except.ok ∧ readN ms.length (ts.flatten ++ rest) = .ok (ms, rest) := by
  induction ms with
  | nil => exact ⟨[], rfl, rfl⟩
  | cons m ms ih =>
    obtain ⟨ts, k1, k2⟩ := ih (fun m hm => hms m (List.mem_cons_of_mem _ hm))
    obtain ⟨code, index, ondex, raw, hraw, hmk⟩ := hms m (List.mem_cons_self ..)
    obtain ⟨t, h1, h2, h3, _⟩ := c78_text code index ondex raw m hraw hmk
    refine ⟨t :: ts, by simp [h1, k1], ?_⟩
    have h4 := (c79_self_framing t m h2 (ts.flatten ++ rest)).2.1
    have h5 : sigChars m.code = t.length := by
      rw [h3, make_code (siger_ok.1 hmk).1]
    rw [h5, List.take_of_length_le (by omega)] at h4
    rw [List.flatten_cons, List.append_assoc, List.length_cons, readN, h4]
    simp only [h1]
    rw [List.drop_append_of_le_length (by omega), List.drop_of_length_le (by omega), List.nil_append, k2]

/-- C79: every proper front part of a signature asks for more characters, whatever the cut. -/
theorem c79_text_prefix (t : List Char) (m : Ixr) (h : siger (exfil t) = .ok m) (k : Nat) (hk : k < sigChars m.code) :
    siger (exfil (t.take k)) = .error .shortage := by
  obtain ⟨sz, f, mat, r, c⟩ := (exfil_ok_iff t m).1 (siger_ok.1 h)
  obtain ⟨hl, htf, hf⟩ := carries_text c
  rw [← hf] at hk
  have v := c.valid
  have ⟨h1, h2, h3, h4, hls, h6, h7, hfs, hf4, hc3, hcf, hos, hhs⟩ := v.wf
  have hcs := cs_eq v.wf
  have hkl : (t.take k).length = k := by rw [List.length_take]; omega
  suffices hh : exfil (t.take k) = .error .shortage by rw [hh]; rfl
  cases hk0 : k with
  | zero => simp [exfil]
  | succ k' =>
  rw [← hk0]
  have htake : t.take sz.hs = m.code := by
    rw [c.text, both, List.append_assoc, ← h1]; simp
  cases htt : t with
  | nil => rw [htt] at hl; simp at hl; omega
  | cons first tl =>
  have hfirst : hards first = some sz.hs := by
    have : m.code.head? = some first := by
      rw [← htake, htt]
      cases hh : sz.hs with
      | zero => omega
      | succ j => simp
    rw [this] at h3
    simpa using h3
  have hcons : t.take k = first :: tl.take k' := by rw [htt, hk0]; simp
  rw [← htt]
  have hex : exfil (t.take k) = (if (t.take k).length < sz.hs then .error .shortage else
      match sizes? ((t.take k).take sz.hs) with
      | none => .error .unexpectedCode
      | some z => exfilSoft (t.take k) ((t.take k).take sz.hs) z) := by
    conv => lhs; rw [hcons]
    simp only [exfil, hfirst]
    rw [← hcons]
    rfl
  rw [hex, hkl]
  by_cases hkh : k < sz.hs
  · rw [if_pos hkh]
  rw [if_neg hkh, List.take_take, Nat.min_eq_left (by omega), htake, v.size]
  simp only [exfilSoft]
  rw [hkl]
  by_cases hkc : k < sz.cs
  · rw [if_pos hkc]
  rw [if_neg hkc]
  have hil := intToB64_length v.index
  have hd1 : t.drop sz.hs = (intToB64 m.index sz.ms ++ intToB64 (m.ondex.getD 0) sz.os) ++ (mat ++ r) := by
    rw [c.text, both, List.append_assoc, ← h1]; simp
  have hidx : ((t.take k).drop sz.hs).take sz.ms = intToB64 m.index sz.ms := by
    rw [List.drop_take, List.take_take, Nat.min_eq_left (by omega), hd1, List.append_assoc, List.take_append_of_le_length (by omega),
      List.take_of_length_le (by omega)]
  have hondex : ((t.take k).drop (sz.hs + sz.ms)).take sz.os = intToB64 (m.ondex.getD 0) sz.os := by
    rw [List.drop_take, List.take_take, Nat.min_eq_left (by omega), ← List.drop_drop, hd1, List.append_assoc,
      List.drop_append_of_le_length (by omega), List.drop_of_length_le (by omega), List.nil_append,
      List.take_append_of_le_length (by rw [v.ondexLen.1]; omega), List.take_of_length_le (by rw [v.ondexLen.1]; omega)]
  rw [hidx, (b64ToInt_fixed h7 hil).2 ⟨v.index, rfl⟩]
  simp only
  rw [hondex, (readOndex_ok_iff v.wf v.sig v.ondexLen.1).2 ⟨v.ondex, rfl⟩]
  simp only [exfilRaw, fullOf, hfs]
  rw [hkl, if_pos hk]

theorem nab_take {b : List Nat} {k : Nat} (hk : 1 ≤ k) (hb : k ≤ b.length) : nabSextets (b.take k) 1 = nabSextets b 1 := by
  have hs : sceil34 1 = 1 := rfl
  unfold nabSextets
  simp only
  rw [hs, List.take_take, List.length_take, if_neg (by omega), if_neg (by omega), Nat.min_eq_left (by omega)]

theorem code_take {b : List Nat} {k n : Nat} (hk : sceil34 n ≤ k) (hb : k ≤ b.length) : codeB2ToB64 (b.take k) n = codeB2ToB64 b n := by
  unfold codeB2ToB64
  simp only
  rw [List.take_take, List.length_take, if_neg (by omega), if_neg (by omega), Nat.min_eq_left (by omega)]

/-- C79: and of its bytes. -/
theorem c79_binary_prefix (b : List Nat) (hb : AllLt 256 b) (m : Ixr) (h : siger (bexfil b) = .ok m) (k : Nat)
    (hk : 4 * k < 3 * sigChars m.code) : siger (bexfil (b.take k)) = .error .shortage := by
  obtain ⟨sz, f, pre, r, c⟩ := (bexfil_ok_iff b hb m).1 (siger_ok.1 h)
  have v := c.valid
  have hf := (spec_of v.sig v.size v.wf).2.2.2.2
  have hwf := v.wf
  have ⟨h1, h2, h3, h4, hls, h6, h7, hfs, hf4, hc3, hcf, hos, hhs⟩ := v.wf
  have hpl := c.len
  have hblen : b.length = pre.length + r.length := by rw [c.bytes]; simp
  have hkl : (b.take k).length = k := by rw [List.length_take]; omega
  suffices hh : bexfil (b.take k) = .error .shortage by rw [hh]; rfl
  have hx := (siger_ok.1 h).1
  unfold bexfil at hx ⊢
  by_cases hk0 : k = 0
  · subst hk0; rw [if_pos (by simp)]
  have hbn : b ≠ [] := by rintro rfl; simp at hblen; omega
  have htn : b.take k ≠ [] := by intro e; rw [e] at hkl; simp at hkl; omega
  rw [if_neg hbn] at hx
  rw [if_neg htn, nab_take (by omega) (by omega), hkl]
  cases hn : nabSextets b 1 with
  | error e => rw [hn] at hx; exact absurd hx (by simp)
  | ok first =>
    rw [hn] at hx
    simp only at hx ⊢
    cases hbd : bards first with
    | none => rw [hbd] at hx; exact absurd hx (by simp)
    | some hs =>
      rw [hbd] at hx
      simp only at hx ⊢
      split at hx
      · exact absurd hx (by simp)
      by_cases hkh : k < sceil34 hs
      · rw [if_pos hkh]
      rw [if_neg hkh, code_take (by omega) (by omega)]
      cases hcd : codeB2ToB64 b hs with
      | error e => rw [hcd] at hx; exact absurd hx (by simp)
      | ok hard =>
        rw [hcd] at hx
        simp only at hx ⊢
        cases hsz : sizes? hard with
        | none => rw [hsz] at hx; exact absurd hx (by simp)
        | some z =>
          rw [hsz] at hx
          simp only [bexfilSoft] at hx ⊢
          split at hx
          · exact absurd hx (by simp)
          rw [hkl]
          by_cases hkc : k < sceil34 z.cs
          · rw [if_pos hkc]
          rw [if_neg hkc, code_take (by omega) (by omega)]
          cases hcd2 : codeB2ToB64 b z.cs with
          | error e => rw [hcd2] at hx; exact absurd hx (by simp)
          | ok bth =>
            rw [hcd2] at hx
            simp only at hx ⊢
            cases hi : b64ToInt ((bth.drop z.hs).take z.ms) with
            | error e => rw [hi] at hx; exact absurd hx (by simp)
            | ok index =>
              rw [hi] at hx
              simp only at hx ⊢
              cases ho : readOndex hard z index ((bth.drop (z.hs + z.ms)).take z.os) with
              | error e => rw [ho] at hx; exact absurd hx (by simp)
              | ok ondex =>
                rw [ho] at hx
                simp only [bexfilRaw] at hx ⊢
                cases hfo : fullOf z index .validation with
                | error e => rw [hfo] at hx; exact absurd hx (by simp)
                | ok f' =>
                  rw [hfo] at hx
                  simp only at hx ⊢
                  split at hx
                  · exact absurd hx (by simp)
                  have hc : m.code = hard := by rw [two_checks hx]
                  rw [← hc, v.size] at hsz
                  injection hsz with hsz
                  subst hsz
                  have : f' = f := by
                    unfold fullOf at hfo
                    rw [hfs] at hfo
                    injection hfo with hfo
                    exact hfo.symm
                  subst this
                  rw [hkl, if_pos (by simp only [sceil34]; omega)]

/-- C79: two texts in the URL-safe alphabet that read as the same signature agree on all its characters. -/
theorem c79_unique (t1 t2 : List Char) (m : Ixr) (h1 : siger (exfil t1) = .ok m) (h2 : siger (exfil t2) = .ok m)
    (hb1 : reb64 t1 = true) (hb2 : reb64 t2 = true) : t1.take (sigChars m.code) = t2.take (sigChars m.code) := by
  have key : ∀ t, siger (exfil t) = .ok m → reb64 t = true → ∃ sz, sizes? m.code = some sz ∧
      ∃ mat, t.take (sigChars m.code) = both sz m ++ mat ∧ reb64 mat = true ∧
        bits 6 (sextets mat) = List.replicate (2 * (sz.cs % 4)) 0 ++ bits 8 m.raw := by
    intro t h hb
    obtain ⟨sz, f, mat, r, c⟩ := (exfil_ok_iff t m).1 (siger_ok.1 h)
    obtain ⟨hl, htf, hf⟩ := carries_text c
    have hm : reb64 mat = true := by
      have := c.text
      rw [this, reb64_append, reb64_append] at hb
      simp at hb
      exact hb.2.1
    exact ⟨sz, c.valid.size, mat, by rw [← hf, htf], hm, by rw [← (idx_of_mem_reb64 hm).2, c.bitsEq]⟩
  obtain ⟨sz, a1, mat1, a2, a3, a4⟩ := key t1 h1 hb1
  obtain ⟨sz', b1, mat2, b2, b3, b4⟩ := key t2 h2 hb2
  rw [a1] at b1
  injection b1 with b1
  subst b1
  rw [a2, b2]
  congr 1
  apply Matter.sextets_inj a3 b3
  exact bits_inj (w := 6) (by omega) (Matter.sextets_allLt _) (Matter.sextets_allLt _) (by rw [a4, b4])

example : siger (exfil (['B', 'C'] ++ List.replicate 86 'A' ++ ['x'])) = .ok ⟨['B'], 2, none, List.replicate 64 0⟩ ∧
    siger (exfil (['B', 'C'] ++ List.replicate 85 'A')) = .error .shortage ∧ siger (exfil ['0', 'A']) = .error .shortage := by decide +kernel

/-! ## C80 -/

/-- C80: which arguments `Siger` accepts, and what it keeps: the index must fit the code; a code for the current list takes no other index; a code
for both lists takes any other index that fits if there is room for it, else only the index itself; the raw is cut to size; no other index means the
same index in both lists. -/
theorem c80_accepts (code : List Char) (index : Int) (ondex : Option Int) (raw : List Nat) (m : Ixr) :
    siger (make code index ondex raw) = .ok m ↔
      code ∈ sigCodes ∧ (0 ≤ index ∧ index ≤ room code) ∧ (code ∈ crtCodes → ondex = none) ∧
      (code ∈ bthCodes → ∀ o, ondex = some o → (roomy code = true ∧ 0 ≤ o ∧ o ≤ room code) ∨ (roomy code = false ∧ o = index)) ∧
      sigBytes code ≤ raw.length ∧
      m = ⟨code, index.toNat, if code ∈ bthCodes then some (ondex.getD index).toNat else none, raw.take (sigBytes code)⟩ := by
  rw [siger_ok]
  constructor
  · rintro ⟨h, hs⟩
    rw [make_code h] at hs
    exact ⟨hs, (make_iff hs index ondex raw m).1 h⟩
  · rintro ⟨hs, h⟩
    have := (make_iff hs index ondex raw m).2 h
    exact ⟨this, by rw [make_code this]; exact hs⟩

/-- C80: nothing but a signature code comes out of parsing a `Siger`, in text or bytes, and its indices are consistent with its code. -/
theorem c80_parsed (t : List Char) (m : Ixr) (h : siger (exfil t) = .ok m) :
    m.code ∈ sigCodes ∧ m.index ≤ room m.code ∧ (m.ondex = none ↔ m.code ∈ crtCodes) ∧
      (∀ o, m.ondex = some o → o ≤ room m.code ∧ (roomy m.code = false → o = m.index)) ∧ m.raw.length = sigBytes m.code := by
  obtain ⟨sz, f, mat, r, c⟩ := (exfil_ok_iff t m).1 (siger_ok.1 h)
  have v := c.valid
  obtain ⟨s1, s2, s3, s4, s5⟩ := spec_of v.sig v.size v.wf
  have hi := v.index
  have ho := v.ondex
  refine ⟨v.sig, by omega, ?_, ?_, by rw [v.rawLen, s4]⟩
  · cases hm : m.ondex with
    | none => rw [hm] at ho; simpa [OndexOk] using ho
    | some o =>
      rw [hm] at ho
      have : m.code ∉ crtCodes := by
        intro hc
        rcases sig_cases m.code v.sig with ⟨_, hb⟩ | ⟨hc', _⟩
        · exact hb ho.1
        · exact hc' hc
      simp [this]
  · intro o hm
    rw [hm] at ho
    cases hr : roomy m.code with
    | false =>
      have := ho.2.1 (s2 hr)
      exact ⟨by omega, fun _ => this⟩
    | true =>
      obtain ⟨h0, h1⟩ := s3 hr
      have := ho.2.2 h0
      exact ⟨by omega, by simp⟩

/-- The code `Signer.sign` should use. -/
def goodCode (s : Suite) (only : Bool) (small : Bool) : List Char :=
  match s, only, small with
  | .ed25519, true, true => ['B']
  | .ed25519, true, false => ['2', 'B']
  | .ed25519, false, true => ['A']
  | .ed25519, false, false => ['2', 'A']
  | .secp256k1, true, true => ['D']
  | .secp256k1, true, false => ['2', 'D']
  | .secp256k1, false, true => ['C']
  | .secp256k1, false, false => ['2', 'C']
  | .secp256r1, true, true => ['F']
  | .secp256r1, true, false => ['2', 'F']
  | .secp256r1, false, true => ['E']
  | .secp256r1, false, false => ['2', 'E']

/-- C80: signing with an index succeeds exactly for indices 0 to 4095 (the other index too unless `only`), and the signature made carries the signer's
suite, the index, the other index asked for (the index if none was asked for, none at all with `only`) and all bytes of the raw signature; the
short code is used exactly when the index is at most 63 and the other index is not different. -/
theorem c80_signed (s : Suite) (sig : List Nat) (hl : sig.length = 64) (index : Int) (only : Bool) (ondex : Option Int) (m : Ixr) :
    signed s sig index only ondex = .ok m ↔
      (0 ≤ index ∧ index ≤ 4095) ∧ (only = false → 0 ≤ ondex.getD index ∧ ondex.getD index ≤ 4095) ∧
      m = ⟨goodCode s only (decide (index ≤ 63) && (only || decide (ondex.getD index = index))), index.toNat,
        if only then none else some (ondex.getD index).toNat, sig⟩ := by
  have htk : sig.take 64 = sig := by rw [List.take_of_length_le (by omega)]
  cases only with
  | true =>
    simp only [signed, if_true, Bool.true_or, Bool.and_true]
    rw [c80_accepts]
    by_cases h63 : index ≤ 63
    · rw [if_pos h63]
      have h1 : s.crt ∈ sigCodes ∧ s.crt ∈ crtCodes ∧ s.crt ∉ bthCodes ∧ room s.crt = 63 ∧ sigBytes s.crt = 64 ∧
          goodCode s true true = s.crt := by cases s <;> decide +kernel
      obtain ⟨a1, a2, a3, a4, a5, a6⟩ := h1
      simp only [a1, a2, a3, a4, a5, h63, decide_true, a6, if_false, htk]
      constructor
      · rintro ⟨_, h2, _, _, _, h3⟩; exact ⟨by omega, by simp, h3⟩
      · rintro ⟨h2, _, h3⟩; exact ⟨trivial, by omega, by simp, by simp, by omega, h3⟩
    · rw [if_neg h63]
      have h1 : s.bigCrt ∈ sigCodes ∧ s.bigCrt ∈ crtCodes ∧ s.bigCrt ∉ bthCodes ∧ room s.bigCrt = 4095 ∧ sigBytes s.bigCrt = 64 ∧
          goodCode s true false = s.bigCrt := by cases s <;> decide +kernel
      obtain ⟨a1, a2, a3, a4, a5, a6⟩ := h1
      simp only [a1, a2, a3, a4, a5, h63, decide_false, a6, if_false, htk]
      constructor
      · rintro ⟨_, h2, _, _, _, h3⟩; exact ⟨by omega, by simp, h3⟩
      · rintro ⟨h2, _, h3⟩; exact ⟨trivial, by omega, by simp, by simp, by omega, h3⟩
  | false =>
    simp only [signed, Bool.false_eq_true, if_false, Bool.false_or]
    generalize ondex.getD index = o
    rw [c80_accepts]
    by_cases h63 : o = index ∧ index ≤ 63
    · rw [if_pos h63]
      obtain ⟨rfl, h63⟩ := h63
      have h1 : s.bth ∈ sigCodes ∧ s.bth ∉ crtCodes ∧ s.bth ∈ bthCodes ∧ room s.bth = 63 ∧ sigBytes s.bth = 64 ∧ roomy s.bth = false ∧
          goodCode s false true = s.bth := by cases s <;> decide +kernel
      obtain ⟨a1, a2, a3, a4, a5, a6, a7⟩ := h1
      simp only [a1, a2, a3, a4, a5, a6, h63, decide_true, Bool.and_self, a7, if_true, htk, Option.getD_some]
      constructor
      · rintro ⟨_, h2, _, _, _, h3⟩; exact ⟨by omega, fun _ => by omega, h3⟩
      · rintro ⟨h2, _, h3⟩; exact ⟨trivial, by omega, by simp, by simp, by omega, h3⟩
    · rw [if_neg h63]
      have h1 : s.bigBth ∈ sigCodes ∧ s.bigBth ∉ crtCodes ∧ s.bigBth ∈ bthCodes ∧ room s.bigBth = 4095 ∧ sigBytes s.bigBth = 64 ∧
          roomy s.bigBth = true ∧ goodCode s false false = s.bigBth := by cases s <;> decide +kernel
      obtain ⟨a1, a2, a3, a4, a5, a6, a7⟩ := h1
      have hd : (decide (index ≤ 63) && decide (o = index)) = false := by
        rw [Bool.and_eq_false_iff, decide_eq_false_iff_not, decide_eq_false_iff_not]
        by_cases h : index ≤ 63
        · exact Or.inr (fun h' => h63 ⟨h', h⟩)
        · exact Or.inl h
      simp only [a1, a2, a3, a4, a5, a6, hd, a7, if_true, htk, Option.getD_some]
      constructor
      · rintro ⟨_, h2, _, h4, _, h3⟩
        refine ⟨by omega, fun _ => ?_, h3⟩
        rcases h4 trivial o rfl with h | h
        · omega
        · exact absurd h.1 (by simp)
      · rintro ⟨h2, h4, h3⟩
        refine ⟨trivial, by omega, by simp, ?_, by omega, h3⟩
        intro _ o' ho'
        injection ho' with ho'
        subst ho'
        have := h4 trivial
        exact Or.inl ⟨trivial, by omega⟩

/-- C80: the signature made by `Signer.sign` survives both encodings. -/
theorem c80_signed_roundtrip (s : Suite) (sig : List Nat) (hsig : AllLt 256 sig) (index : Int) (only : Bool)
    (ondex : Option Int) (m : Ixr) (h : signed s sig index only ondex = .ok m) :
    ∃ t b, infil m = .ok t ∧ siger (exfil t) = .ok m ∧ binfil m = .ok b ∧ siger (bexfil b) = .ok m := by
  have : ∃ code i o, siger (make code i o sig) = .ok m := by
    unfold signed at h
    split at h
    · exact ⟨_, _, _, h⟩
    · exact ⟨_, _, _, h⟩
  obtain ⟨code, i, o, hm⟩ := this
  obtain ⟨t, t1, t2, _⟩ := c78_text code i o sig m hsig hm
  obtain ⟨b, b1, b2, _⟩ := c78_binary code i o sig m hsig hm
  exact ⟨t, b, t1, t2, b1, b2⟩

example : signed .ed25519 (List.replicate 64 5) 64 false (some 3) = .ok ⟨['2', 'A'], 64, some 3, List.replicate 64 5⟩ ∧
    signed .secp256k1 (List.replicate 64 5) 63 true (some 3) = .ok ⟨['D'], 63, none, List.replicate 64 5⟩ ∧
    signed .ed25519 (List.replicate 64 5) 4096 true none = .error .invalidVarIndex := by decide +kernel

end Verif.Idr
