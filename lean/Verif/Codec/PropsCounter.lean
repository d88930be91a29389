import Verif.Codec.CounterLemmas
import Verif.Codec.PropsIndexer

/-!
# C81 - C83: properties of counters and groups (`Counter`)

`make v code count` is `Counter(code=…, count=…, version=v)`, `infil`/`binfil` are `.qb64b`/`.qb2`, `exfil`/`bexfil` are
`Counter(qb64b=…)`/`Counter(qb2=…)`, `encloseText`/`encloseBinary` are `Counter.enclose(qb64=…)`/`Counter.enclose(qb2=…)`.
-/

namespace Verif.Ctr

open Verif.B64
open Verif.Idr (b64ToInt_fixed intToB64_length intToB64_reb64 reb64_take)
open Verif.Matter (encodeB64 decodeB64 decode_of_bits encode_of_bits sextets_append idx_of_mem_reb64 decodeB64_complete sextets_allLt sextets_inj)

/-! ## C81 -/

/-- The full size of a code by its number of characters. -/
def ctrChars (code : List Char) : Nat := if code.length = 2 then 4 else 8

theorem spec_sizes (v : Ver) : ∀ e ∈ sizes v, e.2.fs = ctrChars e.1 := by cases v <;> decide +kernel

theorem spec_of {v : Ver} {code : List Char} {sz : Cizage} (h : sizes? v code = some sz) : sz.fs = ctrChars code :=
  spec_sizes v (code, sz) (Matter.mem_of_lookup h)

theorem promote_cases (code : List Char) (ss : Nat) (count : Int) (hs : 2 ≤ code.length) :
    promote code ss count = (code, ss) ∨
      (∃ a c tl, code = a :: c :: tl ∧ c ∉ fixedChars ∧ c ≠ '-' ∧ count > 4095 ∧ promote code ss count = (['-', '-', c], 5)) := by
  match code, hs with
  | a :: c :: tl, _ =>
    simp only [promote, List.drop_succ_cons, List.drop_zero, List.head?_cons, Option.any_some, Option.some.injEq, ne_eq, List.take_succ_cons,
      List.take_zero, decide_eq_true_eq]
    by_cases h1 : c ∉ fixedChars
    · rw [if_pos h1]
      by_cases h2 : ¬ c = '-' ∧ count > 64 ^ 2 - 1
      · rw [if_pos h2]
        exact Or.inr ⟨a, c, tl, rfl, h1, h2.1, by omega, rfl⟩
      · rw [if_neg h2]; exact Or.inl rfl
    · rw [if_neg h1]; exact Or.inl rfl

theorem big_ss (v : Ver) : ∀ e ∈ sizes v, e.1.length = 3 → e.2.ss = 5 := by cases v <;> decide +kernel

/-- Everything the constructor accepts is in the table and fits. -/
theorem make_valid {v : Ver} {code : List Char} {count : Int} {m : Counter} (h : make v code count = .ok m) :
    ∃ sz, Valid v m sz ∧ (m.count : Int) = count := by
  unfold make at h
  split at h
  · exact absurd h (by simp)
  cases hsz : sizes? v code with
  | none => rw [hsz] at h; exact absurd h (by simp)
  | some sz =>
    rw [hsz] at h
    simp only at h
    split at h
    · exact absurd h (by simp)
    next hc =>
    cases hsz2 : sizes? v (promote code sz.ss count).1 with
    | none => rw [hsz2] at h; exact absurd h (by simp)
    | some sz2 =>
      rw [hsz2] at h
      simp only at h
      injection h with h
      subst h
      refine ⟨sz2, ⟨hsz2, ?_⟩, by simp only; omega⟩
      have hss : sz2.ss = (promote code sz.ss count).2 := by
        rcases promote_cases code sz.ss count (by have := (wf_of_sizes hsz).1; have := (wf_of_sizes hsz).2.1; omega) with h | ⟨a, c, tl, h1, h2, h3, h4, h5⟩
        · rw [h] at hsz2 ⊢; rw [hsz] at hsz2; injection hsz2 with e; rw [e]
        · rw [h5] at hsz2 ⊢
          exact big_ss v (_, sz2) (Matter.mem_of_lookup hsz2) rfl
      rw [hss]
      simp only
      have : (0 : Int) ≤ count ∧ count ≤ 64 ^ (promote code sz.ss count).2 - 1 := by omega
      have h2 : ((64 ^ (promote code sz.ss count).2 : Nat) : Int) = 64 ^ (promote code sz.ss count).2 := by push_cast; rfl
      omega

/-- C81: the text of every counter the constructor accepts reads back as the same counter, whatever follows it, and has the length its code says. -/
theorem c81_text (v : Ver) (code : List Char) (count : Int) (m : Counter) (h : make v code count = .ok m) :
    ∃ t, infil v m = .ok t ∧ (∀ rest, exfil v (t ++ rest) = .ok m) ∧ t.length = ctrChars m.code ∧ (m.count : Int) = count := by
  obtain ⟨sz, hv, hc⟩ := make_valid h
  exact ⟨_, infil_valid hv, fun rest => (exfil_ok_iff v _ m).2 ⟨sz, rest, hv, rfl⟩, by rw [hv.len, spec_of hv.size], hc⟩

/-- C81: so do its bytes. -/
theorem c81_binary (v : Ver) (code : List Char) (count : Int) (m : Counter) (h : make v code count = .ok m) :
    ∃ b, binfil v m = .ok b ∧ (∀ rest, AllLt 256 rest → bexfil v (b ++ rest) = .ok m) ∧ 4 * b.length = 3 * ctrChars m.code ∧ AllLt 256 b := by
  obtain ⟨sz, hv, hc⟩ := make_valid h
  obtain ⟨b, b1, b2, b3, b4⟩ := binfil_valid hv
  refine ⟨b, b1, ?_, by rw [b3, spec_of hv.size], b2⟩
  intro rest hr
  refine (bexfil_ok_iff v _ (by rw [allLt_append]; exact ⟨b2, hr⟩) m).2 ⟨sz, hv, by rw [List.length_append]; omega, ?_⟩
  rw [bits_append, ← b4, List.take_append_of_le_length (by rw [bits_length]; omega), List.take_of_length_le (by rw [bits_length]; omega)]

theorem forms_bits {v : Ver} {m : Counter} {sz : Cizage} (hv : Valid v m sz) :
    ∃ t b, infil v m = .ok t ∧ binfil v m = .ok b ∧ reb64 t = true ∧ AllLt 256 b ∧ t.length % 4 = 0 ∧ 4 * b.length = 3 * t.length ∧
      bits 6 (sextets t) = bits 8 b := by
  obtain ⟨b, b1, b2, b3, b4⟩ := binfil_valid hv
  have h6 := (wf_of_sizes hv.size).2.2.2.2.2.1
  exact ⟨_, b, infil_valid hv, b1, hv.b64, b2, by rw [hv.len, h6], by rw [hv.len, b3], by rw [b4]⟩

/-- C81: the binary form is the Base64 decoding of the text form and conversely. -/
theorem c81_aligned (v : Ver) (code : List Char) (count : Int) (m : Counter) (h : make v code count = .ok m) :
    ∃ t b, infil v m = .ok t ∧ binfil v m = .ok b ∧ decodeB64 t = .ok b ∧ encodeB64 b = t := by
  obtain ⟨sz, hv, _⟩ := make_valid h
  obtain ⟨t, b, h1, h2, h3, h4, h5, h6, h7⟩ := forms_bits hv
  exact ⟨t, b, h1, h2, decode_of_bits h3 h4 h5 h7, encode_of_bits h3 h4 (by omega) h7⟩

/-- C81: what is read determines the characters read: a counter has one text. -/
theorem c81_unique (v : Ver) (t1 t2 : List Char) (m : Counter) (h1 : exfil v t1 = .ok m) (h2 : exfil v t2 = .ok m) :
    t1.take (ctrChars m.code) = t2.take (ctrChars m.code) ∧ ctrChars m.code ≤ t1.length ∧
      infil v m = .ok (t1.take (ctrChars m.code)) := by
  have key : ∀ t, exfil v t = .ok m → infil v m = .ok (t.take (ctrChars m.code)) ∧ ctrChars m.code ≤ t.length := by
    intro t h
    obtain ⟨sz, rest, hv, rfl⟩ := (exfil_ok_iff v t m).1 h
    rw [← spec_of hv.size, infil_valid hv, ← hv.len]
    constructor
    · simp
    · simp
  have a := key t1 h1
  have b := key t2 h2
  refine ⟨?_, a.2, a.1⟩
  have := a.1
  rw [b.1] at this
  injection this with this
  exact this.symm

/-- C81: every proper front part of a counter asks for more. -/
theorem c81_prefix (v : Ver) (t : List Char) (m : Counter) (h : exfil v t = .ok m) (k : Nat) (hk : k < ctrChars m.code) :
    exfil v (t.take k) = .error .shortage := by
  obtain ⟨sz, rest, hv, rfl⟩ := (exfil_ok_iff v t m).1 h
  rw [← spec_of hv.size] at hk
  obtain ⟨h1, h2, h3, h4, h5, h6, h7, _⟩ := wf_of_sizes hv.size
  have hl := hv.len
  have htl : ((both sz m ++ rest).take k).length = k := by rw [List.length_take, List.length_append, hl]; omega
  unfold exfil
  rw [htl]
  by_cases hk2 : k < 2
  · rw [if_pos hk2]
  have ht2 : ((both sz m ++ rest).take k).take 2 = m.code.take 2 := by
    rw [List.take_take, Nat.min_eq_left (by omega), both, List.append_assoc, List.take_append_of_le_length (by omega)]
  rw [if_neg hk2, ht2, h3]
  simp only
  by_cases hkh : k < sz.hs
  · rw [if_pos hkh]
  have hth : ((both sz m ++ rest).take k).take sz.hs = m.code := by
    rw [List.take_take, Nat.min_eq_left (by omega), both, List.append_assoc, ← h1]; simp
  rw [if_neg hkh, hth, hv.size]
  simp only
  rw [if_pos hk]

/-- C81: and of its bytes. -/
theorem c81_prefix_binary (v : Ver) (b : List Nat) (hb : AllLt 256 b) (m : Counter) (h : bexfil v b = .ok m) (k : Nat)
    (hk : 4 * k < 3 * ctrChars m.code) : bexfil v (b.take k) = .error .shortage := by
  obtain ⟨sz, hv, hbl, hbits⟩ := (bexfil_ok_iff v b hb m).1 h
  rw [← spec_of hv.size] at hk
  obtain ⟨h1, h2, h3, h4, h5, h6, h7, _⟩ := wf_of_sizes hv.size
  have hl := hv.len
  have htl : (b.take k).length = k := by rw [List.length_take]; omega
  unfold bexfil
  rw [htl]
  by_cases hk2 : k < 2
  · rw [if_pos hk2]
  rw [if_neg hk2]
  obtain ⟨s, first, n1, n2, n3, n4, n5⟩ := nab_two (hb.take k) (by omega)
  rw [n4]
  simp only [n5]
  have hsub : ∀ n, 3 * n ≤ 4 * k → (bits 8 (b.take k)).take (6 * n) = (bits 8 b).take (6 * n) := by
    intro n hn
    rw [bits_take, List.take_take]; congr 1; omega
  rw [show (12 : Nat) = 6 * 2 from rfl, hsub 2 (by omega)] at n3
  have hs2 := first_chars (b := b) (by omega) n1 hl n2 hv.b64 n3 hbits
  have e2 : s = m.code.take 2 := by
    rw [hs2, both, List.take_append_of_le_length (by omega)]
  rw [e2, h3]
  simp only
  by_cases hkh : k < sceil34 sz.hs
  · rw [if_pos hkh]
  rw [if_neg hkh]
  simp only [sceil34] at hkh
  obtain ⟨hard, k1, k2, k3, k4⟩ := c02_b2_to_b64 (b.take k) sz.hs (hb.take k) (by omega)
  rw [k1]
  simp only
  rw [hsub sz.hs (by omega)] at k4
  have hhard := first_chars (b := b) (by omega) k2 hl k3 hv.b64 k4 hbits
  have e1 : hard = m.code := by rw [hhard, both, ← h1]; simp
  rw [e1, hv.size]
  simp only
  rw [if_pos (by simp only [sceil34]; omega)]

/-- C81: which counts are accepted for a short code that has a long form, and which form is used. -/
theorem c81_promotion_partial (v : Ver) (c : Char) (hc : c ≠ '-') (sz1 sz2 : Cizage) (h1 : sizes? v ['-', c] = some sz1) (h2 : sizes? v ['-', '-', c] = some sz2)
    (count : Int) (m : Counter) :
    make v ['-', c] count = .ok m ↔
      (0 ≤ count ∧ count ≤ 64 ^ 5 - 1) ∧ m = ⟨if count ≤ 64 ^ 2 - 1 then ['-', c] else ['-', '-', c], count.toNat⟩ := by
  have hf : c ∉ fixedChars ∧ sz1.ss = 2 := by
    have key : ∀ v, ∀ e ∈ sizes v, e.1.length = 2 → (e.1.drop 1).head?.all (· ∉ fixedChars) = true ∧ e.2.ss = 2 := by
      intro v; cases v <;> decide +kernel
    have := key v (['-', c], sz1) (Matter.mem_of_lookup h1) rfl
    simpa using this
  unfold make
  rw [if_neg (by simp), h1]
  simp only [hf.2]
  have hp : promote ['-', c] 2 count = if count > 64 ^ 2 - 1 then (['-', '-', c], 5) else (['-', c], 2) := by
    simp only [promote, List.drop_succ_cons, List.drop_zero, List.head?_cons, Option.any_some, Option.some.injEq, ne_eq, List.take_succ_cons,
      List.take_zero, decide_eq_true_eq]
    rw [if_pos hf.1]
    simp [hc]
  rw [hp]
  by_cases hb : count > 64 ^ 2 - 1
  · rw [if_pos hb]
    simp only [h2]
    rw [if_neg (show ¬ count ≤ 64 ^ 2 - 1 by omega)]
    by_cases hr : count < 0 ∨ count > 64 ^ 5 - 1
    · rw [if_pos hr]
      constructor
      · intro h; exact absurd h (by simp)
      · rintro ⟨h, _⟩; omega
    · rw [if_neg hr]
      constructor
      · intro h; injection h with h; exact ⟨by omega, h.symm⟩
      · rintro ⟨_, h⟩; rw [h]
  · rw [if_neg hb]
    simp only [h1]
    rw [if_pos (show count ≤ 64 ^ 2 - 1 by omega)]
    by_cases hr : count < 0 ∨ count > 64 ^ 2 - 1
    · rw [if_pos hr]
      constructor
      · intro h; exact absurd h (by simp)
      · rintro ⟨h, _⟩; omega
    · rw [if_neg hr]
      constructor
      · intro h; injection h with h; exact ⟨by omega, h.symm⟩
      · rintro ⟨_, h⟩; rw [h]

/-- C81: a long code keeps its form and takes any count that fits five characters. -/
theorem c81_long (v : Ver) (c : Char) (sz : Cizage) (h1 : sizes? v ['-', '-', c] = some sz) (count : Int) (m : Counter) :
    make v ['-', '-', c] count = .ok m ↔ (0 ≤ count ∧ count ≤ 64 ^ 5 - 1) ∧ m = ⟨['-', '-', c], count.toNat⟩ := by
  have hss : sz.ss = 5 := big_ss v (_, sz) (Matter.mem_of_lookup h1) rfl
  unfold make
  rw [if_neg (by simp), h1]
  simp only [hss]
  have hp : promote ['-', '-', c] 5 count = (['-', '-', c], 5) := by
    simp [promote]
  rw [hp]
  simp only [h1]
  by_cases hr : count < 0 ∨ count > 64 ^ 5 - 1
  · rw [if_pos hr]
    constructor
    · intro h; exact absurd h (by simp)
    · rintro ⟨h, _⟩; omega
  · rw [if_neg hr]
    constructor
    · intro h; injection h with h; exact ⟨by omega, h.symm⟩
    · rintro ⟨_, h⟩; rw [h]

/-- C81: in version 2 every short code has a long form. -/
theorem c81_v2_long_forms (c : Char) (h : (sizes? .v2 ['-', c]).isSome = true) : (sizes? .v2 ['-', '-', c]).isSome = true := by
  obtain ⟨sz, hsz⟩ := Option.isSome_iff_exists.1 h
  have key : ∀ e ∈ sizes .v2, e.1.length = 2 → (sizes? .v2 ('-' :: e.1)).isSome = true := by decide +kernel
  exact key (_, sz) (Matter.mem_of_lookup hsz) rfl

/-- C81 disagreement: in version 1 a group of more than 4095 signatures is refused with a KeyError, because the code it is promoted to does not
exist. -/
theorem c81_v1_key_error (count : Int) (h1 : 4095 < count) (h2 : count < 64 ^ 5) : make .v1 ['-', 'A'] count = .error .keyError := by
  have hs : sizes? .v1 ['-', 'A'] = some ⟨2, 2, 4⟩ := by decide +kernel
  have hb : sizes? .v1 ['-', '-', 'A'] = none := by decide +kernel
  have hp : promote ['-', 'A'] 2 count = (['-', '-', 'A'], 5) := by
    rcases promote_cases ['-', 'A'] 2 count (by simp) with h | ⟨a, c, tl, e1, _, _, _, e5⟩
    · exfalso
      simp only [promote] at h
      rw [if_pos (by decide +kernel), if_pos ⟨by simp, by omega⟩] at h
      simp at h
    · simp at e1
      rw [e5, ← e1.2.1]
  unfold make
  rw [if_neg (by simp), hs]
  simp only [hp]
  rw [if_neg (by omega), hb]

example : make .v2 ['-', 'K'] 4095 = .ok ⟨['-', 'K'], 4095⟩ ∧ make .v2 ['-', 'K'] 4096 = .ok ⟨['-', '-', 'K'], 4096⟩ ∧
    infil .v2 ⟨['-', '-', 'K'], 4096⟩ = .ok ['-', '-', 'K', 'A', 'A', 'B', 'A', 'A'] ∧ make .v2 ['-', 'K'] (-1) = .error .invalidVarIndex := by
  decide +kernel

/-! ## C82 -/

/-- C82: the content of a group is found again: the counter read at the front says where the content ends, whatever follows. -/
theorem c82_text (v : Ver) (code content t : List Char) (h : encloseText v code content = .ok t) :
    ∃ m, ∀ rest, exfil v (t ++ rest) = .ok m ∧ fullSize v m = .ok (ctrChars m.code) ∧
      ((t ++ rest).drop (ctrChars m.code)).take (byteCountText m) = content ∧ (t ++ rest).drop (ctrChars m.code + byteCountText m) = rest := by
  unfold encloseText at h
  split at h
  · exact absurd h (by simp)
  next hl =>
  cases hm : make v code ((content.length / 4 : Nat) : Int) with
  | error e => rw [hm] at h; exact absurd h (by simp)
  | ok m =>
    rw [hm] at h
    simp only at h
    split at h
    · exact absurd h (by simp)
    obtain ⟨tc, t1, t2, t3, t4⟩ := c81_text v code _ m hm
    rw [t1] at h
    simp only at h
    injection h with h
    subst h
    obtain ⟨sz, hv, _⟩ := make_valid hm
    have hb : byteCountText m = content.length := by
      unfold byteCountText
      have : m.count = content.length / 4 := by exact_mod_cast t4
      omega
    refine ⟨m, fun rest => ⟨?_, ?_, ?_, ?_⟩⟩
    · rw [List.append_assoc]; exact t2 _
    · unfold fullSize; rw [hv.size]; simp only; rw [spec_of hv.size]
    · rw [← t3, List.append_assoc, List.drop_left', hb, List.take_left'] <;> rfl
    · rw [← t3, hb, ← List.length_append]
      exact List.drop_left' rfl

/-- C82 in the binary domain. -/
theorem c82_binary (v : Ver) (code : List Char) (content b : List Nat) (h : encloseBinary v code content = .ok b) :
    ∃ m, ∀ rest, AllLt 256 content → AllLt 256 rest → bexfil v (b ++ rest) = .ok m ∧
      ((b ++ rest).drop (ctrChars m.code * 3 / 4)).take (byteCountBinary m) = content ∧
      (b ++ rest).drop (ctrChars m.code * 3 / 4 + byteCountBinary m) = rest := by
  unfold encloseBinary at h
  split at h
  · exact absurd h (by simp)
  next hl =>
  cases hm : make v code ((content.length / 3 : Nat) : Int) with
  | error e => rw [hm] at h; exact absurd h (by simp)
  | ok m =>
    rw [hm] at h
    simp only at h
    split at h
    · exact absurd h (by simp)
    obtain ⟨tc, t1, t2, t3, t5⟩ := c81_binary v code _ m hm
    obtain ⟨_, _, _, _, t4⟩ := c81_text v code _ m hm
    rw [t1] at h
    simp only at h
    injection h with h
    subst h
    have hb : byteCountBinary m = content.length := by
      unfold byteCountBinary
      have : m.count = content.length / 3 := by exact_mod_cast t4
      omega
    have t3' : ctrChars m.code * 3 / 4 = tc.length := by omega
    refine ⟨m, fun rest hcn hr => ⟨?_, ?_, ?_⟩⟩
    · rw [List.append_assoc]; exact t2 _ (by rw [allLt_append]; exact ⟨hcn, hr⟩)
    · rw [t3', List.append_assoc, List.drop_left', hb, List.take_left'] <;> rfl
    · rw [t3', hb, ← List.length_append]
      exact List.drop_left' rfl

/-- C82: grouping commutes with conversion between the domains: the bytes of the group are the group of the bytes. -/
theorem c82_composable (v : Ver) (code content t : List Char) (hb : reb64 content = true) (h : encloseText v code content = .ok t) :
    ∃ c b, decodeB64 content = .ok c ∧ encloseBinary v code c = .ok b ∧ decodeB64 t = .ok b ∧ encodeB64 b = t := by
  unfold encloseText at h
  split at h
  · exact absurd h (by simp)
  next hl =>
  simp only [Decidable.not_not] at hl
  obtain ⟨d1, d2⟩ := idx_of_mem_reb64 hb
  obtain ⟨c, c1, c2, c3⟩ := decodeB64_complete d1 hl
  have hcl : 8 * c.length = 6 * content.length := by
    have := congrArg List.length c3
    rwa [bits_length, bits_length, d2, Matter.sextets_length hb] at this
  cases hm : make v code ((content.length / 4 : Nat) : Int) with
  | error e => rw [hm] at h; exact absurd h (by simp)
  | ok m =>
    rw [hm] at h
    simp only at h
    split at h
    · exact absurd h (by simp)
    next hq =>
    obtain ⟨sz, hv, _⟩ := make_valid hm
    obtain ⟨tc, bc, f1, f2, f3, f4, f5, f6, f7⟩ := forms_bits hv
    rw [f1] at h
    simp only at h
    injection h with h
    subst h
    have hbits : bits 6 (sextets (tc ++ content)) = bits 8 (bc ++ c) := by
      rw [sextets_append, bits_append, bits_append, f7, c3, d2]
    refine ⟨c, bc ++ c, c1, ?_, ?_, ?_⟩
    · unfold encloseBinary
      rw [if_neg (by omega)]
      have : c.length / 3 = content.length / 4 := by omega
      rw [this, hm]
      simp only
      rw [if_neg hq, f2]
    · exact decode_of_bits (by rw [reb64_append, f3, hb]; rfl) (by rw [allLt_append]; exact ⟨f4, c2⟩)
        (by rw [List.length_append]; omega) hbits
    · exact encode_of_bits (by rw [reb64_append, f3, hb]; rfl) (by rw [allLt_append]; exact ⟨f4, c2⟩)
        (by rw [List.length_append]; omega) hbits

/-- C82: which contents can be grouped in version 2: those of whole quadlets, up to 64⁵-1 of them, for every group code. -/
theorem c82_accepts (c : Char) (sz : Cizage) (h1 : sizes? .v2 ['-', c] = some sz) (content : List Char) :
    (∃ t, encloseText .v2 ['-', c] content = .ok t) ↔ content.length % 4 = 0 ∧ content.length / 4 ≤ 64 ^ 5 - 1 := by
  obtain ⟨sz2, h2⟩ := Option.isSome_iff_exists.1 (c81_v2_long_forms c (by rw [h1]; rfl))
  have hc : c ≠ '-' := by
    rintro rfl
    have : sizes? .v2 ['-', '-'] = none := by decide +kernel
    rw [this] at h1
    exact absurd h1 (by simp)
  unfold encloseText
  by_cases hl : content.length % 4 ≠ 0
  · rw [if_pos hl]
    constructor
    · rintro ⟨t, h⟩; exact absurd h (by simp)
    · rintro ⟨h, _⟩; exact absurd h hl
  rw [if_neg hl]
  simp only [Decidable.not_not] at hl
  cases hm : make .v2 ['-', c] ((content.length / 4 : Nat) : Int) with
  | error e =>
    constructor
    · rintro ⟨t, h⟩; exact absurd h (by simp)
    · rintro ⟨_, h⟩
      have := (c81_promotion_partial .v2 c hc sz sz2 h1 h2 ((content.length / 4 : Nat) : Int) _).2 ⟨⟨by omega, by omega⟩, rfl⟩
      rw [hm] at this
      exact absurd this (by simp)
  | ok m =>
    simp only
    rw [if_neg (by simp)]
    obtain ⟨t, t1, _⟩ := c81_text .v2 _ _ m hm
    rw [t1]
    have := ((c81_promotion_partial .v2 c hc sz sz2 h1 h2 ((content.length / 4 : Nat) : Int) m).1 hm).1
    constructor
    · intro _; exact ⟨hl, by omega⟩
    · intro _; exact ⟨_, rfl⟩

/-- Groups within groups: the content enclosed first by the last code. -/
def nest (v : Ver) : List (List Char) → List Char → Except Err (List Char)
  | [], content => .ok content
  | c :: cs, content =>
    match nest v cs content with
    | .error e => .error e
    | .ok t => encloseText v c t

/-- Reading groups within groups: take the content of the group at the front, `k` times. -/
def unnest (v : Ver) : Nat → List Char → Except Err (List Char)
  | 0, t => .ok t
  | k + 1, t =>
    match exfil v t with
    | .error e => .error e
    | .ok m => unnest v k ((t.drop (ctrChars m.code)).take (byteCountText m))

/-- C82: groups nested to any depth give their content back. -/
theorem c82_nested (v : Ver) (codes : List (List Char)) (content t : List Char) (h : nest v codes content = .ok t) :
    unnest v codes.length t = .ok content := by
  induction codes generalizing t with
  | nil => simpa [nest, unnest] using h.symm
  | cons c cs ih =>
    simp only [nest] at h
    cases hn : nest v cs content with
    | error e => rw [hn] at h; exact absurd h (by simp)
    | ok t' =>
      rw [hn] at h
      simp only at h
      obtain ⟨m, hm⟩ := c82_text v c t' t h
      have := hm []
      rw [List.append_nil] at this
      simp only [List.length_cons, unnest, this.1, this.2.2.1]
      exact ih t' hn

/-- A member of a stream: a primitive, an indexed signature or a counter. -/
inductive Item where
  | prim (m : Matter.Mat)
  | sig (m : Idr.Ixr)
  | count (v : Ver) (m : Counter)

/-- The member was accepted by the constructor of its class. -/
def Item.made : Item → Prop
  | .prim m => ∃ code soft raw rize, AllLt 256 raw ∧ Matter.make code soft raw rize = .ok m
  | .sig m => ∃ code index ondex raw, AllLt 256 raw ∧ Idr.siger (Idr.make code index ondex raw) = .ok m
  | .count v m => ∃ code count, make v code count = .ok m

/-- `.qb64b` of a member. -/
def Item.text : Item → Except Err (List Char)
  | .prim m => Matter.infil m
  | .sig m => Idr.infil m
  | .count v m => infil v m

/-- `.qb2` of a member. -/
def Item.bytes : Item → Except Err (List Nat)
  | .prim m => Matter.binfil m
  | .sig m => Idr.binfil m
  | .count v m => binfil v m

theorem item_bits {i : Item} (h : i.made) : ∃ t b, i.text = .ok t ∧ i.bytes = .ok b ∧ reb64 t = true ∧ AllLt 256 b ∧ t.length % 4 = 0 ∧
    4 * b.length = 3 * t.length ∧ bits 6 (sextets t) = bits 8 b := by
  cases i with
  | prim m =>
    obtain ⟨code, soft, raw, rize, hr, hm⟩ := h
    obtain ⟨sz, n, v⟩ := Matter.make_valid hr hm
    exact Matter.forms_bits v
  | sig m =>
    obtain ⟨code, index, ondex, raw, hr, hm⟩ := h
    obtain ⟨sz, v, _⟩ := Idr.make_valid hr hm
    exact Idr.forms_bits v
  | count v m =>
    obtain ⟨code, count, hm⟩ := h
    obtain ⟨sz, hv, _⟩ := make_valid hm
    exact forms_bits hv

/-- C82: any stream of primitives, signatures and counters converts between text and bytes as a whole exactly as its members do. -/
theorem c82_streams (is : List Item) (h : ∀ i ∈ is, i.made) :
    ∃ (ts : List (List Char)) (bs : List (List Nat)), is.map Item.text = ts.map Except.ok ∧ is.map Item.bytes = bs.map Except.ok ∧
      decodeB64 ts.flatten = .ok bs.flatten ∧ encodeB64 bs.flatten = ts.flatten := by
  have key : ∃ (ts : List (List Char)) (bs : List (List Nat)), is.map Item.text = ts.map Except.ok ∧ is.map Item.bytes = bs.map Except.ok ∧
      reb64 ts.flatten = true ∧ AllLt 256 bs.flatten ∧ ts.flatten.length % 4 = 0 ∧ bs.flatten.length % 3 = 0 ∧
      bits 6 (sextets ts.flatten) = bits 8 bs.flatten := by
    induction is with
    | nil => exact ⟨[], [], rfl, rfl, rfl, by simp, rfl, rfl, rfl⟩
    | cons i is ih =>
      obtain ⟨ts, bs, k1, k2, k3, k4, k5, k6, k7⟩ := ih (fun i hi => h i (List.mem_cons_of_mem _ hi))
      obtain ⟨t, b, h1, h2, h3, h4, h5, h6, h7⟩ := item_bits (h i (List.mem_cons_self ..))
      refine ⟨t :: ts, b :: bs, by simp [h1, k1], by simp [h2, k2], ?_, ?_, ?_, ?_, ?_⟩
      · rw [List.flatten_cons, reb64_append, h3, k3]; rfl
      · rw [List.flatten_cons, allLt_append]; exact ⟨h4, k4⟩
      · rw [List.flatten_cons, List.length_append]; omega
      · rw [List.flatten_cons, List.length_append]; omega
      · rw [List.flatten_cons, List.flatten_cons, sextets_append, bits_append, bits_append, h7, k7]
  obtain ⟨ts, bs, k1, k2, k3, k4, k5, k6, k7⟩ := key
  exact ⟨ts, bs, k1, k2, decode_of_bits k3 k4 k5 k7, encode_of_bits k3 k4 k6 k7⟩

example : encloseText .v2 ['-', 'C'] ['M', 'A', 'A', 'B'] = .ok ['-', 'C', 'A', 'B', 'M', 'A', 'A', 'B'] ∧
    encloseBinary .v2 ['-', 'C'] [48, 0, 1] = .ok [248, 32, 1, 48, 0, 1] ∧ encloseText .v1 ['-', 'A'] ['M', 'A', 'A', 'B'] = .error .valueError ∧
    nest .v2 [['-', 'B'], ['-', 'C']] ['M', 'A', 'A', 'B'] = .ok ['-', 'B', 'A', 'C', '-', 'C', 'A', 'B', 'M', 'A', 'A', 'B'] := by decide +kernel

/-! ## C83 -/

/-- C83: the version code of a stream carries every version in range and no other: `verToB64` accepts exactly majors to 63 and minors to 4095, `b64ToVer`
gives the version back, and so does the counter made from it when read from a stream. -/
theorem c83_version (major minor : Nat) (h1 : major ≤ 63) (h2 : minor ≤ 4095) :
    ∃ s n, verToB64 major minor = .ok s ∧ s.length = 3 ∧ b64ToVer s = .ok (major, minor) ∧
      countArg none (some s) = .ok n ∧ ∀ v, ∃ m, make v ['-', '_', 'A', 'A', 'A'] n = .ok m ∧
        (∀ rest, exfil v (['-', '_', 'A', 'A', 'A'] ++ s ++ rest) = .ok m) ∧ infil v m = .ok (['-', '_', 'A', 'A', 'A'] ++ s) ∧
        intToB64 m.count 3 = s := by
  have l1 : (major : Nat) < 64 ^ 1 := by omega
  have l2 : (minor : Nat) < 64 ^ 2 := by omega
  have hl : (intToB64 major 1 ++ intToB64 minor 2).length = 3 := by
    rw [List.length_append, intToB64_length l1, intToB64_length l2]
  have hb : reb64 (intToB64 major 1 ++ intToB64 minor 2) = true := by
    rw [reb64_append, intToB64_reb64 l1, intToB64_reb64 l2]; rfl
  have hne : intToB64 major 1 ++ intToB64 minor 2 ≠ [] := by intro h; rw [h] at hl; simp at hl
  obtain ⟨n, n1, n2⟩ := c01_text_roundtrip _ hne hb
  have n3 := (b64ToInt_fixed (by omega) hl).1 n1
  refine ⟨_, (n : Int), ?_, hl, ?_, ?_, ?_⟩
  · unfold verToB64
    rw [if_neg (by omega)]
    rfl
  · unfold b64ToVer
    rw [if_neg (by simp [hb])]
    have hm1 := intToB64_length l1
    match hc : intToB64 major 1, hm1 with
    | [c], _ =>
      simp only [List.cons_append, List.nil_append]
      rw [← hc, (b64ToInt_fixed (by omega) (intToB64_length l1)).2 ⟨l1, rfl⟩]
      simp only
      rw [List.take_of_length_le (by rw [intToB64_length l2]; omega), (b64ToInt_fixed (by omega) (intToB64_length l2)).2 ⟨l2, rfl⟩]
  · simp only [countArg, n1]; rfl
  · intro v
    have hs : sizes? v ['-', '_', 'A', 'A', 'A'] = some ⟨5, 3, 8⟩ := by cases v <;> decide +kernel
    have hmk : make v ['-', '_', 'A', 'A', 'A'] n = .ok ⟨['-', '_', 'A', 'A', 'A'], n⟩ := by
      unfold make
      rw [if_neg (by simp), hs]
      have hp : promote ['-', '_', 'A', 'A', 'A'] 3 n = (['-', '_', 'A', 'A', 'A'], 3) := by
        simp [promote, fixedChars]
      simp only [hp, hs]
      rw [if_neg (by omega)]
      simp
    obtain ⟨t, t1, t2, _⟩ := c81_text v _ _ _ hmk
    have hv : Valid v ⟨['-', '_', 'A', 'A', 'A'], n⟩ ⟨5, 3, 8⟩ := ⟨hs, n3.1⟩
    have ht := infil_valid hv
    rw [both] at ht
    simp only at ht
    rw [t1, ← n3.2] at ht
    injection ht with ht
    refine ⟨_, hmk, fun rest => ?_, by rw [t1, ht], n3.2.symm⟩
    rw [← ht]; exact t2 rest

/-- C83: other versions are refused. -/
theorem c83_refused (major minor : Int) (h : major < 0 ∨ 63 < major ∨ minor < 0 ∨ 4095 < minor) : verToB64 major minor = .error .valueError := by
  unfold verToB64
  rw [if_pos (by omega)]

/-- C83: two versions have the same code only if they are the same. -/
theorem c83_injective (a b c d : Int) (s : List Char) (h1 : verToB64 a b = .ok s) (h2 : verToB64 c d = .ok s) : a = c ∧ b = d := by
  have key : ∀ x y : Int, verToB64 x y = .ok s → (0 ≤ x ∧ x ≤ 63) ∧ (0 ≤ y ∧ y ≤ 4095) ∧ b64ToVer s = .ok (x.toNat, y.toNat) := by
    intro x y h
    have hr : (0 ≤ x ∧ x ≤ 63) ∧ (0 ≤ y ∧ y ≤ 4095) := by
      by_cases hh : x < 0 ∨ x > 63 ∨ y < 0 ∨ y > 4095
      · rw [verToB64, if_pos hh] at h; exact absurd h (by simp)
      · omega
    obtain ⟨s', n, e1, _, e3, _⟩ := c83_version x.toNat y.toNat (by omega) (by omega)
    rw [show ((x.toNat : Nat) : Int) = x by omega, show ((y.toNat : Nat) : Int) = y by omega, h] at e1
    injection e1 with e1
    subst e1
    exact ⟨hr.1, hr.2, e3⟩
  obtain ⟨a1, a2, a3⟩ := key a b h1
  obtain ⟨b1, b2, b3⟩ := key c d h2
  rw [a3] at b3
  simp at b3
  omega

example : verToB64 2 0 = .ok ['C', 'A', 'A'] ∧ exfil .v2 ['-', '_', 'A', 'A', 'A', 'C', 'A', 'A'] = .ok ⟨['-', '_', 'A', 'A', 'A'], 8192⟩ := by
  decide +kernel

end Verif.Ctr
