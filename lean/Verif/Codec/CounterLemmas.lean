import Verif.Codec.Counter
import Verif.Codec.IndexerBin

/-! # What `Counter` reads and makes, characterised -/

namespace Verif.Ctr

open Verif.B64
open Verif.Idr (b64ToInt_fixed intToB64_length intToB64_reb64 reb64_take)
open Verif.Matter (sextets_append sextets_allLt sextets_length sextets_inj mem_of_lookup)

/-- The conditions of counting.py:843 and 852 on the tables. -/
def WF (code : List Char) (sz : Cizage) : Prop :=
  code.length = sz.hs ∧ 2 ≤ sz.hs ∧ hards (code.take 2) = some sz.hs ∧ reb64 code = true ∧ sz.fs = sz.hs + sz.ss ∧ sz.fs % 4 = 0 ∧ 0 < sz.ss ∧
    ((code.drop 1).head?.any (· ∉ fixedChars) = true → sz.ss = 2 ∨ sz.ss = 5)

instance (code : List Char) (sz : Cizage) : Decidable (WF code sz) := by unfold WF; infer_instance

theorem table_wf (v : Ver) : ∀ e ∈ sizes v, WF e.1 e.2 := by cases v <;> decide +kernel

theorem wf_of_sizes {v : Ver} {code : List Char} {sz : Cizage} (h : sizes? v code = some sz) : WF code sz :=
  table_wf v (code, sz) (mem_of_lookup h)

/-- The counter is one of the table and its count fits. -/
structure Valid (v : Ver) (m : Counter) (sz : Cizage) : Prop where
  size : sizes? v m.code = some sz
  count : m.count < 64 ^ sz.ss

def both (sz : Cizage) (m : Counter) : List Char := m.code ++ intToB64 m.count sz.ss

theorem Valid.len {v : Ver} {m : Counter} {sz : Cizage} (h : Valid v m sz) : (both sz m).length = sz.fs := by
  obtain ⟨h1, h2, h3, h4, h5, h6, h7, _⟩ := wf_of_sizes h.size
  rw [both, List.length_append, intToB64_length h.count, h1, h5]

theorem Valid.b64 {v : Ver} {m : Counter} {sz : Cizage} (h : Valid v m sz) : reb64 (both sz m) = true := by
  obtain ⟨h1, h2, h3, h4, h5, h6, h7, _⟩ := wf_of_sizes h.size
  rw [both, reb64_append, intToB64_reb64 h.count, h4]; rfl

theorem infil_valid {v : Ver} {m : Counter} {sz : Cizage} (h : Valid v m sz) : infil v m = .ok (both sz m) := by
  obtain ⟨h1, h2, h3, h4, h5, h6, h7, _⟩ := wf_of_sizes h.size
  have hl := h.len
  unfold infil
  rw [h.size]
  simp only
  rw [if_neg (by have := h.count; omega)]
  change (if (both sz m).length % 4 ≠ 0 then (Except.error Err.invalidCodeSize : Except Err (List Char)) else .ok (both sz m)) = _
  rw [if_neg (by rw [hl]; omega)]

theorem binfil_valid {v : Ver} {m : Counter} {sz : Cizage} (h : Valid v m sz) :
    ∃ b, binfil v m = .ok b ∧ AllLt 256 b ∧ 4 * b.length = 3 * sz.fs ∧ bits 8 b = bits 6 (sextets (both sz m)) := by
  obtain ⟨h1, h2, h3, h4, h5, h6, h7, _⟩ := wf_of_sizes h.size
  have hl := h.len
  have hne : both sz m ≠ [] := by intro h; rw [h] at hl; simp at hl; omega
  obtain ⟨b, b1, b2, b3, b4⟩ := c02_b64_to_b2 (both sz m) hne h.b64
  rw [hl] at b3 b4
  refine ⟨b, ?_, b2, by omega, ?_⟩
  · unfold binfil
    rw [h.size]
    simp only
    rw [if_neg (by have := h.count; omega)]
    change (if (both sz m).length ≠ _ then _ else codeB64ToB2 (both sz m)) = _
    rw [if_neg (by rw [hl]; simp), b1]
  · rw [b4, h6]; simp

theorem exfil_ok_iff (v : Ver) (t : List Char) (m : Counter) :
    exfil v t = .ok m ↔ ∃ sz rest, Valid v m sz ∧ t = both sz m ++ rest := by
  constructor
  · intro h
    unfold exfil at h
    split at h
    · exact absurd h (by simp)
    next hl =>
    cases hh : hards (t.take 2) with
    | none => rw [hh] at h; simp only at h; split at h <;> exact absurd h (by simp)
    | some hs =>
      rw [hh] at h
      simp only at h
      split at h
      · exact absurd h (by simp)
      next hl2 =>
      cases hsz : sizes? v (t.take hs) with
      | none => rw [hsz] at h; exact absurd h (by simp)
      | some sz =>
        rw [hsz] at h
        simp only at h
        split at h
        · exact absurd h (by simp)
        next hl3 =>
        cases hi : b64ToInt ((t.drop sz.hs).take (sz.fs - sz.hs)) with
        | error e => rw [hi] at h; exact absurd h (by simp)
        | ok c =>
          rw [hi] at h
          injection h with h
          subst h
          obtain ⟨h1, h2, h3, h4, h5, h6, h7, _⟩ := wf_of_sizes hsz
          have hhs : hs = sz.hs := by rw [← h1, List.length_take]; omega
          subst hhs
          have hfs : sz.fs - sz.hs = sz.ss := by omega
          rw [hfs] at hi
          have hil : ((t.drop sz.hs).take sz.ss).length = sz.ss := by rw [List.length_take, List.length_drop]; omega
          obtain ⟨i1, i2⟩ := (b64ToInt_fixed h7 hil).1 hi
          refine ⟨sz, t.drop sz.fs, ⟨hsz, i1⟩, ?_⟩
          simp only [both]
          rw [← i2, ← List.take_add, ← h5, List.take_append_drop]
  · rintro ⟨sz, rest, hv, rfl⟩
    have hl := hv.len
    obtain ⟨h1, h2, h3, h4, h5, h6, h7, _⟩ := wf_of_sizes hv.size
    have htl : (both sz m ++ rest).length = sz.fs + rest.length := by rw [List.length_append, hl]
    have ht2 : (both sz m ++ rest).take 2 = m.code.take 2 := by
      rw [both, List.append_assoc, List.take_append_of_le_length (by omega)]
    have hth : (both sz m ++ rest).take sz.hs = m.code := by
      rw [both, List.append_assoc, ← h1]; simp
    have hct : ((both sz m ++ rest).drop sz.hs).take (sz.fs - sz.hs) = intToB64 m.count sz.ss := by
      rw [both, List.append_assoc, ← h1, List.drop_left', List.take_append_of_le_length, List.take_of_length_le]
      · rw [intToB64_length hv.count]; omega
      · rw [intToB64_length hv.count]; omega
      · rfl
    unfold exfil
    rw [if_neg (by omega), ht2, h3]
    simp only
    rw [if_neg (by omega), hth, hv.size]
    simp only
    rw [if_neg (by omega), hct, (b64ToInt_fixed h7 (intToB64_length hv.count)).2 ⟨hv.count, rfl⟩]

theorem codeB64ToB2_inj {s t : List Char} (hs : s ≠ []) (hl : s.length = t.length) (h1 : reb64 s = true) (h2 : reb64 t = true)
    (h : codeB64ToB2 s = codeB64ToB2 t) : s = t := by
  have ht : t ≠ [] := by rintro rfl; simp at hl; exact hs hl
  obtain ⟨b, b1, b2, b3, b4⟩ := c02_b64_to_b2 s hs h1
  obtain ⟨c, c1, c2, c3, c4⟩ := c02_b64_to_b2 t ht h2
  rw [b1, c1] at h
  injection h with h
  subst h
  rw [b4, hl] at c4
  have := List.append_cancel_right c4
  exact sextets_inj h1 h2 (bits_inj (w := 6) (by omega) (sextets_allLt _) (sextets_allLt _) this)

theorem mem_alphabet {c : Char} (h : (idx c).isSome = true) : c ∈ alphabet := by
  obtain ⟨d, hd⟩ := Option.isSome_iff_exists.1 h
  have := idx_some hd
  rw [← this.2]
  have key : ∀ d : Fin 64, chr d.val ∈ alphabet := by decide +kernel
  exact key ⟨d, this.1⟩

theorem alphabet_b64 : ∀ c ∈ alphabet, reb64 ['-', c] = true := by decide +kernel

/-- The selector of a code is the same in bytes as in text. -/
theorem bards_eq {s : List Char} {first : List Nat} (hl : s.length = 2) (hb : reb64 s = true) (h : codeB64ToB2 s = .ok first) :
    bards first = hards s := by
  have hne : s ≠ [] := by rintro rfl; simp at hl
  have hf : ∀ c ∈ alphabet, (codeB64ToB2 ['-', c] = .ok first ↔ ['-', c] = s) := by
    intro c hc
    constructor
    · intro h2
      exact codeB64ToB2_inj (by simp) (by simp [hl]) (alphabet_b64 c hc) hb (by rw [h2, h])
    · rintro rfl; exact h
  match s, hl with
  | [a, c], _ =>
    have hc : c ∈ alphabet := mem_alphabet (by simp [reb64] at hb; exact hb.2)
    unfold bards
    by_cases ha : a = '-'
    · subst ha
      have key : ∀ l : List Char, (∀ x ∈ l, x ∈ alphabet) → (c ∈ l ∨ hards ['-', c] = none) →
          l.findSome? (fun c => if codeB64ToB2 ['-', c] = .ok first then hards ['-', c] else none) = hards ['-', c] := by
        intro l hl2 hmem
        induction l with
        | nil =>
          rcases hmem with h | h
          · exact absurd h (by simp)
          · rw [h]; rfl
        | cons x l ih =>
          rw [List.findSome?_cons]
          by_cases hx : x = c
          · subst hx
            rw [if_pos ((hf _ hc).2 rfl)]
            cases hh : hards ['-', x] with
            | some n => rfl
            | none => simp only; rw [ih (fun y hy => hl2 y (List.mem_cons_of_mem _ hy)) (Or.inr hh), hh]
          · rw [if_neg (by rw [hf x (hl2 x (List.mem_cons_self ..))]; simp [hx])]
            simp only
            apply ih (fun y hy => hl2 y (List.mem_cons_of_mem _ hy))
            rcases hmem with h | h
            · rcases List.mem_cons.1 h with h | h
              · exact absurd h.symm hx
              · exact Or.inl h
            · exact Or.inr h
      exact key alphabet (fun x hx => hx) (Or.inl hc)
    · have : hards [a, c] = none := by
        unfold hards
        split
        · next h => simp at h; exact absurd h.1 ha
        · rfl
      rw [this, List.findSome?_eq_none_iff]
      intro x hx
      rw [if_neg (by rw [hf x hx]; simp [Ne.symm ha])]

theorem nab_two {b : List Nat} (hb : AllLt 256 b) (hl : 2 ≤ b.length) :
    ∃ s first, s.length = 2 ∧ reb64 s = true ∧ bits 6 (sextets s) = (bits 8 b).take 12 ∧ nabSextets b 2 = .ok first ∧
      bards first = hards s := by
  obtain ⟨s, s1, s2, s3, s4⟩ := c02_b2_to_b64 b 2 hb (by omega)
  obtain ⟨r, r1, r2, r3, r4⟩ := c02_nab_sextets b 2 hb (by omega)
  have hne : s ≠ [] := by rintro rfl; simp at s2
  obtain ⟨c, c1, c2, c3, c4⟩ := c02_b64_to_b2 s hne s3
  refine ⟨s, r, s2, s3, s4, r1, bards_eq s2 s3 ?_⟩
  rw [c1]
  congr 1
  apply bits_inj (w := 8) (by omega) c2 r2
  rw [c4, r4, s4, s2]

/-- The first characters of a code that bytes carry. -/
theorem first_chars {b : List Nat} {s t : List Char} {n k : Nat} (hk : k ≤ n) (hs : s.length = k) (ht : t.length = n) (hsb : reb64 s = true)
    (htb : reb64 t = true) (h1 : bits 6 (sextets s) = (bits 8 b).take (6 * k)) (h2 : bits 6 (sextets t) = (bits 8 b).take (6 * n)) :
    s = t.take k := by
  have htk := reb64_take htb k
  apply sextets_inj hsb htk
  apply bits_inj (w := 6) (by omega) (sextets_allLt _) (sextets_allLt _)
  have hbt : sextets t = sextets (t.take k) ++ sextets (t.drop k) := by rw [← sextets_append, List.take_append_drop]
  have hbl2 : (bits 6 (sextets (t.take k))).length = 6 * k := by
    rw [bits_length, sextets_length htk, List.length_take]; omega
  have : (bits 8 b).take (6 * k) = ((bits 8 b).take (6 * n)).take (6 * k) := by
    rw [List.take_take]; congr 1; omega
  rw [h1, this, ← h2, hbt, bits_append, List.take_append_of_le_length (by omega), List.take_of_length_le (by omega)]

/-- `_bexfil` accepts exactly the bytes that carry a counter at the front. -/
theorem bexfil_ok_iff (v : Ver) (b : List Nat) (hb : AllLt 256 b) (m : Counter) :
    bexfil v b = .ok m ↔ ∃ sz, Valid v m sz ∧ 3 * sz.fs ≤ 4 * b.length ∧ bits 6 (sextets (both sz m)) = (bits 8 b).take (6 * sz.fs) := by
  constructor
  · intro h
    unfold bexfil at h
    split at h
    · exact absurd h (by simp)
    next hl =>
    obtain ⟨s, first, n1, n2, n3, n4, n5⟩ := nab_two hb (by omega)
    rw [n4] at h
    simp only [n5] at h
    cases hh : hards s with
    | none => rw [hh] at h; exact absurd h (by simp)
    | some hs =>
      rw [hh] at h
      simp only at h
      split at h
      · exact absurd h (by simp)
      next hl2 =>
      obtain ⟨hard, k1, k2, k3, k4⟩ := c02_b2_to_b64 b hs hb (by simp only [sceil34] at hl2; omega)
      rw [k1] at h
      simp only at h
      cases hsz : sizes? v hard with
      | none => rw [hsz] at h; exact absurd h (by simp)
      | some sz =>
        rw [hsz] at h
        simp only at h
        split at h
        · exact absurd h (by simp)
        next hl3 =>
        obtain ⟨bth, j1, j2, j3, j4⟩ := c02_b2_to_b64 b sz.fs hb (by simp only [sceil34] at hl3; omega)
        rw [j1] at h
        simp only at h
        cases hi : b64ToInt ((bth.drop sz.hs).take (sz.fs - sz.hs)) with
        | error e => rw [hi] at h; exact absurd h (by simp)
        | ok c =>
          rw [hi] at h
          injection h with h
          subst h
          obtain ⟨h1, h2, h3, h4, h5, h6, h7, _⟩ := wf_of_sizes hsz
          have hhs : hs = sz.hs := by omega
          subst hhs
          have hfs : sz.fs - sz.hs = sz.ss := by omega
          rw [hfs] at hi
          have hil : ((bth.drop sz.hs).take sz.ss).length = sz.ss := by rw [List.length_take, List.length_drop]; omega
          obtain ⟨i1, i2⟩ := (b64ToInt_fixed h7 hil).1 hi
          refine ⟨sz, ⟨hsz, i1⟩, by simp only [sceil34] at hl3; omega, ?_⟩
          have hhard := first_chars (by omega) k2 j2 k3 j3 k4 j4
          have : both sz ⟨hard, c⟩ = bth := by
            simp only [both]
            rw [← i2, hhard, ← List.take_add, ← h5, List.take_of_length_le (by omega)]
          rw [this, j4]
  · rintro ⟨sz, hv, hbl, hbits⟩
    obtain ⟨h1, h2, h3, h4, h5, h6, h7, _⟩ := wf_of_sizes hv.size
    have hl := hv.len
    obtain ⟨s, first, n1, n2, n3, n4, n5⟩ := nab_two hb (by omega)
    obtain ⟨hard, k1, k2, k3, k4⟩ := c02_b2_to_b64 b sz.hs hb (by omega)
    obtain ⟨bth, j1, j2, j3, j4⟩ := c02_b2_to_b64 b sz.fs hb (by omega)
    have hbth : bth = both sz m := by
      apply sextets_inj j3 hv.b64
      apply bits_inj (w := 6) (by omega) (sextets_allLt _) (sextets_allLt _)
      rw [j4, hbits]
    have hhard := first_chars (by omega) k2 j2 k3 j3 k4 j4
    have hs2 := first_chars (b := b) (by omega) n1 j2 n2 j3 n3 j4
    have e1 : hard = m.code := by rw [hhard, hbth, both, ← h1]; simp
    have e2 : s = m.code.take 2 := by
      rw [hs2, hbth, both, List.take_append_of_le_length (by omega)]
    have hct : (bth.drop sz.hs).take (sz.fs - sz.hs) = intToB64 m.count sz.ss := by
      rw [hbth, both, ← h1, List.drop_left', List.take_of_length_le]
      · rw [intToB64_length hv.count]; omega
      · rfl
    unfold bexfil
    rw [if_neg (by omega), n4]
    simp only [n5]
    rw [e2, h3]
    simp only
    rw [if_neg (by simp only [sceil34]; omega), k1]
    simp only
    rw [e1, hv.size]
    simp only
    rw [if_neg (by simp only [sceil34]; omega), j1]
    simp only
    rw [hct, (b64ToInt_fixed h7 (intToB64_length hv.count)).2 ⟨hv.count, rfl⟩]

end Verif.Ctr
