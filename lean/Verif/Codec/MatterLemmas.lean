import Verif.Codec.DecLemmas

/-! # What `exfil` accepts, `infil`, `binfil`, `bexfil` characterised -/

namespace Verif.Matter

open Verif.B64

/-- The size-table conditions that the code comments call "assumes unit tests ensure". -/
def WF (code : List Char) (sz : Sizage) : Prop :=
  code.length = sz.hs ∧ 0 < sz.hs ∧ (code.head?.bind hards) = some sz.hs ∧ reb64 code = true ∧ sz.ls ≤ 2 ∧
  sz.xs ≤ sz.ss ∧
  match sz.fs with
  | some f => f % 4 = 0 ∧ 0 < f ∧ sz.cs % 4 ≠ 3 ∧ sz.cs ≤ f ∧
      ((f = sz.cs ∧ sz.ls = 0) ∨ sz.ls < (f - sz.cs) * 3 / 4)
  | none => sz.cs % 4 = 0 ∧ sz.xs = 0 ∧ 0 < sz.ss

instance (code : List Char) (sz : Sizage) : Decidable (WF code sz) := by
  unfold WF
  cases sz.fs <;> infer_instance

theorem table_wf : ∀ e ∈ sizes, WF e.1 e.2 := by decide +kernel

theorem mem_of_lookup {α β : Type} [BEq α] [LawfulBEq α] {l : List (α × β)} {a : α} {b : β}
    (h : l.lookup a = some b) : (a, b) ∈ l := by
  induction l with
  | nil => simp at h
  | cons x l ih =>
    obtain ⟨x1, x2⟩ := x
    rw [List.lookup_cons] at h
    split at h
    · next he =>
      simp at he
      injection h with h
      simp [he, h]
    · exact List.mem_cons_of_mem _ (ih h)

theorem wf_of_sizes {code : List Char} {sz : Sizage} (h : sizes? code = some sz) : WF code sz :=
  table_wf (code, sz) (mem_of_lookup h)

/-- What it means for the text `t` to carry the primitive `m` in its first `n` characters, in terms of bits:
code, pad and soft characters, then material characters whose bits are the mid pad, the lead bytes and the raw. -/
structure Carries (t : List Char) (m : Mat) (n : Nat) (sz : Sizage) (mat rest : List Char) : Prop where
  size : sizes? m.code = some sz
  softLen : m.soft.length = sz.ss - sz.xs
  framed : framedSize sz m.soft = .ok n
  text : t = both sz m ++ (mat ++ rest)
  len : (both sz m).length + mat.length = n
  dec : AllDec mat
  bitsEq : bits 6 (decVals mat) = List.replicate (2 * (sz.cs % 4) + 8 * sz.ls) 0 ++ bits 8 m.raw
  raw : AllLt 256 m.raw

theorem both_length {sz : Sizage} {m : Mat} (hwf : WF m.code sz) (hs : m.soft.length = sz.ss - sz.xs) :
    (both sz m).length = sz.cs := by
  obtain ⟨h1, _, _, _, _, h6, _⟩ := hwf
  simp [both, pads, Sizage.cs, h1, hs]
  omega

theorem framed_facts {code : List Char} {sz : Sizage} (hwf : WF code sz) {soft : List Char} {n : Nat}
    (h : framedSize sz soft = .ok n) :
    n % 4 = 0 ∧ sz.cs ≤ n ∧ sz.cs % 4 ≠ 3 ∧ 0 < n ∧ (n - sz.cs + sz.cs % 4) % 4 = 0 := by
  obtain ⟨h1, h2, h3, h4, h5, h6, h7⟩ := hwf
  unfold framedSize at h
  cases hf : sz.fs with
  | some f =>
    rw [hf] at h h7
    injection h with h
    subst h
    simp only at h7
    omega
  | none =>
    rw [hf] at h h7
    simp only at h h7
    cases hb : b64ToInt soft with
    | error e => rw [hb] at h; exact absurd h (by simp [Except.map])
    | ok k =>
      rw [hb] at h
      simp only [Except.map, Except.ok.injEq] at h
      have : sz.cs = sz.hs + sz.ss := rfl
      omega

/-- The value of a digit list is zero exactly when every digit is zero. -/
theorem ofDigits_eq_zero {b : Nat} {ds : List Nat} (hb : 1 < b) (h : ofDigits b ds = 0) :
    ds = List.replicate ds.length 0 := by
  induction ds with
  | nil => rfl
  | cons d ds ih =>
    rw [ofDigits_cons] at h
    have h1 : ofDigits b ds = 0 := by omega
    have h2 : d * b ^ ds.length = 0 := by omega
    have h3 : 0 < b ^ ds.length := Nat.pow_pos (by omega)
    have h4 : d = 0 := by
      rcases Nat.mul_eq_zero.1 h2 with h | h
      · exact h
      · omega
    rw [List.length_cons, List.replicate_succ, ← ih h1, h4]

theorem bits_zeros (w n : Nat) : bits w (List.replicate n 0) = List.replicate (w * n) 0 := by
  induction n with
  | zero => simp
  | succ n ih =>
    rw [List.replicate_succ, bits_cons, ih, toDigits_zero, List.replicate_append_replicate]
    congr 1; grind

theorem decVals_replicate_A (n : Nat) : decVals (List.replicate n 'A') = List.replicate n 0 := by
  rw [replicate_A, decVals_chrs (allLt_replicate_zero (by omega) _)]

theorem allDec_replicate_A (n : Nat) : AllDec (List.replicate n 'A') := by
  rw [replicate_A]; exact allDec_chrs (allLt_replicate_zero (by omega) _)

/-- The end of `_exfil`, characterised. -/
theorem exfilRaw_ok_iff {t hard soft : List Char} {sz : Sizage} {n : Nat} {m : Mat}
    (hwf : WF hard sz) (hfr : framedSize sz soft = .ok n) :
    exfilRaw t hard soft sz n = .ok m ↔
      n ≤ t.length ∧ m.code = hard ∧ m.soft = soft ∧ AllDec ((t.take n).drop sz.cs) ∧
      bits 6 (decVals ((t.take n).drop sz.cs)) =
        List.replicate (2 * (sz.cs % 4) + 8 * sz.ls) 0 ++ bits 8 m.raw ∧ AllLt 256 m.raw := by
  have hff := framed_facts hwf hfr
  obtain ⟨_, _, _, _, hls, _, hfs⟩ := hwf
  -- size of lead plus raw when the table entry is met
  have hlead : sz.ls < (n - sz.cs) * 3 / 4 ∨ (n = sz.cs ∧ sz.ls = 0) ∨
      ((n - sz.cs) % 4 = 0 ∧ sz.cs % 4 = 0) := by
    unfold framedSize at hfr
    cases hf : sz.fs with
    | some f =>
      rw [hf] at hfr hfs
      injection hfr with hfr
      subst hfr
      simp only at hfs
      omega
    | none => rw [hf] at hfs; simp only at hfs; omega
  generalize hps : sz.cs % 4 = ps at *
  by_cases hn : t.length < n
  · simp only [exfilRaw, if_pos hn]
    constructor
    · intro h; exact absurd h (by simp)
    · intro h; omega
  have hmat : ((t.take n).drop sz.cs).length = n - sz.cs := by simp; omega
  generalize hM : (t.take n).drop sz.cs = M at *
  have htl : (t.take n).length = n := by simp; omega
  simp only [exfilRaw, if_neg hn, hM, hps, htl]
  have hbl : (List.replicate ps 'A' ++ M).length = ps + (n - sz.cs) := by simp [hmat]
  cases hd : decodeB64 (List.replicate ps 'A' ++ M) with
  | error e =>
    simp only
    constructor
    · intro h; exact absurd h (by simp)
    · rintro ⟨_, _, _, h, _⟩
      exfalso
      obtain ⟨b, hb, _⟩ := decodeB64_complete (s := List.replicate ps 'A' ++ M)
        (allDec_append.2 ⟨allDec_replicate_A _, h⟩) (by rw [hbl]; omega)
      rw [hd] at hb
      exact absurd hb (by simp)
  | ok paw =>
    simp only
    have hsound := decodeB64_sound hd
    rw [hbl] at hsound
    constructor
    · intro h
      split at h
      · exact absurd h (by simp)
      next hpi =>
      split at h
      · exact absurd h (by simp)
      next hraw =>
      injection h with h
      subst h
      simp only [Decidable.not_not] at hpi hraw
      rw [List.length_drop] at hraw
      have hz := ofDigits_eq_zero (by omega) hpi
      have hlen : 4 * paw.length = 3 * (ps + (n - sz.cs)) := by omega
      obtain ⟨s1, s2, s3⟩ := hsound.2 hlen
      refine ⟨by omega, rfl, rfl, (allDec_append.1 s1).2, ?_, s2.drop _⟩
      rw [decVals_append, decVals_replicate_A, bits_append, bits_zeros] at s3
      have hsplit : bits 8 paw = bits 8 (paw.take (ps + sz.ls)) ++ bits 8 (paw.drop (ps + sz.ls)) := by
        rw [← bits_append, List.take_append_drop]
      have htk : (paw.take (ps + sz.ls)).length = ps + sz.ls := by
        rw [List.length_take]; omega
      rw [hsplit, hz, htk, bits_zeros] at s3
      have : List.replicate (8 * (ps + sz.ls)) 0 =
          List.replicate (6 * ps) 0 ++ List.replicate (2 * ps + 8 * sz.ls) 0 := by
        rw [List.replicate_append_replicate]; congr 1; omega
      rw [this, List.append_assoc] at s3
      exact (List.append_cancel_left s3).symm
    · rintro ⟨_, hc, hs, hdec, hb, hr⟩
      obtain ⟨b, hb1, hb2, hb3⟩ := decodeB64_complete (s := List.replicate ps 'A' ++ M)
        (allDec_append.2 ⟨allDec_replicate_A _, hdec⟩) (by rw [hbl]; omega)
      rw [hd] at hb1
      injection hb1 with hb1
      subst hb1
      rw [decVals_append, decVals_replicate_A, bits_append, bits_zeros, hb] at hb3
      have hpaw : paw = List.replicate (ps + sz.ls) 0 ++ m.raw := by
        apply bits_inj (w := 8) (by omega) hb2
        · rw [allLt_append]; exact ⟨allLt_replicate_zero (by omega) _, hr⟩
        · rw [hb3, bits_append, bits_zeros, ← List.append_assoc, List.replicate_append_replicate]
          congr 2; omega
      have hlen := congrArg List.length hb
      rw [bits_length, decVals_length hdec, hmat, List.length_append, bits_length, List.length_replicate] at hlen
      have hz : List.take (ps + sz.ls) (List.replicate (ps + sz.ls) 0 ++ m.raw) =
          List.replicate (ps + sz.ls) 0 := by
        rw [List.take_append_of_le_length (by simp), List.take_of_length_le (by simp)]
      have hdr : List.drop (ps + sz.ls) (List.replicate (ps + sz.ls) 0 ++ m.raw) = m.raw := by
        rw [List.drop_append_of_le_length (by simp), List.drop_of_length_le (by simp)]; simp
      rw [hpaw, hz, hdr, ofDigits_replicate_zero]
      rw [if_neg (by simp), if_neg (by omega)]
      cases m
      simp_all

/-- `_exfil` accepts exactly the texts that carry a primitive at the front. -/
theorem exfil_ok_iff (t : List Char) (m : Mat) :
    exfil t = .ok m ↔ ∃ n sz mat rest, Carries t m n sz mat rest := by
  constructor
  · intro h
    cases t with
    | nil => exact absurd h (by simp [exfil])
    | cons first tl =>
    simp only [exfil] at h
    cases hh : hards first with
    | none => rw [hh] at h; simp only at h; (repeat' split at h) <;> exact absurd h (by simp)
    | some hs =>
      rw [hh] at h
      simp only at h
      split at h
      · exact absurd h (by simp)
      next hlen =>
      generalize ht : first :: tl = t at *
      cases hsz : sizes? (t.take hs) with
      | none => rw [hsz] at h; exact absurd h (by simp)
      | some sz =>
        rw [hsz] at h
        simp only at h
        have hwf := wf_of_sizes hsz
        have hwf' := hwf
        obtain ⟨w1, w2, w3, w4, w5, w6, w7⟩ := hwf'
        have hhs : sz.hs = hs := by
          rw [← w1, List.length_take]; omega
        simp only [exfilSoft] at h
        split at h
        · exact absurd h (by simp)
        next hx =>
        simp only [Decidable.not_not] at hx
        cases hf : framedSize sz (((t.drop sz.hs).take sz.ss).drop sz.xs) with
        | error e => rw [hf] at h; exact absurd h (by simp)
        | ok n =>
          rw [hf] at h
          simp only at h
          have hff := framed_facts hwf hf
          obtain ⟨e1, e2, e3, e4, e5, e6⟩ := (exfilRaw_ok_iff hwf hf).1 h
          have hb : both sz m = t.take sz.cs := by
            unfold both Sizage.cs
            rw [e2, e3, ← hx, List.take_append_drop, ← hhs, List.take_add]
          have hbl : (both sz m).length = sz.cs := by rw [hb, List.length_take]; omega
          refine ⟨n, sz, (t.take n).drop sz.cs, t.drop n, ?_⟩
          refine ⟨by rw [e2]; exact hsz, ?_, by rw [e3]; exact hf, ?_, ?_, e4, e5, e6⟩
          · rw [e3, List.length_drop, List.length_take, List.length_drop]
            have : sz.cs = sz.hs + sz.ss := rfl
            omega
          · rw [hb, ← List.append_assoc]
            have : t.take sz.cs = (t.take n).take sz.cs := by rw [List.take_take]; congr 1; omega
            rw [this, List.take_append_drop, List.take_append_drop]
          · rw [hbl]; simp; omega
  · rintro ⟨n, sz, mat, rest, c⟩
    have hwf := wf_of_sizes c.size
    have hbl := both_length hwf c.softLen
    have hff := framed_facts hwf c.framed
    have hwf' := hwf
    obtain ⟨w1, w2, w3, w4, w5, w6, w7⟩ := hwf'
    have hlen := c.len
    rw [hbl] at hlen
    have htake : t.take sz.hs = m.code := by
      rw [c.text, both, List.append_assoc, ← w1]; simp
    have hdrop : t.drop sz.hs = pads sz.xs ++ m.soft ++ (mat ++ rest) := by
      rw [c.text, both, List.append_assoc, ← w1]; simp
    have htl : t.length = sz.cs + mat.length + rest.length := by
      rw [c.text, List.length_append, hbl, List.length_append]; omega
    have hsoftx : (t.drop sz.hs).take sz.ss = pads sz.xs ++ m.soft := by
      rw [hdrop, List.take_append_of_le_length, List.take_of_length_le]
      · simp [pads, c.softLen]; omega
      · simp [pads, c.softLen]; omega
    have hxtra : (pads sz.xs ++ m.soft).take sz.xs = pads sz.xs := by
      rw [List.take_append_of_le_length (by simp [pads]), List.take_of_length_le (by simp [pads])]
    have hsoft : (pads sz.xs ++ m.soft).drop sz.xs = m.soft := by
      rw [List.drop_append_of_le_length (by simp [pads]), List.drop_of_length_le (by simp [pads])]; simp
    cases ht : t with
    | nil =>
      exfalso
      have : sz.cs = sz.hs + sz.ss := rfl
      rw [ht] at htl; simp at htl; omega
    | cons first tl =>
    have hfirst : hards first = some sz.hs := by
      have : m.code.head? = some first := by
        rw [← htake, ht]
        cases hh : sz.hs with
        | zero => omega
        | succ k => simp
      rw [this] at w3
      simpa using w3
    simp only [exfil, hfirst]
    rw [← ht, if_neg (by have : sz.cs = sz.hs + sz.ss := rfl; omega), htake, c.size]
    simp only [exfilSoft, hsoftx, hxtra, hsoft, c.framed]
    rw [if_neg (by simp)]
    rw [exfilRaw_ok_iff hwf c.framed]
    have hmat : (t.take n).drop sz.cs = mat := by
      rw [c.text, ← List.append_assoc, List.take_append_of_le_length (by simp [hbl]; omega),
        List.take_of_length_le (by simp [hbl]; omega), List.drop_append_of_le_length (by omega),
        List.drop_of_length_le (by omega), List.nil_append]
    rw [hmat]
    exact ⟨by omega, rfl, rfl, c.dec, c.bitsEq, c.raw⟩

end Verif.Matter
