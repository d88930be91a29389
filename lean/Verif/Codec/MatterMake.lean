import Verif.Codec.MatterForms

/-! # Everything the constructor accepts is well formed -/

namespace Verif.Matter

open Verif.B64

/-- Variable size codes of the table: lead size and length family stay inside the table. -/
def VarOk (code : List Char) (ls : Nat) : Prop :=
  match code with
  | [] => False
  | c0 :: ctail =>
    (c0 ∈ smallVrz ∧
      sizes? (smallVrz.getD ls '4' :: ctail.take 1) = some ⟨2, 2, 0, none, ls⟩ ∧
      sizes? (largeVrz.getD ls '7' :: 'A' :: 'A' :: ctail.take 1) = some ⟨4, 4, 0, none, ls⟩ ∧
      ctail.length = 1) ∨
    (c0 ∉ smallVrz ∧ c0 ∈ largeVrz ∧
      sizes? (largeVrz.getD ls '7' :: ctail.take 3) = some ⟨4, 4, 0, none, ls⟩ ∧ ctail.length = 3)

instance (code : List Char) (ls : Nat) : Decidable (VarOk code ls) := by
  unfold VarOk; cases code <;> infer_instance

theorem table_var : ∀ e ∈ sizes, e.2.fs = none → ∀ ls : Fin 3, VarOk e.1 ls.val := by decide +kernel

theorem var_of_sizes {code : List Char} {sz : Sizage} (h : sizes? code = some sz) (hf : sz.fs = none) {ls : Nat}
    (hl : ls < 3) : VarOk code ls := table_var (code, sz) (mem_of_lookup h) hf ⟨ls, hl⟩

theorem var_shape {code : List Char} {sz : Sizage} (h : sizes? code = some sz) (hf : sz.fs = none) :
    (sz.hs = 2 ∨ sz.hs = 4) ∧ (sz.hs = 2 ↔ ∃ c0 ct, code = c0 :: ct ∧ c0 ∈ smallVrz) := by
  have key : ∀ e ∈ sizes, e.2.fs = none →
      (e.2.hs = 2 ∨ e.2.hs = 4) ∧ (e.2.hs = 2 ↔ (e.1.headD 'A') ∈ smallVrz) ∧ e.1 ≠ [] := by decide +kernel
  obtain ⟨h1, h2, h3⟩ := key (code, sz) (mem_of_lookup h) hf
  refine ⟨h1, ?_⟩
  cases code with
  | nil => exact absurd rfl h3
  | cons c0 ct =>
    simp at h2
    rw [h2]
    constructor
    · intro h; exact ⟨c0, ct, rfl, h⟩
    · rintro ⟨_, _, he, h⟩
      injection he with h1 h2
      rw [h1]; exact h

/-- What `varCode` answers for a variable size code of the table. -/
theorem varCode_spec {code : List Char} {sz : Sizage} (h : sizes? code = some sz) (hf : sz.fs = none) (r : Nat) :
    ((r + 2) / 3 ≤ 64 ^ 4 - 1 → ∃ c s sz', varCode code r = .ok (c, s) ∧ sizes? c = some sz' ∧ sz'.fs = none ∧
      sz'.xs = 0 ∧ sz'.ls = (3 - r % 3) % 3 ∧ s.length = sz'.ss ∧ reb64 s = true ∧
      b64ToInt s = .ok ((r + 2) / 3) ∧ c.getLast? = code.getLast? ∧
      (sz'.hs = 2 ↔ sz.hs = 2 ∧ (r + 2) / 3 ≤ 64 ^ 2 - 1)) ∧
    (64 ^ 4 - 1 < (r + 2) / 3 → varCode code r = .error .invalidVarRawSize) := by
  have hsize : (r + (3 - r % 3) % 3) / 3 = (r + 2) / 3 := by omega
  have hls : (3 - r % 3) % 3 < 3 := by omega
  have hv := var_of_sizes h hf hls
  have hsh := var_shape h hf
  have enc : ∀ l, 0 < l → (r + 2) / 3 < 64 ^ l →
      (intToB64 ((r + 2) / 3) l).length = l ∧ reb64 (intToB64 ((r + 2) / 3) l) = true ∧
      b64ToInt (intToB64 ((r + 2) / 3) l) = .ok ((r + 2) / 3) := by
    intro l hl hlt
    refine ⟨?_, (c01_int_roundtrip _ l hl).2.1, (c01_int_roundtrip _ l hl).1⟩
    rw [intToB64_eq hlt]; simp
  cases code with
  | nil => exact absurd hv (by simp [VarOk])
  | cons c0 ct =>
    simp only [VarOk] at hv
    simp only [varCode, hsize]
    rcases hv with ⟨v1, v2, v3, v4⟩ | ⟨v1, v2, v3, v4⟩
    · have hhs : sz.hs = 2 := hsh.2.2 ⟨c0, ct, rfl, v1⟩
      obtain ⟨x, rfl⟩ : ∃ x, ct = [x] := by
        match ct, v4 with
        | [x], _ => exact ⟨x, rfl⟩
      constructor
      · intro hr
        rw [if_pos v1]
        by_cases h2 : (r + 2) / 3 ≤ 64 ^ 2 - 1
        · obtain ⟨e1, e2, e3⟩ := enc 2 (by omega) (by omega)
          rw [if_pos h2]
          exact ⟨_, _, _, rfl, v2, rfl, rfl, rfl, e1, e2, e3, by simp, by simp [hhs]; omega⟩
        · obtain ⟨e1, e2, e3⟩ := enc 4 (by omega) (by omega)
          rw [if_neg h2, if_pos hr]
          exact ⟨_, _, _, rfl, v3, rfl, rfl, rfl, e1, e2, e3, by simp, by simp; omega⟩
      · intro hr
        rw [if_pos v1, if_neg (by omega), if_neg (by omega)]
    · have hhs : sz.hs ≠ 2 := by
        intro h2
        obtain ⟨a, b, he, hm⟩ := hsh.2.1 h2
        injection he with h1 h3
        exact v1 (h1 ▸ hm)
      obtain ⟨x, y, z, rfl⟩ : ∃ x y z, ct = [x, y, z] := by
        match ct, v4 with
        | [x, y, z], _ => exact ⟨x, y, z, rfl⟩
      constructor
      · intro hr
        obtain ⟨e1, e2, e3⟩ := enc 4 (by omega) (by omega)
        rw [if_neg v1, if_pos v2, if_pos hr]
        exact ⟨_, _, _, rfl, v3, rfl, rfl, rfl, e1, e2, e3, by simp, by simp [hhs]⟩
      · intro hr
        rw [if_neg v1, if_pos v2, if_neg (by omega)]

theorem fixedSoft_ok {sz : Sizage} {soft s : List Char} (h : fixedSoft sz soft = .ok s) (hx : sz.xs ≤ sz.ss) :
    s.length = sz.ss - sz.xs ∧ reb64 s = true := by
  unfold fixedSoft at h
  split at h
  · simp only at h
    split at h
    · exact absurd h (by simp)
    next h1 =>
    split at h
    · exact absurd h (by simp)
    next h2 =>
    injection h with h
    subst h
    simp only [Decidable.not_not] at h1
    exact ⟨h1, by simpa using h2⟩
  · injection h with h
    subst h
    simp [reb64]; omega

/-- Everything `Matter(raw, code, soft, rize)` accepts is well formed. -/
theorem make_valid {code soft : List Char} {raw : List Nat} {rize : Option Int} {m : Mat} (hraw : AllLt 256 raw)
    (h : make code soft raw rize = .ok m) : ∃ sz n, Valid m sz n := by
  unfold make at h
  split at h
  · exact absurd h (by simp)
  cases hs : sizes? code with
  | none => rw [hs] at h; exact absurd h (by simp)
  | some sz =>
    rw [hs] at h
    simp only at h
    have hwf := wf_of_sizes hs
    cases hf : sz.fs with
    | none =>
      rw [hf] at h
      simp only at h
      cases hr : varRize raw rize with
      | error e => rw [hr] at h; exact absurd h (by simp)
      | ok rz =>
        rw [hr] at h
        simp only at h
        have hspec := varCode_spec hs hf rz
        by_cases hbig : (rz + 2) / 3 ≤ 64 ^ 4 - 1
        · obtain ⟨c, s, sz', e1, e2, e3, e4, e5, e6, e7, e8, _⟩ := hspec.1 hbig
          rw [e1] at h
          simp only at h
          split at h
          · exact absurd h (by simp)
          next hlen =>
          simp only [Decidable.not_not] at hlen
          injection h with h
          subst h
          have hwf' := wf_of_sizes e2
          have h7 := hwf'.2.2.2.2.2.2
          rw [e3] at h7
          simp only at h7
          have hfr : framedSize sz' s = .ok ((rz + 2) / 3 * 4 + sz'.cs) := by
            simp [framedSize, e3, e8, Except.map]
          refine ⟨sz', _, e2, ?_, e7, hfr, ?_, hraw.take _⟩
          · simp only [e6, e4]; omega
          · simp only [hlen, e5]; omega
        · rw [hspec.2 (by omega)] at h
          exact absurd h (by simp)
    | some f =>
      rw [hf] at h
      simp only at h
      cases hso : fixedSoft sz soft with
      | error e => rw [hso] at h; exact absurd h (by simp)
      | ok s =>
        rw [hso] at h
        simp only at h
        split at h
        · exact absurd h (by simp)
        next hlen =>
        simp only [Decidable.not_not] at hlen
        injection h with h
        subst h
        obtain ⟨s1, s2⟩ := fixedSoft_ok hso hwf.2.2.2.2.2.1
        have h7 := hwf.2.2.2.2.2.2
        rw [hf] at h7
        simp only at h7
        refine ⟨sz, f, hs, s1, s2, by simp [framedSize, hf], ?_, hraw.take _⟩
        have hr : rawSize sz f = (f - sz.cs) * 3 / 4 - sz.ls := rfl
        simp only [hlen]; omega

/-- A well-formed primitive knows its own full size. -/
theorem fullSize_valid {m : Mat} {sz : Sizage} {n : Nat} (hs : sizes? m.code = some sz)
    (hf : framedSize sz m.soft = .ok n) : fullSize m = .ok n := by
  unfold fullSize
  simp only [hs]
  unfold framedSize at hf
  cases hfs : sz.fs with
  | some f => simp only [hfs] at hf; exact hf
  | none =>
    simp only [hfs] at hf ⊢
    cases hb : b64ToInt m.soft with
    | error e => rw [hb] at hf; exact absurd hf (by simp [Except.map])
    | ok k =>
      rw [hb] at hf
      simp only [Except.map, Except.ok.injEq] at hf
      rw [if_neg (by intro he; rw [he] at hb; exact absurd hb (by simp [b64ToInt]))]
      simp only [bind, Except.bind]
      rw [Except.ok.injEq]; omega

end Verif.Matter
