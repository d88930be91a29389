import Verif.Base.Digits

/-! # Byte strings in LMDB key order -/

namespace Verif.Db

/-- Byte strings; a byte is a number (nothing here depends on the bound 256). -/
abbrev Bytes := List Nat

/-- LMDB default key order: lexicographic, a proper prefix comes first. -/
def lexLt : Bytes → Bytes → Bool
  | [], [] => false
  | [], _ :: _ => true
  | _ :: _, [] => false
  | a :: as, b :: bs => decide (a < b) || (decide (a = b) && lexLt as bs)

theorem lexLt_irrefl (a : Bytes) : lexLt a a = false := by
  induction a with
  | nil => rfl
  | cons x a ih => simp [lexLt, ih]

theorem lexLt_cons (a b : Nat) (as bs : Bytes) : lexLt (a :: as) (b :: bs) = true ↔ a < b ∨ (a = b ∧ lexLt as bs = true) := by
  simp [lexLt]

theorem lexLt_nil (b : Nat) (bs : Bytes) : lexLt [] (b :: bs) = true := rfl

theorem not_lexLt_nil (a : Bytes) : lexLt a [] = false := by cases a <;> rfl

theorem lexLt_trans {a b c : Bytes} (h : lexLt a b = true) (g : lexLt b c = true) : lexLt a c = true := by
  induction a generalizing b c with
  | nil =>
    cases b with
    | nil => exact absurd h (by simp [lexLt])
    | cons y b => cases c with
      | nil => exact absurd g (by simp [lexLt])
      | cons z c => rfl
  | cons x a ih =>
    cases b with
    | nil => exact absurd h (by simp [lexLt])
    | cons y b =>
      cases c with
      | nil => exact absurd g (by simp [lexLt])
      | cons z c =>
        rw [lexLt_cons] at *
        rcases h with h | ⟨rfl, h⟩
        · rcases g with g | ⟨rfl, g⟩
          · left; omega
          · left; exact h
        · rcases g with g | ⟨rfl, g⟩
          · left; exact g
          · right; exact ⟨rfl, ih h g⟩

theorem lexLt_asymm {a b : Bytes} (h : lexLt a b = true) : lexLt b a = false := by
  cases hb : lexLt b a with
  | false => rfl
  | true => have := lexLt_trans h hb; rw [lexLt_irrefl] at this; exact absurd this (by simp)

theorem lexLt_total (a b : Bytes) : lexLt a b = true ∨ a = b ∨ lexLt b a = true := by
  induction a generalizing b with
  | nil => cases b with
    | nil => right; left; rfl
    | cons => left; rfl
  | cons x a ih =>
    cases b with
    | nil => right; right; rfl
    | cons y b =>
      rw [lexLt_cons, lexLt_cons]
      rcases Nat.lt_trichotomy x y with h | h | h
      · exact .inl (.inl h)
      · subst h
        rcases ih b with h | h | h
        · exact .inl (.inr ⟨rfl, h⟩)
        · exact .inr (.inl (by rw [h]))
        · exact .inr (.inr (.inr ⟨rfl, h⟩))
      · exact .inr (.inr (.inl h))

theorem lexLt_append (p a b : Bytes) : lexLt (p ++ a) (p ++ b) = lexLt a b := by
  induction p with
  | nil => rfl
  | cons x p ih => simp [lexLt, ih]

theorem lexLt_of_prefix {p x : Bytes} (h : p <+: x) : lexLt x p = false := by
  obtain ⟨t, rfl⟩ := h
  have := lexLt_append p t []
  rw [List.append_nil] at this
  rw [this, not_lexLt_nil]

/-- Everything between two strings with a common prefix has that prefix. -/
theorem prefix_convex {p x y z : Bytes} (hx : p <+: x) (hz : p <+: z) (h1 : lexLt y x = false) (h2 : lexLt z y = false) :
    p <+: y := by
  induction p generalizing x y z with
  | nil => exact List.nil_prefix
  | cons c p ih =>
    obtain ⟨tx, rfl⟩ := hx
    obtain ⟨tz, rfl⟩ := hz
    cases y with
    | nil => exact absurd h1 (by simp [lexLt])
    | cons d y =>
      have h1' : ¬ (d < c ∨ (d = c ∧ lexLt y (p ++ tx) = true)) := by
        rw [← lexLt_cons]; simpa using h1
      have h2' : ¬ (c < d ∨ (c = d ∧ lexLt (p ++ tz) y = true)) := by
        rw [← lexLt_cons]; simpa using h2
      have hcd : c = d := by
        rcases Nat.lt_trichotomy c d with h | h | h
        · exact absurd (.inl h) h2'
        · exact h
        · exact absurd (.inl h) h1'
      subst hcd
      have := ih (List.prefix_append p tx) (List.prefix_append p tz) (y := y)
        (by cases hh : lexLt y (p ++ tx) with
            | false => rfl
            | true => exact absurd (.inr ⟨rfl, hh⟩) h1')
        (by cases hh : lexLt (p ++ tz) y with
            | false => rfl
            | true => exact absurd (.inr ⟨rfl, hh⟩) h2')
      obtain ⟨t, rfl⟩ := this
      exact ⟨t, rfl⟩

/-- Strings with different tails of equal length compare as their first parts do, unless these agree. -/
theorem lexLt_append_len {a b : Bytes} (hl : a.length = b.length) (s t : Bytes) :
    lexLt (a ++ s) (b ++ t) = true ↔ lexLt a b = true ∨ (a = b ∧ lexLt s t = true) := by
  induction a generalizing b with
  | nil =>
    cases b with
    | nil => simp [lexLt]
    | cons => simp at hl
  | cons x a ih =>
    cases b with
    | nil => simp at hl
    | cons y b =>
      simp only [List.cons_append, lexLt_cons, List.cons.injEq]
      rw [ih (by simpa using hl)]
      constructor
      · rintro (h | ⟨h1, h2 | ⟨h2, h3⟩⟩)
        · exact .inl (.inl h)
        · exact .inl (.inr ⟨h1, h2⟩)
        · exact .inr ⟨⟨h1, h2⟩, h3⟩
      · rintro ((h | ⟨h1, h2⟩) | ⟨⟨h1, h2⟩, h3⟩)
        · exact .inl h
        · exact .inr ⟨h1, .inl h2⟩
        · exact .inr ⟨h1, .inr ⟨h2, h3⟩⟩

/-- Digit strings of equal length compare as their values. -/
theorem lexLt_digits {b : Nat} {x y : List Nat} (hl : x.length = y.length) (hx : AllLt b x) (hy : AllLt b y) :
    lexLt x y = true ↔ ofDigits b x < ofDigits b y := by
  induction x generalizing y with
  | nil => cases y with
    | nil => simp [lexLt]
    | cons => simp at hl
  | cons c x ih =>
    cases y with
    | nil => simp at hl
    | cons d y =>
      have hl' : x.length = y.length := by simpa using hl
      rw [allLt_cons] at hx hy
      rw [lexLt_cons, ofDigits_cons, ofDigits_cons, hl', ih hl' hx.2 hy.2]
      have h1 := ofDigits_lt hx.2
      have h2 := ofDigits_lt hy.2
      rw [hl'] at h1
      generalize b ^ y.length = q at *
      constructor
      · rintro (h | ⟨rfl, h⟩)
        · have : (c + 1) * q ≤ d * q := Nat.mul_le_mul_right _ h
          rw [Nat.succ_mul] at this; omega
        · omega
      · intro h
        rcases Nat.lt_trichotomy c d with hc | hc | hc
        · exact .inl hc
        · subst hc; exact .inr ⟨rfl, by omega⟩
        · have : (d + 1) * q ≤ c * q := Nat.mul_le_mul_right _ hc
          rw [Nat.succ_mul] at this; omega

end Verif.Db
