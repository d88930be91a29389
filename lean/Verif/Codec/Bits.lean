import Verif.Base.Digits

/-!
# Bit strings: specification vocabulary for the codec properties

`bits w ds` writes every entry of `ds` as `w` bits, most significant first.  A byte string is
`bits 8 b`, a Base64 text with sextet values `ds` is `bits 6 ds`.
-/

namespace Verif

/-- Concatenation of the `w`-bit expansions of the entries. -/
def bits (w : Nat) (ds : List Nat) : List Nat := ds.flatMap (toDigits 2 w)

@[simp] theorem bits_nil (w : Nat) : bits w [] = [] := rfl

theorem bits_cons (w d : Nat) (ds : List Nat) : bits w (d :: ds) = toDigits 2 w d ++ bits w ds := rfl

@[simp] theorem bits_append (w : Nat) (xs ys : List Nat) : bits w (xs ++ ys) = bits w xs ++ bits w ys := by
  simp [bits]

@[simp] theorem bits_length (w : Nat) (ds : List Nat) : (bits w ds).length = w * ds.length := by
  induction ds with
  | nil => rfl
  | cons d ds ih => rw [bits_cons, List.length_append, ih, toDigits_length, List.length_cons]; grind

theorem bits_allLt (w : Nat) (ds : List Nat) : AllLt 2 (bits w ds) := by
  induction ds with
  | nil => simp
  | cons d ds ih => rw [bits_cons]; simp [ih, toDigits_allLt]

theorem ofDigits_bits {w : Nat} {ds : List Nat} (h : AllLt (2 ^ w) ds) :
    ofDigits 2 (bits w ds) = ofDigits (2 ^ w) ds := by
  induction ds with
  | nil => rfl
  | cons d ds ih =>
    simp at h
    rw [bits_cons, ofDigits_append, ofDigits_cons, ih h.2, ofDigits_toDigits_of_lt h.1, bits_length,
      Nat.pow_mul]

theorem bits_inj {w : Nat} (hw : 0 < w) {xs ys : List Nat} (hx : AllLt (2 ^ w) xs) (hy : AllLt (2 ^ w) ys)
    (h : bits w xs = bits w ys) : xs = ys := by
  have hl : xs.length = ys.length := by
    have := congrArg List.length h
    simp only [bits_length] at this
    exact Nat.eq_of_mul_eq_mul_left hw this
  apply ofDigits_inj hx hy hl
  rw [← ofDigits_bits hx, ← ofDigits_bits hy, h]

theorem ofDigits_take {b : Nat} {xs : List Nat} (h : AllLt b xs) (k : Nat) :
    ofDigits b (xs.take k) = ofDigits b xs / b ^ (xs.length - k) := by
  have e : xs = xs.take k ++ xs.drop k := (List.take_append_drop k xs).symm
  have h2 := ofDigits_append b (xs.take k) (xs.drop k)
  rw [← e] at h2
  have hd := ofDigits_lt (h.drop k)
  rw [List.length_drop] at h2 hd
  rw [h2, Nat.add_comm, Nat.add_mul_div_right _ _ (by omega), Nat.div_eq_of_lt hd, Nat.zero_add]

theorem bits_take {w : Nat} (ds : List Nat) (k : Nat) : bits w (ds.take k) = (bits w ds).take (w * k) := by
  induction ds generalizing k with
  | nil => simp
  | cons d ds ih =>
    cases k with
    | zero => simp
    | succ k =>
      rw [List.take_succ_cons, bits_cons, bits_cons, ih, List.take_append, toDigits_length]
      have e : w * (k + 1) = w + w * k := by grind
      rw [e, List.take_of_length_le (l := toDigits 2 w d) (by rw [toDigits_length]; omega),
        Nat.add_sub_cancel_left]

theorem bits_drop {w : Nat} (ds : List Nat) (k : Nat) : bits w (ds.drop k) = (bits w ds).drop (w * k) := by
  have h : bits w ds = bits w (ds.take k) ++ bits w (ds.drop k) := by
    rw [← bits_append, List.take_append_drop]
  by_cases hk : k ≤ ds.length
  · have hl : (bits w (ds.take k)).length = w * k := by simp [List.length_take, Nat.min_eq_left hk]
    rw [h, List.drop_append_of_le_length (by omega),
      List.drop_of_length_le (l := bits w (ds.take k)) (by omega), List.nil_append]
  · have : w * ds.length ≤ w * k := Nat.mul_le_mul_left _ (by omega)
    rw [List.drop_of_length_le (by omega), List.drop_of_length_le (by simpa using this)]
    rfl

end Verif
