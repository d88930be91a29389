/-!
# Positional notation, most significant digit first

Shared vocabulary for Base64 (base 64), byte strings (base 256) and hexadecimal (base 16).
Nothing here mirrors a particular function of the code; Python's `int.from_bytes(b, 'big')` is
`ofDigits 256` and `n.to_bytes(w, 'big')` (for `n < 256^w`) is `toDigits 256 w n`.
-/

namespace Verif

/-- Value of a big-endian digit list. -/
def ofDigits (b : Nat) (ds : List Nat) : Nat := ds.foldl (fun a d => a * b + d) 0

/-- The last `w` base-`b` digits of `n`, big-endian, left padded with zeros. -/
def toDigits (b : Nat) : Nat → Nat → List Nat
  | 0, _ => []
  | w + 1, n => toDigits b w (n / b) ++ [n % b]

/-- All entries are below `b`. -/
def AllLt (b : Nat) (ds : List Nat) : Prop := ∀ d ∈ ds, d < b

instance (b : Nat) (ds : List Nat) : Decidable (AllLt b ds) :=
  inferInstanceAs (Decidable (∀ d ∈ ds, d < b))

/-- Reverse list induction. -/
theorem list_concat_induction {α : Type _} {motive : List α → Prop} (l : List α) (nil : motive [])
    (concat : ∀ xs x, motive xs → motive (xs ++ [x])) : motive l := by
  have h : ∀ r : List α, motive r.reverse := by
    intro r
    induction r with
    | nil => simpa
    | cons a t ih => simpa using concat _ a ih
  simpa using h l.reverse

@[simp] theorem allLt_nil (b : Nat) : AllLt b [] := by simp [AllLt]

@[simp] theorem allLt_cons (b d : Nat) (ds : List Nat) :
    AllLt b (d :: ds) ↔ d < b ∧ AllLt b ds := by simp [AllLt]

@[simp] theorem allLt_append (b : Nat) (xs ys : List Nat) :
    AllLt b (xs ++ ys) ↔ AllLt b xs ∧ AllLt b ys := by
  simp [AllLt, or_imp, forall_and]

theorem AllLt.take {b : Nat} {xs : List Nat} (h : AllLt b xs) (n : Nat) : AllLt b (xs.take n) :=
  fun d hd => h d (List.mem_of_mem_take hd)

theorem AllLt.drop {b : Nat} {xs : List Nat} (h : AllLt b xs) (n : Nat) : AllLt b (xs.drop n) :=
  fun d hd => h d (List.mem_of_mem_drop hd)

theorem allLt_replicate_zero {b : Nat} (hb : 0 < b) (n : Nat) : AllLt b (List.replicate n 0) := by
  intro d hd
  simp [List.mem_replicate] at hd
  omega

@[simp] theorem ofDigits_nil (b : Nat) : ofDigits b [] = 0 := rfl

@[simp] theorem ofDigits_singleton (b d : Nat) : ofDigits b [d] = d := by simp [ofDigits]

theorem ofDigits_concat (b : Nat) (xs : List Nat) (d : Nat) :
    ofDigits b (xs ++ [d]) = ofDigits b xs * b + d := by
  simp [ofDigits, List.foldl_append]

theorem ofDigits_append (b : Nat) (xs ys : List Nat) :
    ofDigits b (xs ++ ys) = ofDigits b xs * b ^ ys.length + ofDigits b ys := by
  induction ys using list_concat_induction with
  | nil => simp
  | concat ys d ih =>
    rw [← List.append_assoc, ofDigits_concat, ih, ofDigits_concat]
    simp [Nat.pow_succ]
    grind

theorem ofDigits_cons (b d : Nat) (ds : List Nat) :
    ofDigits b (d :: ds) = d * b ^ ds.length + ofDigits b ds := by
  have := ofDigits_append b [d] ds
  simpa using this

theorem ofDigits_lt {b : Nat} {ds : List Nat} (h : AllLt b ds) : ofDigits b ds < b ^ ds.length := by
  induction ds using list_concat_induction with
  | nil => simp
  | concat ds d ih =>
    rw [ofDigits_concat]
    simp at h
    have := ih h.1
    have h2 : (ofDigits b ds + 1) * b ≤ b ^ ds.length * b := Nat.mul_le_mul_right _ this
    simp [Nat.pow_succ]
    have h3 : (ofDigits b ds + 1) * b = ofDigits b ds * b + b := by grind
    omega

@[simp] theorem ofDigits_replicate_zero (b n : Nat) : ofDigits b (List.replicate n 0) = 0 := by
  induction n with
  | zero => simp
  | succ n ih => rw [List.replicate_succ, ofDigits_cons, ih]; simp

theorem ofDigits_zeros_append (b n : Nat) (ds : List Nat) :
    ofDigits b (List.replicate n 0 ++ ds) = ofDigits b ds := by
  rw [ofDigits_append]; simp

@[simp] theorem toDigits_length (b w n : Nat) : (toDigits b w n).length = w := by
  induction w generalizing n with
  | zero => rfl
  | succ w ih => simp [toDigits, ih]

theorem toDigits_allLt {b : Nat} (hb : 0 < b) (w n : Nat) : AllLt b (toDigits b w n) := by
  induction w generalizing n with
  | zero => simp [toDigits]
  | succ w ih => simp [toDigits, ih, Nat.mod_lt _ hb]

theorem ofDigits_toDigits (b w n : Nat) : ofDigits b (toDigits b w n) = n % b ^ w := by
  induction w generalizing n with
  | zero => simp [toDigits, Nat.mod_one]
  | succ w ih =>
    rw [toDigits, ofDigits_concat, ih, Nat.pow_succ, Nat.mul_comm (b ^ w) b, Nat.mod_mul]
    grind

theorem ofDigits_toDigits_of_lt {b w n : Nat} (h : n < b ^ w) : ofDigits b (toDigits b w n) = n := by
  rw [ofDigits_toDigits, Nat.mod_eq_of_lt h]

theorem toDigits_ofDigits {b : Nat} {ds : List Nat} (h : AllLt b ds) :
    toDigits b ds.length (ofDigits b ds) = ds := by
  induction ds using list_concat_induction with
  | nil => rfl
  | concat ds d ih =>
    simp at h
    rw [ofDigits_concat]
    simp only [List.length_append, List.length_singleton, toDigits]
    have hb : 0 < b := by omega
    have e1 : (ofDigits b ds * b + d) / b = ofDigits b ds := by
      rw [Nat.add_comm, Nat.add_mul_div_right _ _ hb, Nat.div_eq_of_lt h.2]; simp
    have e2 : (ofDigits b ds * b + d) % b = d := by
      rw [Nat.add_comm, Nat.add_mul_mod_self_right, Nat.mod_eq_of_lt h.2]
    rw [e1, e2, ih h.1]

/-- Two digit lists of equal length with equal value are equal. -/
theorem ofDigits_inj {b : Nat} {xs ys : List Nat} (hx : AllLt b xs) (hy : AllLt b ys)
    (hl : xs.length = ys.length) (h : ofDigits b xs = ofDigits b ys) : xs = ys := by
  rw [← toDigits_ofDigits hx, ← toDigits_ofDigits hy, hl, h]

theorem toDigits_add (b w1 w2 n : Nat) :
    toDigits b (w1 + w2) n = toDigits b w1 (n / b ^ w2) ++ toDigits b w2 n := by
  induction w2 generalizing n with
  | zero => simp [toDigits]
  | succ w2 ih =>
    rw [← Nat.add_assoc, toDigits, ih, toDigits, List.append_assoc, Nat.pow_succ,
      Nat.mul_comm (b ^ w2) b, Nat.div_div_eq_div_mul]

theorem toDigits_zero (b w : Nat) : toDigits b w 0 = List.replicate w 0 := by
  induction w with
  | zero => rfl
  | succ w ih => simp [toDigits, ih, List.replicate_succ']

theorem toDigits_of_lt_pow {b w1 w2 n : Nat} (h : n < b ^ w2) :
    toDigits b (w1 + w2) n = List.replicate w1 0 ++ toDigits b w2 n := by
  rw [toDigits_add, Nat.div_eq_of_lt h, toDigits_zero]

theorem toDigits_mul_pow_add {b w1 w2 m n : Nat} (h : n < b ^ w2) :
    toDigits b (w1 + w2) (m * b ^ w2 + n) = toDigits b w1 m ++ toDigits b w2 n := by
  have hp : 0 < b ^ w2 := by omega
  rw [toDigits_add]
  congr 1
  · rw [Nat.add_comm, Nat.add_mul_div_right _ _ hp, Nat.div_eq_of_lt h, Nat.zero_add]
  · clear hp
    have key : ∀ (w n m : Nat), n < b ^ w → toDigits b w (m * b ^ w + n) = toDigits b w n := by
      intro w
      induction w with
      | zero => intros; rfl
      | succ w ih =>
        intro n m hn
        have hb : 0 < b := by
          rcases Nat.eq_zero_or_pos b with rfl | h'
          · simp at hn
          · exact h'
        simp only [toDigits]
        have e : m * b ^ (w + 1) + n = n + (m * b ^ w) * b := by rw [Nat.pow_succ]; grind
        rw [e, Nat.add_mul_div_right _ _ hb, Nat.add_mul_mod_self_right,
          Nat.add_comm (n / b), ih (n / b) m]
        rw [Nat.pow_succ] at hn
        exact Nat.div_lt_of_lt_mul (by rw [Nat.mul_comm]; exact hn)
    exact key w2 n m h

end Verif
