import Verif.Mad.Said

/-! # Deciding equality of values, for the examples -/

namespace Verif.Mad

mutual
def beqVal : Val → Val → Bool
  | .null, .null => true
  | .bool a, .bool b => a == b
  | .num a, .num b => a == b
  | .text a, .text b => a == b
  | .list a, .list b => beqVals a b
  | .map a, .map b => beqFlds a b
  | _, _ => false

def beqVals : List Val → List Val → Bool
  | [], [] => true
  | a :: r, b :: s => beqVal a b && beqVals r s
  | _, _ => false

def beqFlds : List (List Char × Val) → List (List Char × Val) → Bool
  | [], [] => true
  | (k, a) :: r, (l, b) :: s => k == l && beqVal a b && beqFlds r s
  | _, _ => false
end

mutual
theorem beqVal_iff : ∀ a b : Val, beqVal a b = true ↔ a = b
  | .null, b => by cases b <;> simp [beqVal]
  | .bool a, b => by cases b <;> simp [beqVal]
  | .num a, b => by cases b <;> simp [beqVal]
  | .text a, b => by cases b <;> simp [beqVal]
  | .list a, b => by
    cases b with
    | list b => simp [beqVal, beqVals_iff a b]
    | _ => simp [beqVal]
  | .map a, b => by
    cases b with
    | map b => simp [beqVal, beqFlds_iff a b]
    | _ => simp [beqVal]

theorem beqVals_iff : ∀ a b : List Val, beqVals a b = true ↔ a = b
  | [], b => by cases b <;> simp [beqVals]
  | a :: r, b => by
    cases b with
    | nil => simp [beqVals]
    | cons b s => simp [beqVals, beqVal_iff a b, beqVals_iff r s]

theorem beqFlds_iff : ∀ a b : List (List Char × Val), beqFlds a b = true ↔ a = b
  | [], b => by cases b <;> simp [beqFlds]
  | (k, a) :: r, b => by
    cases b with
    | nil => simp [beqFlds]
    | cons b s =>
      obtain ⟨l, b⟩ := b
      simp [beqFlds, beqVal_iff a b, beqFlds_iff r s, and_assoc]
end

instance : DecidableEq Val := fun a b => decidable_of_iff _ (beqVal_iff a b)

end Verif.Mad
