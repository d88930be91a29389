/-!
# Tables

A sub-database or a dict as the list of its entries.  `pin` keeps the place of an entry that is replaced; where the order of entries matters the
code has the order of keys, see the comments at the places of use.
-/

namespace Verif.Krm

abbrev Tab (κ ν : Type) := List (κ × ν)

variable {κ ν : Type} [DecidableEq κ]

def Tab.get (t : Tab κ ν) (k : κ) : Option ν := (t.find? (fun e => e.1 = k)).map (·.2)

def Tab.pin : Tab κ ν → κ → ν → Tab κ ν
  | [], k, v => [(k, v)]
  | e :: t, k, v => if e.1 = k then (k, v) :: t else e :: Tab.pin t k v

/-- Without overwriting. -/
def Tab.put (t : Tab κ ν) (k : κ) (v : ν) : Tab κ ν := if (Tab.get t k).isSome then t else Tab.pin t k v

def Tab.rem (t : Tab κ ν) (k : κ) : Tab κ ν := t.filter (fun e => e.1 ≠ k)

/-- Entries under a key. -/
def Tab.items {ν : Type} (t : Tab κ (List ν)) (k : κ) : List ν := (Tab.get t k).getD []

theorem get_nil (k : κ) : Tab.get ([] : Tab κ ν) k = none := rfl

theorem get_cons (e : κ × ν) (t : Tab κ ν) (k : κ) : Tab.get (e :: t) k = if e.1 = k then some e.2 else Tab.get t k := by
  unfold Tab.get
  by_cases h : e.1 = k <;> simp [List.find?_cons, h]

theorem get_pin (t : Tab κ ν) (k : κ) (v : ν) (k' : κ) : Tab.get (Tab.pin t k v) k' = if k = k' then some v else Tab.get t k' := by
  induction t with
  | nil => simp [Tab.pin, get_cons, get_nil]
  | cons e t ih =>
    unfold Tab.pin
    by_cases h : e.1 = k
    · rw [if_pos h, get_cons, get_cons]
      by_cases h2 : k = k'
      · simp [h2]
      · simp [h2, h]
    · rw [if_neg h, get_cons, get_cons, ih]
      by_cases h2 : e.1 = k'
      · have : k ≠ k' := fun h3 => h (h2.trans h3.symm)
        simp [h2, this]
      · simp [h2]

theorem get_rem (t : Tab κ ν) (k k' : κ) : Tab.get (Tab.rem t k) k' = if k = k' then none else Tab.get t k' := by
  induction t with
  | nil => simp [Tab.rem, get_nil]
  | cons e t ih =>
    unfold Tab.rem at ih ⊢
    by_cases h : e.1 = k
    · rw [List.filter_cons_of_neg (by simp [h]), ih, get_cons]
      by_cases h2 : k = k'
      · simp [h2]
      · simp [h2, h]
    · rw [List.filter_cons_of_pos (by simp [h]), get_cons, get_cons, ih]
      by_cases h2 : e.1 = k'
      · have : k ≠ k' := fun h3 => h (h2.trans h3.symm)
        simp [h2, this]
      · simp [h2]

theorem get_put (t : Tab κ ν) (k : κ) (v : ν) (k' : κ) :
    Tab.get (Tab.put t k v) k' = if k = k' ∧ Tab.get t k = none then some v else Tab.get t k' := by
  unfold Tab.put
  cases h : Tab.get t k with
  | none =>
    rw [if_neg (by simp), get_pin]
    simp
  | some a => simp

theorem get_mem {t : Tab κ ν} {k : κ} {v : ν} (h : Tab.get t k = some v) : (k, v) ∈ t := by
  unfold Tab.get at h
  rw [Option.map_eq_some_iff] at h
  obtain ⟨a, h1, h2⟩ := h
  have := List.find?_some h1
  have h3 : a.1 = k := by simpa using this
  have := List.mem_of_find?_eq_some h1
  rw [← h3, ← h2]
  exact this

theorem get_of_mem {t : Tab κ ν} {k : κ} {v : ν} (h : (k, v) ∈ t) : ∃ w, Tab.get t k = some w := by
  induction t with
  | nil => simp at h
  | cons e t ih =>
    rw [get_cons]
    by_cases h2 : e.1 = k
    · exact ⟨_, if_pos h2⟩
    · rw [if_neg h2]
      rcases List.mem_cons.1 h with h3 | h3
      · exact absurd (by rw [← h3]) h2
      · exact ih h3

end Verif.Krm
