import Verif.Thold.Spec

/-! # The satisfaction loops compute the specified sums -/

namespace Verif.Thold

theorem range_sum_succ (f : Nat → Rat) (n : Nat) :
    ((List.range (n + 1)).map f).sum = f 0 + ((List.range n).map fun j => f (j + 1)).sum := by
  rw [List.range_succ_eq_map]
  simp [List.map_map, Function.comp_def]

theorem groupWeight_cons (S : Nat → Bool) (off : Nat) (w : Rat) (ws : List Rat) :
    groupWeight S off (w :: ws) = (if S off then w else 0) + groupWeight S (off + 1) ws := by
  unfold groupWeight
  rw [List.length_cons, range_sum_succ]
  simp [Nat.add_assoc, Nat.add_comm 1]

theorem clauseWeight_cons (S : Nat → Bool) (off : Nat) (e : Elt) (c : List Elt) :
    clauseWeight S off (e :: c) = eltWeight S off e + clauseWeight S (off + e.leaves) c := by
  unfold clauseWeight
  rw [List.length_cons, range_sum_succ]
  simp [eltStart, Nat.add_assoc]

theorem groupLoop_eq (sats : List Bool) (ws : List Rat) (wio : Nat) (vw : Rat) :
    groupLoop sats ws wio vw = (vw + groupWeight (fun i => sats.getD i false) wio ws, wio + ws.length) := by
  induction ws generalizing wio vw with
  | nil => simp [groupLoop, groupWeight, Rat.add_zero]
  | cons w ws ih =>
    rw [groupLoop, ih, groupWeight_cons]
    simp only [List.length_cons, Prod.mk.injEq]
    constructor
    · split <;> grind
    · omega

theorem clauseLoop_eq (sats : List Bool) (c : List Elt) (wio : Nat) (cw : Rat) :
    clauseLoop sats c wio cw =
      (cw + clauseWeight (fun i => sats.getD i false) wio c, wio + clauseLeaves c) := by
  induction c generalizing wio cw with
  | nil => simp [clauseLoop, clauseWeight, clauseLeaves, Rat.add_zero]
  | cons e c ih =>
    cases e with
    | wt w =>
      rw [clauseLoop, ih, clauseWeight_cons]
      simp only [clauseLeaves, List.map_cons, List.sum_cons, Prod.mk.injEq, eltWeight, Elt.leaves]
      constructor
      · split <;> grind
      · omega
    | grp k ws =>
      rw [clauseLoop, groupLoop_eq]
      simp only [Rat.zero_add]
      rw [ih, clauseWeight_cons]
      simp only [clauseLeaves, List.map_cons, List.sum_cons, Prod.mk.injEq, eltWeight, Elt.leaves]
      constructor
      · split <;> grind
      · omega

theorem clausesLoop_iff (sats : List Bool) (cs : List (List Elt)) (wio : Nat) :
    clausesLoop sats cs wio = true ↔
      ∀ i, i < cs.length → clauseWeight (fun i => sats.getD i false) (wio + clauseStart cs i) (cs.getD i []) ≥ 1 := by
  induction cs generalizing wio with
  | nil => simp [clausesLoop]
  | cons c cs ih =>
    rw [clausesLoop, clauseLoop_eq]
    simp only [Rat.zero_add]
    constructor
    · intro h i hi
      split at h
      · exact absurd h (by simp)
      · rename_i hge
        rw [ih] at h
        cases i with
        | zero => simp only [clauseStart, List.take_zero, List.map_nil, List.sum_nil, Nat.add_zero]
                  simpa using Rat.not_lt.mp hge
        | succ i =>
          have := h i (by simpa using hi)
          simpa [clauseStart, Nat.add_assoc] using this
    · intro h
      have h0 := h 0 (by simp)
      rw [if_neg (by simpa [clauseStart] using Rat.not_lt.mpr h0), ih]
      intro i hi
      have := h (i + 1) (by simpa using hi)
      simpa [clauseStart, Nat.add_assoc] using this

theorem foldl_leaves (c : List Elt) (s : Nat) : c.foldl (fun s e => s + e.leaves) s = s + clauseLeaves c := by
  induction c generalizing s with
  | nil => simp [clauseLeaves]
  | cons e c ih => rw [List.foldl_cons, ih]; simp [clauseLeaves, Nat.add_assoc]

theorem size_wtd (cs : List (List Elt)) : size (.wtd cs) = totalLeaves cs := by
  have : ∀ s, cs.foldl (fun s c => c.foldl (fun s e => s + e.leaves) s) s = s + totalLeaves cs := by
    induction cs with
    | nil => simp [totalLeaves]
    | cons c cs ih => intro s; rw [List.foldl_cons, foldl_leaves, ih]; simp [totalLeaves, Nat.add_assoc]
  simpa [size] using this 0

theorem setSats_eq (is : List Nat) (sats : List Bool) :
    setSats is sats = if ∀ i ∈ is, i < sats.length then some (is.foldl (fun a i => a.set i true) sats) else none := by
  induction is generalizing sats with
  | nil => simp [setSats]
  | cons i is ih =>
    rw [setSats]
    by_cases h : i < sats.length
    · rw [if_pos h, ih]; simp [h]
    · rw [if_neg h, if_neg]; simp; intro h'; exact absurd h' h

theorem foldl_set_getD (is : List Nat) (sats : List Bool) (h : ∀ i ∈ is, i < sats.length) (k : Nat) :
    (is.foldl (fun a i => a.set i true) sats).getD k false = (decide (k ∈ is) || sats.getD k false) := by
  induction is generalizing sats with
  | nil => simp
  | cons i is ih =>
    have hi : i < sats.length := h i (by simp)
    rw [List.foldl_cons, ih _ (by intro j hj; simpa using h j (by simp [hj]))]
    by_cases hk : k = i
    · subst hk; simp [hi]
    · simp [Ne.symm hk, hk]

theorem replicate_getD (n k : Nat) : (List.replicate n false).getD k false = false := by
  simp [List.getD_eq_getElem?_getD, List.getElem?_replicate]; split <;> rfl

theorem satisfyWtd_iff (cs : List (List Elt)) (is : List Nat) :
    satisfyWtd cs is = true ↔
      is ≠ [] ∧ (∀ i ∈ is, i < totalLeaves cs) ∧ Satisfied cs (fun i => decide (i ∈ is)) := by
  unfold satisfyWtd
  by_cases he : is = []
  · simp [he]
  rw [if_neg he, setSats_eq, size_wtd, List.length_replicate]
  by_cases hb : ∀ i ∈ is, i < totalLeaves cs
  · rw [if_pos hb]
    simp only [clausesLoop_iff, Nat.zero_add]
    have : (fun i => (is.foldl (fun a i => a.set i true) (List.replicate (totalLeaves cs) false)).getD i false)
        = fun i => decide (i ∈ is) := by
      funext k
      rw [foldl_set_getD _ _ (by simpa using hb), replicate_getD]; simp
    rw [this]
    exact ⟨fun h => ⟨he, hb, h⟩, fun h => h.2.2⟩
  · rw [if_neg hb]; simp only [Bool.false_eq_true, false_iff]; exact fun h => hb h.2.1

/-! ## Monotonicity of the sums -/

theorem sum_map_le {α} (l : List α) (f g : α → Rat) (h : ∀ x ∈ l, f x ≤ g x) : (l.map f).sum ≤ (l.map g).sum := by
  induction l with
  | nil => simp
  | cons x l ih =>
    have h1 := h x (by simp)
    have h2 := ih (fun y hy => h y (by simp [hy]))
    simp only [List.map_cons, List.sum_cons]
    grind

theorem groupWeight_mono (S T : Nat → Bool) (hST : ∀ i, S i = true → T i = true) (off : Nat) (ws : List Rat)
    (hw : ∀ w ∈ ws, 0 ≤ w) : groupWeight S off ws ≤ groupWeight T off ws := by
  unfold groupWeight
  apply sum_map_le
  intro j hj
  have hj : j < ws.length := by simpa using hj
  have h0 : 0 ≤ ws.getD j 0 := by
    rw [List.getD_eq_getElem?_getD, List.getElem?_eq_getElem hj]; exact hw _ (List.getElem_mem hj)
  have := hST (off + j)
  cases hS : S (off + j) <;> cases hT : T (off + j) <;> simp_all

theorem eltWeight_mono (S T : Nat → Bool) (hST : ∀ i, S i = true → T i = true) (off : Nat) (e : Elt)
    (he : e.NonNeg) : eltWeight S off e ≤ eltWeight T off e := by
  cases e with
  | wt w =>
    have := hST off
    simp only [Elt.NonNeg] at he
    cases hS : S off <;> cases hT : T off <;> simp_all [eltWeight]
  | grp k ws =>
    have hm := groupWeight_mono S T hST off ws he.2
    have hk := he.1
    simp only [eltWeight]
    split <;> split <;> grind

theorem clauseWeight_mono (S T : Nat → Bool) (hST : ∀ i, S i = true → T i = true) (off : Nat) (c : List Elt)
    (hc : ∀ e ∈ c, e.NonNeg) : clauseWeight S off c ≤ clauseWeight T off c := by
  unfold clauseWeight
  apply sum_map_le
  intro j hj
  have hj : j < c.length := by simpa using hj
  apply eltWeight_mono _ _ hST
  rw [List.getD_eq_getElem?_getD, List.getElem?_eq_getElem hj]
  exact hc _ (List.getElem_mem hj)

theorem satisfied_mono (cs : List (List Elt)) (hn : NonNeg cs) (S T : Nat → Bool)
    (hST : ∀ i, S i = true → T i = true) (h : Satisfied cs S) : Satisfied cs T := by
  intro i hi
  have h1 := h i hi
  have h2 := clauseWeight_mono S T hST (clauseStart cs i) (cs.getD i []) (by
    rw [List.getD_eq_getElem?_getD, List.getElem?_eq_getElem hi]
    exact hn _ (List.getElem_mem hi))
  grind

end Verif.Thold
