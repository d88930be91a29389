import Verif.Thold.Lemmas

/-! # Signing thresholds: properties C10 to C13 and C15 -/

namespace Verif.Thold

/-! ## C10 -/

/-- **C10.** A numeric threshold `m` is satisfied by a set of signer positions exactly when `m` is positive and the set
has at least `m` members. -/
theorem c10_numeric (m : Nat) (is : List Nat) (hnd : is.Nodup) :
    make (.num m) = .ok (.num m) ∧ size (.num m) = m ∧
    (satisfy (.num m) is = true ↔
      0 < m ∧ ∃ signers : List Nat, signers.Nodup ∧ signers.length = m ∧ ∀ i ∈ signers, i ∈ is) := by
  refine ⟨rfl, rfl, ?_⟩
  simp only [satisfy, satisfyNum, decide_eq_true_eq]
  constructor
  · rintro ⟨h0, hm⟩
    exact ⟨h0, is.take m, hnd.sublist (List.take_sublist _ _), by simp; omega, fun i => List.mem_of_mem_take⟩
  · rintro ⟨h0, signers, hs, hl, hm⟩
    exact ⟨h0, by have := hs.length_le_of_subset hm; omega⟩

/-- The zero threshold (allowed for "next" thresholds) is satisfied by nothing. -/
theorem c10_zero_never (is : List Nat) : satisfy (.num 0) is = false := by simp [satisfy, satisfyNum]

example : satisfy (.num 2) [0, 2] = true := by decide +kernel
example : satisfy (.num 3) [0, 2] = false := by decide +kernel

/-! ## C11 -/

/-- **C11.** A weighted threshold is satisfied by a list of signer positions exactly when the list is nonempty, names only
positions of the threshold, and in every clause the weights of the signed positions add up to at least one, a nested
group contributing its own weight when its members' weights reach one. -/
theorem c11_weighted (cs : List (List Elt)) (is : List Nat) :
    satisfy (.wtd cs) is = true ↔
      is ≠ [] ∧ (∀ i ∈ is, i < totalLeaves cs) ∧ Satisfied cs (fun i => decide (i ∈ is)) :=
  satisfyWtd_iff cs is

theorem sumR_eq (ws : List Rat) : sumR ws = ws.sum := by
  have : ∀ a, ws.foldl (fun a w => a + w) a = a + ws.sum := by
    induction ws with
    | nil => intro a; simp [Rat.add_zero]
    | cons w ws ih => intro a; rw [List.foldl_cons, ih]; simp [Rat.add_assoc]
  rw [sumR, this, Rat.zero_add]

/-- A group all of whose members signed collects the sum of its weights. -/
theorem groupWeight_all (off : Nat) (ws : List Rat) : groupWeight (fun _ => true) off ws = ws.sum := by
  induction ws generalizing off with
  | nil => rfl
  | cons w ws ih => rw [groupWeight_cons, ih]; simp

theorem groupWeight_congr (S T : Nat → Bool) (off : Nat) (ws : List Rat)
    (h : ∀ j, j < ws.length → S (off + j) = T (off + j)) : groupWeight S off ws = groupWeight T off ws := by
  unfold groupWeight
  congr 1
  apply List.map_congr_left
  intro j hj
  rw [h j (by simpa using hj)]

theorem clauseWeight_all (S : Nat → Bool) (off : Nat) (c : List Elt)
    (hS : ∀ i, off ≤ i → i < off + clauseLeaves c → S i = true)
    (hg : ∀ k ws, Elt.grp k ws ∈ c → ws.sum ≥ 1) :
    clauseWeight S off c = (c.map Elt.top).sum := by
  induction c generalizing off with
  | nil => rfl
  | cons e c ih =>
    rw [clauseWeight_cons, List.map_cons, List.sum_cons, ih]
    · congr 1
      cases e with
      | wt w =>
        simp only [eltWeight, Elt.top]
        rw [if_pos (hS off (by omega) (by simp [clauseLeaves, Elt.leaves]; omega))]
      | grp k ws =>
        simp only [eltWeight, Elt.top]
        rw [groupWeight_congr S (fun _ => true), groupWeight_all, if_pos (hg k ws (by simp))]
        intro j hj
        exact hS _ (by omega) (by simp [clauseLeaves, Elt.leaves]; omega)
    · intro i h1 h2
      exact hS i (by omega) (by simp [clauseLeaves] at *; omega)
    · intro k ws h; exact hg k ws (by simp [h])

theorem clauseStart_add_le (cs : List (List Elt)) (i : Nat) (h : i < cs.length) :
    clauseStart cs i + clauseLeaves (cs.getD i []) ≤ totalLeaves cs := by
  induction cs generalizing i with
  | nil => simp at h
  | cons c cs ih =>
    cases i with
    | zero => simp [clauseStart, totalLeaves]
    | succ i =>
      have := ih i (by simpa using h)
      simp [clauseStart, totalLeaves] at *
      omega

/-- **C11.** A weighted threshold the constructor accepts can be satisfied: if every position signs (and there is one),
the threshold is met. -/
theorem c11_all_sign (cs cs' : List (List Elt)) (hmk : make (.wtd cs) = .ok (.wtd cs')) (hpos : 0 < totalLeaves cs) :
    cs' = cs ∧ satisfy (.wtd cs') (List.range (size (.wtd cs'))) = true := by
  simp only [make] at hmk
  split at hmk
  · rename_i hc
    injection hmk with h; injection h with h; subst h
    refine ⟨rfl, ?_⟩
    rw [c11_weighted, size_wtd]
    refine ⟨by simp; omega, by simp, ?_⟩
    intro i hi
    have hle := clauseStart_add_le cs i hi
    have hmem : cs.getD i [] ∈ cs := by
      rw [List.getD_eq_getElem?_getD, List.getElem?_eq_getElem hi]; exact List.getElem_mem hi
    have hcl := List.all_eq_true.mp hc _ hmem
    simp only [Bool.and_eq_true, List.all_eq_true, decide_eq_true_eq, sumR_eq] at hcl
    rw [clauseWeight_all]
    · exact hcl.2
    · intro j _ hj; simp; omega
    · intro k ws hk; simpa using hcl.1 _ hk
  · exact absurd hmk (by simp)

/-- Two clauses, the second with a nested group: `[1/2,1/2,1/2], [1/2, {1/2: [1/2,1/2]}]`. -/
def sampleW : List (List Elt) :=
  [[.wt (1/2), .wt (1/2), .wt (1/2)], [.wt (1/2), .grp (1/2) [1/2, 1/2]]]

example : make (.wtd sampleW) = .ok (.wtd sampleW) := by decide +kernel
example : totalLeaves sampleW = 6 := by decide +kernel
example : satisfy (.wtd sampleW) [5, 0, 2, 4, 3] = true := by decide +kernel
example : satisfy (.wtd sampleW) [5, 0, 2, 3] = false := by decide +kernel
example : make (.wtd [[.wt (1/2), .wt (1/3)]]) = .error .valueError := by decide +kernel

/-! ## C12 -/

/-- **C12, false as stated.** A valid further signature can undo satisfaction: a key beyond the last weight (an
establishment event may list more keys than weights) makes the weighted check fail. -/
theorem c12_not_monotone : ∃ (cs : List (List Elt)) (is : List Nat) (i : Nat),
    make (.wtd cs) = .ok (.wtd cs) ∧ satisfy (.wtd cs) is = true ∧ i ∉ is ∧ satisfy (.wtd cs) (i :: is) = false :=
  ⟨[[.wt 1]], [0], 1, by decide +kernel⟩

/-- **C12 (partial).** Adding signatures keeps a threshold satisfied, provided weights are not negative and, for weighted
thresholds, the added positions are positions of the threshold. Missing: positions beyond the last weight,
for which `c12_not_monotone` shows the claim fails. -/
theorem c12_monotone_partial (t : Thold) (is js : List Nat) (hsub : ∀ i ∈ is, i ∈ js) (hnd : is.Nodup)
    (hpos : ∀ cs, t = .wtd cs → NonNeg cs ∧ ∀ j ∈ js, j < size t)
    (h : satisfy t is = true) : satisfy t js = true := by
  cases t with
  | num m =>
    simp only [satisfy, satisfyNum, decide_eq_true_eq] at h ⊢
    have : is.length ≤ js.length := hnd.length_le_of_subset hsub
    exact ⟨h.1, by omega⟩
  | wtd cs =>
    obtain ⟨hn, hj⟩ := hpos cs rfl
    rw [c11_weighted] at h ⊢
    rw [size_wtd] at hj
    refine ⟨?_, hj, satisfied_mono cs hn _ _ (by intro i; simpa using hsub i) h.2.2⟩
    intro he
    obtain ⟨i, hi⟩ := List.exists_mem_of_ne_nil is h.1
    have := hsub i hi
    simp [he] at this

/-- Appending, with repetitions allowed, never undoes a numeric threshold. -/
theorem c12_numeric_append (m : Nat) (is js : List Nat) (h : satisfy (.num m) is = true) :
    satisfy (.num m) (is ++ js) = true := by
  simp only [satisfy, satisfyNum, decide_eq_true_eq, List.length_append] at h ⊢
  omega

example : NonNeg sampleW := by
  intro c hc e he
  simp only [sampleW, List.mem_cons, List.not_mem_nil, or_false] at hc
  rcases hc with rfl | rfl <;> simp only [List.mem_cons, List.not_mem_nil, or_false] at he <;>
    (try rcases he with rfl | rfl | rfl) <;> (try rcases he with rfl | rfl) <;> simp only [Elt.NonNeg] <;>
    (try decide +kernel)

/-! ## C13 -/

/-- **C13, false as stated.** For numeric thresholds the same position counts as often as it is listed. -/
theorem c13_numeric_repeats : ∃ (m : Nat) (is : List Nat),
    satisfy (.num m) is = true ∧ satisfy (.num m) is.eraseDups = false := ⟨2, [0, 0], by decide +kernel⟩

/-- **C13 (partial).** Weighted thresholds depend only on the set of positions, in whatever order and however often
they are listed; numeric thresholds depend only on the set for lists without repetition. Missing: numeric
thresholds over lists with repetition, refuted by `c13_numeric_repeats`. -/
theorem c13_set_only_partial (t : Thold) (is js : List Nat) (hset : ∀ i, i ∈ is ↔ i ∈ js)
    (hnd : ∀ m, t = .num m → is.Nodup ∧ js.Nodup) : satisfy t is = satisfy t js := by
  cases t with
  | num m =>
    obtain ⟨h1, h2⟩ := hnd m rfl
    have hp : is.Perm js := (List.perm_ext_iff_of_nodup h1 h2).mpr hset
    simp [satisfy, satisfyNum, hp.length_eq]
  | wtd cs =>
    apply Bool.eq_iff_iff.mpr
    rw [c11_weighted, c11_weighted]
    have e1 : (fun i => decide (i ∈ is)) = fun i => decide (i ∈ js) := by funext i; simp [hset i]
    have e2 : is = [] ↔ js = [] := by
      simp only [List.eq_nil_iff_forall_not_mem, hset]
    rw [e1]
    simp only [ne_eq, e2, hset]

example : satisfy (.wtd sampleW) [5, 0, 2, 4, 3] = satisfy (.wtd sampleW) [3, 3, 5, 0, 0, 2, 4] :=
  c13_set_only_partial _ _ _ (by simp; omega) (by simp)

/-! ## C15 -/

/-- **C15.** The default witness threshold: at most all witnesses, and for every fault bound `f` the pool supports
(`n ≥ 3 f + 1`), two agreements of that size overlap in more than `f` witnesses and the non-faulty witnesses
alone can reach it. -/
theorem c15_ample (n : Nat) (weak : Bool) :
    ampleDefault n weak ≤ n ∧
    (0 < n → 0 < ampleDefault n weak) ∧
    ∀ f, n ≥ 3 * f + 1 → 2 * ampleDefault n weak > n + f ∧ ampleDefault n weak ≤ n - f := by
  unfold ampleDefault ceilDiv
  cases weak
  · simp only [Bool.false_eq_true, if_false]
    refine ⟨by omega, by omega, fun f hf => ⟨by omega, by omega⟩⟩
  · simp only [if_true]
    refine ⟨by omega, by omega, fun f hf => ⟨by omega, by omega⟩⟩

/-- **C15.** Which threshold is chosen: pools of fewer than four need everyone; otherwise the weak variant takes the smallest
threshold that is immune for every fault bound the pool supports, the strong variant the largest one that the non-faulty
witnesses can always reach. -/
theorem c15_ample_choice (n : Nat) :
    (∀ weak, n < 4 → ampleDefault n weak = n) ∧
    (4 ≤ n → ∀ m, m < ampleDefault n true → ∃ f, n ≥ 3 * f + 1 ∧ 2 * m ≤ n + f) ∧
    (4 ≤ n → ∀ m, ampleDefault n false < m → ∃ f, n ≥ 3 * f + 1 ∧ n - f < m) := by
  unfold ampleDefault ceilDiv
  refine ⟨?_, ?_, ?_⟩
  · intro weak hn
    cases weak
    · simp only [Bool.false_eq_true, if_false]; omega
    · simp only [if_true]; omega
  · intro hn m hm
    simp only [if_true] at hm
    exact ⟨(n - 1) / 3, by omega, by omega⟩
  · intro hn m hm
    simp only [Bool.false_eq_true, if_false] at hm
    exact ⟨(n - 1) / 3, by omega, by omega⟩

/-- **C15.** With an explicit fault bound: whatever is returned for a nonempty pool is immune for that bound, and a bound
the pool supports is never refused. -/
theorem c15_ample_fault (n f : Nat) (weak : Bool) :
    (∀ m, ampleFault n f weak = .ok m → 0 < n → m ≤ n ∧ 2 * m > n + f ∧ m ≤ n - f) ∧
    (n ≥ 3 * f + 1 → ∃ m, ampleFault n f weak = .ok m) := by
  unfold ampleFault ceilDiv
  constructor
  · intro m h hn
    simp only at h
    split at h
    · exact absurd h (by simp)
    · split at h <;> (injection h with h; omega)
  · intro h
    simp only
    rw [if_neg (by omega)]
    split <;> exact ⟨_, rfl⟩

/-- **C15.** Agreements really intersect: two sublists of a duplicate-free witness list, each of threshold size, share
more than `f` members. -/
theorem c15_quorums_intersect (wits a b : List Nat) (ha : a.Nodup) (hb : b.Nodup)
    (haw : ∀ x ∈ a, x ∈ wits) (hbw : ∀ x ∈ b, x ∈ wits) (weak : Bool) (f : Nat) (hf : wits.length ≥ 3 * f + 1)
    (hla : a.length ≥ ampleDefault wits.length weak) (hlb : b.length ≥ ampleDefault wits.length weak) :
    (a.filter (fun x => decide (x ∈ b))).length > f := by
  have h := (c15_ample wits.length weak).2.2 f hf
  have hsplit : (a.filter (fun x => decide (x ∈ b))).length + (a.filter (fun x => !decide (x ∈ b))).length = a.length := by
    rw [← List.countP_eq_length_filter, ← List.countP_eq_length_filter]
    have := List.length_eq_countP_add_countP (fun x => decide (x ∈ b)) (l := a)
    simpa using this.symm
  have hun : (a.filter (fun x => !decide (x ∈ b)) ++ b).Nodup := by
    rw [List.nodup_append]
    refine ⟨ha.filter _, hb, ?_⟩
    intro x hx y hy hxy
    subst hxy
    simp at hx
    exact hx.2 hy
  have hle : (a.filter (fun x => !decide (x ∈ b)) ++ b).length ≤ wits.length := by
    apply hun.length_le_of_subset
    intro x hx
    rcases List.mem_append.mp hx with hx | hx
    · exact haw x (List.mem_filter.mp hx).1
    · exact hbw x hx
  simp only [List.length_append] at hle
  omega

example : ampleDefault 10 true = 7 ∧ ampleDefault 4 true = 3 ∧ ampleDefault 9 false = 7 := by decide
example : ampleFault 10 2 true = .ok 7 ∧ ampleFault 4 2 true = .error .valueError := by decide

end Verif.Thold
