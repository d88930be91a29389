import Verif.Mad.CompactOnce

/-! # The loop of `compact` -/

namespace Verif.Mad

theorem setLeaf_get (ls : Leaves) (p q : List Char) (f : Flds) : getKey (setLeaf ls p f) q = if q = p then some f else getKey ls q := by
  induction ls with
  | nil => simp only [setLeaf, getKey_at]
  | cons x r ih =>
    obtain ⟨k, g⟩ := x
    simp only [setLeaf]
    split
    · next e => subst e; simp only [getKey_at]; split <;> rfl
    · next e =>
      simp only [getKey_at, ih]
      by_cases h : q = k
      · subst h; rw [if_pos rfl, if_neg e, if_pos rfl]
      · rw [if_neg h, if_neg h]

/-- The leaves with those of a round. -/
def addLeaves (leaves : Leaves) (xs : List (List Char × Flds)) : Leaves := xs.foldl (fun acc (p : List Char × Flds) => setLeaf acc p.1 p.2) leaves

theorem addLeaves_other {xs : List (List Char × Flds)} {leaves : Leaves} {q : List Char} (h : q ∉ xs.map (·.1)) :
    getKey (addLeaves leaves xs) q = getKey leaves q := by
  induction xs generalizing leaves with
  | nil => rfl
  | cons x r ih =>
    simp only [List.map_cons, List.mem_cons, not_or] at h
    simp only [addLeaves, List.foldl_cons]
    have := ih (leaves := setLeaf leaves x.1 x.2) h.2
    unfold addLeaves at this
    rw [this, setLeaf_get, if_neg h.1]

theorem addLeaves_mem {xs : List (List Char × Flds)} {leaves : Leaves} {q : List Char} {f : Flds} (hn : (xs.map (·.1)).Nodup) (h : (q, f) ∈ xs) :
    getKey (addLeaves leaves xs) q = some f := by
  induction xs generalizing leaves with
  | nil => exact absurd h (by simp)
  | cons x r ih =>
    rw [List.map_cons, List.nodup_cons] at hn
    rw [List.mem_cons] at h
    rcases h with h | h
    · subst h
      have := addLeaves_other (leaves := setLeaf leaves q f) hn.1
      unfold addLeaves at this ⊢
      rw [List.foldl_cons, this, setLeaf_get, if_pos rfl]
    · have := ih (leaves := setLeaf leaves x.1 x.2) hn.2 h
      unfold addLeaves at this ⊢
      rw [List.foldl_cons, this]

section
variable {w : World} {kind : Kind} {saids : Saids}

mutual
theorem trV_free (w : World) (kind : Kind) (saids : Saids) : ∀ (v v1 : Val) (ls : List (List (List Char) × Flds)), Tidy v →
    trV w kind saids v = .ok (v1, ls) → (∀ p ∈ ls, ∀ l ∈ p.1, '.' ∉ l) ∧ (ls.map (·.1)).Nodup
  | .map fs, v1, ls, t, h => by
    rw [Tidy] at t
    rw [trV] at h
    split at h
    · exact absurd h (by simp)
    next fs1 n ls1 hf =>
    obtain ⟨a, b⟩ := trF_free w kind saids fs fs1 n ls1 t.1 t.2 hf
    split at h
    · split at h
      · exact absurd h (by simp)
      simp only [Except.ok.injEq, Prod.mk.injEq] at h
      obtain ⟨rfl, rfl⟩ := h
      refine ⟨?_, ?_⟩
      · intro p hp
        rw [List.mem_append] at hp
        rcases hp with hp | hp
        · exact a p hp
        · simp only [List.mem_singleton] at hp
          subst hp
          simp
      · rw [List.map_append, List.nodup_append]
        refine ⟨b, by simp, ?_⟩
        intro x hx y hy
        simp only [List.map_cons, List.map_nil, List.mem_singleton] at hy
        subst hy
        obtain ⟨q, hq, rfl⟩ := List.mem_map.1 hx
        obtain ⟨k, ps, e, _⟩ := (trF_paths hf).1 q hq
        simp [e]
    · simp only [Except.ok.injEq, Prod.mk.injEq] at h
      obtain ⟨rfl, rfl⟩ := h
      exact ⟨a, b⟩
  | .null, _, _, _, h => by simp only [trV, Except.ok.injEq, Prod.mk.injEq] at h; obtain ⟨_, rfl⟩ := h; simp
  | .bool _, _, _, _, h => by simp only [trV, Except.ok.injEq, Prod.mk.injEq] at h; obtain ⟨_, rfl⟩ := h; simp
  | .num _, _, _, _, h => by simp only [trV, Except.ok.injEq, Prod.mk.injEq] at h; obtain ⟨_, rfl⟩ := h; simp
  | .text _, _, _, _, h => by simp only [trV, Except.ok.injEq, Prod.mk.injEq] at h; obtain ⟨_, rfl⟩ := h; simp
  | .list _, _, _, _, h => by simp only [trV, Except.ok.injEq, Prod.mk.injEq] at h; obtain ⟨_, rfl⟩ := h; simp

theorem trF_free (w : World) (kind : Kind) (saids : Saids) : ∀ (fs fs1 : Flds) (n : Bool) (ls : List (List (List Char) × Flds)),
    (fs.map (·.1)).Nodup → TidyF fs → trF w kind saids fs = .ok (fs1, n, ls) → (∀ p ∈ ls, ∀ l ∈ p.1, '.' ∉ l) ∧ (ls.map (·.1)).Nodup
  | [], _, _, _, _, _, h => by simp only [trF, Except.ok.injEq, Prod.mk.injEq] at h; obtain ⟨_, _, rfl⟩ := h; simp
  | (l, v) :: r, fs1, n, ls, hn, t, h => by
    rw [TidyF] at t
    rw [List.map_cons, List.nodup_cons] at hn
    rw [trF] at h
    split at h
    · exact absurd h (by simp)
    split at h
    · split at h
      · exact absurd h (by simp)
      next v1 ls1 hv =>
      split at h
      · exact absurd h (by simp)
      next r1 n1 ls2 hf =>
      simp only [Except.ok.injEq, Prod.mk.injEq] at h
      obtain ⟨_, _, rfl⟩ := h
      obtain ⟨a1, a2⟩ := trV_free w kind saids v v1 ls1 t.2.1 hv
      obtain ⟨b1, b2⟩ := trF_free w kind saids r r1 n1 ls2 hn.2 t.2.2 hf
      refine ⟨?_, ?_⟩
      · intro p hp
        rw [List.mem_append] at hp
        rcases hp with hp | hp
        · obtain ⟨q, hq, rfl⟩ := List.mem_map.1 hp
          intro x hx
          simp only [List.mem_cons] at hx
          rcases hx with rfl | hx
          · exact t.1
          · exact a1 q hq x hx
        · exact b1 p hp
      · rw [List.map_append, List.nodup_append]
        refine ⟨?_, b2, ?_⟩
        · rw [List.map_map]
          have : (List.map ((fun p : List (List Char) × Flds => p.1) ∘ fun p : List (List Char) × Flds => (l :: p.1, p.2)) ls1) = (ls1.map (·.1)).map (l :: ·) := by
            rw [List.map_map]; rfl
          rw [this]
          unfold List.Nodup at a2 ⊢
          rw [List.pairwise_map]
          exact a2.imp (fun hne e => hne (by injection e))
        · intro x hx y hy e
          subst e
          obtain ⟨q, hq, rfl⟩ := List.mem_map.1 hx
          obtain ⟨q', _, rfl⟩ := List.mem_map.1 hq
          obtain ⟨p, hp, e⟩ := List.mem_map.1 hy
          obtain ⟨k, ps, e', hk⟩ := (trF_paths hf).1 p hp
          rw [e'] at e
          injection e with e _
          subst e
          exact hn.1 hk
    · split at h
      · exact absurd h (by simp)
      next r1 n1 ls2 hf =>
      simp only [Except.ok.injEq, Prod.mk.injEq] at h
      obtain ⟨_, _, rfl⟩ := h
      exact trF_free w kind saids r r1 n1 ls2 hn.2 t.2.2 hf
end

theorem assignAll_eq {leaves : Leaves} : ∀ (ls : List (List (List Char) × Flds)) (mad : Flds), (∀ p ∈ ls, ∀ l ∈ p.1, '.' ∉ l) →
    (∀ p ∈ ls, getKey leaves (pathOf p.1) = some p.2) →
    assignAll saids leaves (ls.map fun p => pathOf p.1) mad = asgAll (given saids ls) mad
  | [], mad, _, _ => rfl
  | (p, f) :: ls, mad, h1, h2 => by
    simp only [List.map_cons, assignAll, given, asgAll]
    have := h2 (p, f) (by simp)
    rw [this]
    dsimp only
    rw [splitDot_path p (h1 (p, f) (by simp)), List.tail_cons]
    cases assign (saidVal saids f) p mad with
    | error e => rfl
    | ok m => exact assignAll_eq ls m (fun q hq => h1 q (by simp [hq])) (fun q hq => h2 q (by simp [hq]))

/-- Once around at the top. -/
def rdTop (w : World) (kind : Kind) (saids : Saids) (mad : Flds) : Except Err (Flds × Bool) :=
  match rdF w kind saids mad with
  | .error e => .error e
  | .ok (fs1, nested) =>
    if anySaid saids mad && !nested then
      match makify w kind true saids fs1 with
      | .error e => .error e
      | .ok (_, fs2, _) => .ok (fs2, true)
    else .ok (fs1, false)

theorem anySaid_of_field {fs : Flds} {l : List Char} {v : Val} (h : (l, v) ∈ fs) (hl : saidLabel saids l = true) : anySaid saids fs = true := by
  unfold saidLabel at hl
  unfold anySaid
  rw [List.any_eq_true]
  cases hg : getKey saids l with
  | none => rw [hg] at hl; exact absurd hl (by simp)
  | some c =>
    refine ⟨(l, c), getKey_mem hg, ?_⟩
    dsimp only
    cases hf : getKey fs l with
    | some _ => rfl
    | none => exact absurd (List.mem_map.2 ⟨_, h, rfl⟩) (getKey_none.1 hf)

theorem anySaid_field {fs : Flds} (h : anySaid saids fs = true) : ∃ l v, (l, v) ∈ fs ∧ saidLabel saids l = true := by
  unfold anySaid at h
  rw [List.any_eq_true] at h
  obtain ⟨p, hp, h⟩ := h
  cases hg : getKey fs p.1 with
  | none => rw [hg] at h; exact absurd h (by simp)
  | some v =>
    refine ⟨p.1, v, getKey_mem hg, ?_⟩
    unfold saidLabel
    cases hs : getKey saids p.1 with
    | some _ => rfl
    | none => exact absurd (List.mem_map.2 ⟨_, hp, rfl⟩) (getKey_none.1 hs)

theorem hasSaidF_iff {fs : Flds} : hasSaidF saids fs = true ↔ anySaid saids fs = true ∨ ∃ p ∈ fs, hasSaidV saids p.2 = true := by
  constructor
  · intro h
    have : (∃ l v, (l, v) ∈ fs ∧ saidLabel saids l = true) ∨ ∃ p ∈ fs, hasSaidV saids p.2 = true := by
      induction fs with
      | nil => simp [hasSaidF] at h
      | cons q r ih =>
        obtain ⟨l, v⟩ := q
        rw [hasSaidF] at h
        split at h
        · next hl => exact .inl ⟨l, v, by simp, hl⟩
        split at h
        · next hv => exact .inr ⟨(l, v), by simp, hv⟩
        · rcases ih h with ⟨l', v', a, b⟩ | ⟨p, a, b⟩
          · exact .inl ⟨l', v', by simp [a], b⟩
          · exact .inr ⟨p, by simp [a], b⟩
    rcases this with ⟨l, v, a, b⟩ | h
    · exact .inl (anySaid_of_field a b)
    · exact .inr h
  · intro h
    have : (∃ l v, (l, v) ∈ fs ∧ saidLabel saids l = true) ∨ ∃ p ∈ fs, hasSaidV saids p.2 = true := by
      rcases h with h | h
      · exact .inl (anySaid_field h)
      · exact .inr h
    clear h
    induction fs with
    | nil => simp at this
    | cons q r ih =>
      obtain ⟨l, v⟩ := q
      rw [hasSaidF]
      split
      · rfl
      next hl =>
      split
      · rfl
      next hv =>
      apply ih
      rcases this with ⟨l', v', a, b⟩ | ⟨p, a, b⟩
      · rw [List.mem_cons, Prod.mk.injEq] at a
        rcases a with ⟨rfl, rfl⟩ | a
        · exact absurd b hl
        · exact .inl ⟨l', v', a, b⟩
      · rw [List.mem_cons] at a
        rcases a with rfl | a
        · exact absurd b hv
        · exact .inr ⟨p, a, b⟩

theorem trF_nested_iff {fs fs1 : Flds} {n : Bool} {ls : List (List (List Char) × Flds)} (h : trF w kind saids fs = .ok (fs1, n, ls)) :
    n = true ↔ ∃ p ∈ fs, hasSaidV saids p.2 = true := by
  induction fs generalizing fs1 n ls with
  | nil => simp only [trF, Except.ok.injEq, Prod.mk.injEq] at h; obtain ⟨_, rfl, _⟩ := h; simp
  | cons q r ih =>
    obtain ⟨l, v⟩ := q
    rw [trF] at h
    split at h
    · exact absurd h (by simp)
    split at h
    · next hv =>
      split at h
      · exact absurd h (by simp)
      split at h
      · exact absurd h (by simp)
      simp only [Except.ok.injEq, Prod.mk.injEq] at h
      obtain ⟨_, rfl, _⟩ := h
      simp only [true_iff]
      exact ⟨_, List.mem_cons_self .., hv⟩
    · next hv =>
      split at h
      · exact absurd h (by simp)
      next hf =>
      simp only [Except.ok.injEq, Prod.mk.injEq] at h
      obtain ⟨_, rfl, _⟩ := h
      rw [ih hf]
      simp [hv]

mutual
theorem trV_leaf (w : World) (kind : Kind) (saids : Saids) : ∀ (v v1 : Val) (ls : List (List (List Char) × Flds)),
    trV w kind saids v = .ok (v1, ls) → hasSaidV saids v = true → ls ≠ []
  | .map fs, v1, ls, h, hs => by
    rw [hasSaidV] at hs
    rw [trV] at h
    split at h
    · exact absurd h (by simp)
    next fs1 n ls1 hf =>
    have hl := trF_leaf w kind saids fs fs1 n ls1 hf
    split at h
    · split at h
      · exact absurd h (by simp)
      simp only [Except.ok.injEq, Prod.mk.injEq] at h
      obtain ⟨_, rfl⟩ := h
      simp
    · next hc =>
      simp only [Except.ok.injEq, Prod.mk.injEq] at h
      obtain ⟨_, rfl⟩ := h
      apply hl
      rw [hasSaidF_iff] at hs
      rcases hs with hs | hs
      · simpa [hs] using hc
      · exact (trF_nested_iff hf).2 hs
  | .null, _, _, _, h => by simp [hasSaidV] at h
  | .bool _, _, _, _, h => by simp [hasSaidV] at h
  | .num _, _, _, _, h => by simp [hasSaidV] at h
  | .text _, _, _, _, h => by simp [hasSaidV] at h
  | .list _, _, _, _, h => by simp [hasSaidV] at h

theorem trF_leaf (w : World) (kind : Kind) (saids : Saids) : ∀ (fs fs1 : Flds) (n : Bool) (ls : List (List (List Char) × Flds)),
    trF w kind saids fs = .ok (fs1, n, ls) → n = true → ls ≠ []
  | [], _, _, _, h, hn => by simp only [trF, Except.ok.injEq, Prod.mk.injEq] at h; obtain ⟨_, rfl, _⟩ := h; simp at hn
  | (l, v) :: r, fs1, n, ls, h, hn => by
    rw [trF] at h
    split at h
    · exact absurd h (by simp)
    split at h
    · next hv =>
      split at h
      · exact absurd h (by simp)
      next v1 ls1 hv1 =>
      split at h
      · exact absurd h (by simp)
      simp only [Except.ok.injEq, Prod.mk.injEq] at h
      obtain ⟨_, _, rfl⟩ := h
      have := trV_leaf w kind saids v v1 ls1 hv1 hv
      simp [this]
    · split at h
      · exact absurd h (by simp)
      next r1 n1 ls2 hf =>
      simp only [Except.ok.injEq, Prod.mk.injEq] at h
      obtain ⟨_, rfl, rfl⟩ := h
      exact trF_leaf w kind saids r r1 n1 ls2 hf hn
end

/-- What `compactOnce` does for labels without dots. -/
theorem compactOnce_eq {mad : Flds} (t : Tidy (.map mad)) (leaves : Leaves) :
    (∀ e, rdTop w kind saids mad = .error e → compactOnce w kind saids mad leaves = .error e) ∧
    (∀ mad2 top, rdTop w kind saids mad = .ok (mad2, top) → ∃ leaves1, compactOnce w kind saids mad leaves =
        .ok (mad2, leaves1, !hasSaidF saids mad || (truthy (saidVal saids mad2) && ((getKey leaves []).isSome || top))) ∧
      (getKey leaves1 []).isSome = ((getKey leaves []).isSome || top)) := by
  have t' := t
  rw [Tidy] at t'
  obtain ⟨ie, io⟩ := tr_rdF w kind saids mad t'.1 t'.2
  cases hf : trF w kind saids mad with
  | error e =>
    refine ⟨?_, ?_⟩
    · intro e' h
      rw [rdTop, ie e hf] at h
      rw [compactOnce, traceV_eq, trV, hf]
      simpa using h
    · intro m top h
      rw [rdTop, ie e hf] at h
      exact absurd h (by simp)
  | ok x =>
    obtain ⟨fs1, n, ls⟩ := x
    obtain ⟨fs2, r1, r2⟩ := io fs1 n ls hf
    obtain ⟨p1, p2⟩ := trF_paths hf
    have hh : hasSaidF saids mad = (anySaid saids mad || n) := by
      rw [Bool.eq_iff_iff, hasSaidF_iff, Bool.or_eq_true, trF_nested_iff hf]
    unfold rdTop
    rw [r1]
    dsimp only
    by_cases hc : (anySaid saids mad && !n) = true
    · rw [if_pos hc]
      have hn : n = false := by simp at hc; exact hc.2
      have ha : anySaid saids mad = true := by simp at hc; exact hc.1
      obtain ⟨rfl, rfl⟩ := p2 hn
      have : fs2 = fs1 := by simpa [given, asgAll] using r2.symm
      subst this
      cases hm : makify w kind true saids fs2 with
      | error e =>
        refine ⟨?_, by simp⟩
        intro e' h
        rw [compactOnce, traceV_eq, trV, hf]
        dsimp only
        rw [if_pos hc, hm]
        simpa using h
      | ok y =>
        obtain ⟨_, fs3, _⟩ := y
        refine ⟨by simp, ?_⟩
        intro m top h
        simp only [Except.ok.injEq, Prod.mk.injEq] at h
        obtain ⟨rfl, rfl⟩ := h
        refine ⟨setLeaf leaves [] fs3, ?_, ?_⟩
        · rw [compactOnce, traceV_eq, trV, hf]
          dsimp only
          rw [if_pos hc, hm]
          simp only [List.nil_append, withPath, pathOf, List.map_cons, List.map_nil, List.flatMap_nil, List.foldl_cons, List.foldl_nil]
          simp only [assignAll, setLeaf_get, if_true, splitDot, List.tail_cons, assign]
          rw [hh, ha]
          simp [isCompact, setLeaf_get]
        · rw [setLeaf_get]; simp
    · rw [if_neg hc]
      refine ⟨by simp, ?_⟩
      intro m top h
      simp only [Except.ok.injEq, Prod.mk.injEq] at h
      obtain ⟨rfl, rfl⟩ := h
      have hv : trV w kind saids (.map mad) = .ok (.map fs1, ls) := by
        rw [trV, hf]
        dsimp only
        rw [if_neg hc]
      obtain ⟨f1, f2⟩ := trV_free w kind saids _ _ _ t hv
      have hkeys : (withPath [] ls).map (·.1) = ls.map fun p => pathOf p.1 := by
        unfold withPath; rw [List.map_map]; apply List.map_congr_left; intro p _; simp
      have hnd : ((withPath [] ls).map (·.1)).Nodup := by
        rw [hkeys]
        have : (ls.map fun p => pathOf p.1) = (ls.map (·.1)).map pathOf := by rw [List.map_map]; rfl
        rw [this]
        unfold List.Nodup at f2 ⊢
        rw [List.pairwise_map] at f2 ⊢
        rw [List.pairwise_map]
        refine List.Pairwise.imp_of_mem ?_ f2
        intro a b ha hb hne e
        exact hne (pathOf_inj (f1 a ha) (f1 b hb) e)
      have hget : ∀ p ∈ ls, getKey (addLeaves leaves (withPath [] ls)) (pathOf p.1) = some p.2 := by
        intro p hp
        refine addLeaves_mem hnd ?_
        unfold withPath
        exact List.mem_map.2 ⟨p, hp, by simp⟩
      have htop : getKey (addLeaves leaves (withPath [] ls)) [] = getKey leaves [] := by
        apply addLeaves_other
        rw [hkeys]
        intro hmem
        obtain ⟨p, hp, e⟩ := List.mem_map.1 hmem
        obtain ⟨k, ps, e', _⟩ := p1 p hp
        rw [e'] at e
        simp [pathOf] at e
      refine ⟨addLeaves leaves (withPath [] ls), ?_, by rw [htop]; simp⟩
      rw [compactOnce, traceV_eq, hv]
      dsimp only
      rw [hkeys]
      have := assignAll_eq (saids := saids) (leaves := addLeaves leaves (withPath [] ls)) ls fs1 f1 hget
      rw [r2] at this
      unfold addLeaves at this
      rw [this]
      dsimp only
      have he : (withPath [] ls).isEmpty = !hasSaidF saids mad := by
        cases hs : hasSaidF saids mad with
        | false =>
          rw [hh] at hs
          simp only [Bool.or_eq_false_iff] at hs
          obtain ⟨rfl, _⟩ := p2 hs.2
          simp [withPath]
        | true =>
          have := trV_leaf w kind saids _ _ _ hv (by rw [hasSaidV]; exact hs)
          cases ls with
          | nil => exact absurd rfl this
          | cons _ _ => simp [withPath]
      unfold addLeaves at htop
      simp only [he, isCompact, htop, addLeaves, Bool.or_false]
end

end Verif.Mad
