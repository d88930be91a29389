import Verif.Mad.CompactRound

/-! # Assigning at the ends of the paths is replacing in place -/

namespace Verif.Mad

/-- Assign in order. -/
def asgAll : List (List (List Char) × Val) → Flds → Except Err Flds
  | [], mad => .ok mad
  | (p, x) :: r, mad => match assign x p mad with
    | .error e => .error e
    | .ok mad' => asgAll r mad'

theorem asgAll_append {a b : List (List (List Char) × Val)} {m m1 : Flds} (h : asgAll a m = .ok m1) : asgAll (a ++ b) m = asgAll b m1 := by
  induction a generalizing m with
  | nil => simp only [asgAll] at h; injection h with h; subst h; rfl
  | cons p a ih =>
    obtain ⟨p, x⟩ := p
    simp only [asgAll, List.cons_append] at h ⊢
    cases ha : assign x p m with
    | error e => rw [ha] at h; exact absurd h (by simp)
    | ok m' => rw [ha] at h; exact ih h

theorem getKey_at {α : Type} (k l : List Char) (v : α) (r : List (List Char × α)) :
    getKey ((k, v) :: r) l = if l = k then some v else getKey r l := by
  rw [getKey_cons]
  simp only [eq_comm]

theorem assign_skip {x : Val} {k l : List Char} {ps : List (List Char)} {v : Val} {r r' : Flds} (hne : k ≠ l)
    (h : assign x (k :: ps) r = .ok r') : assign x (k :: ps) ((l, v) :: r) = .ok ((l, v) :: r') := by
  cases ps with
  | nil =>
    simp only [assign] at h ⊢
    injection h with h
    rw [getKey_at, if_neg hne]
    subst h
    cases getKey r k with
    | none => rfl
    | some _ => simp only [setField, if_neg (Ne.symm hne)]
  | cons q ps =>
    simp only [assign] at h ⊢
    rw [getKey_at, if_neg hne]
    split at h
    · next hg => injection h with h; subst h; rfl
    · next g hg =>
      split at h
      · exact absurd h (by simp)
      next g' hg' =>
      injection h with h
      subst h
      simp only [setField, if_neg (Ne.symm hne)]
    · next u hm hg =>
      split at h
      · exact absurd h (by simp)
      next hi =>
      injection h with h
      subst h
      rw [if_neg hi]

theorem asgAll_skip {l : List Char} {v : Val} : ∀ (a : List (List (List Char) × Val)) {r r' : Flds},
    (∀ p ∈ a, ∃ k ps, p.1 = k :: ps ∧ k ≠ l) → asgAll a r = .ok r' → asgAll a ((l, v) :: r) = .ok ((l, v) :: r')
  | [], r, r', _, h => by simp only [asgAll] at h ⊢; injection h with h; subst h; rfl
  | (p, x) :: a, r, r', hk, h => by
    obtain ⟨k, ps, e, hne⟩ := hk (p, x) (by simp)
    dsimp only at e
    subst e
    simp only [asgAll] at h ⊢
    cases ha : assign x (k :: ps) r with
    | error e => rw [ha] at h; exact absurd h (by simp)
    | ok m =>
      rw [ha] at h
      rw [assign_skip hne ha]
      exact asgAll_skip a (fun q hq => hk q (by simp [hq])) h

/-- One label further in. -/
def under (l : List Char) (a : List (List (List Char) × Val)) : List (List (List Char) × Val) := a.map fun p => (l :: p.1, p.2)

theorem asgAll_under {l : List Char} {r : Flds} : ∀ (a : List (List (List Char) × Val)) {g g' : Flds},
    (∀ p ∈ a, p.1 ≠ []) → asgAll a g = .ok g' → asgAll (under l a) ((l, .map g) :: r) = .ok ((l, .map g') :: r)
  | [], g, g', _, h => by simp only [asgAll, under, List.map_nil] at h ⊢; injection h with h; subst h; rfl
  | (p, x) :: a, g, g', hk, h => by
    have hp := hk (p, x) (by simp)
    cases p with
    | nil => exact absurd rfl hp
    | cons k ps =>
      simp only [asgAll, under, List.map_cons] at h ⊢
      cases ha : assign x (k :: ps) g with
      | error e => rw [ha] at h; exact absurd h (by simp)
      | ok m =>
        rw [ha] at h
        simp only [assign, getKey_at, if_true, ha, setField]
        exact asgAll_under a (fun q hq => hk q (by simp [hq])) h

theorem assign_here {l : List Char} {x v : Val} {r : Flds} : assign x [l] ((l, v) :: r) = .ok ((l, x) :: r) := by
  simp [assign, getKey_at, setField]

section
variable {w : World} {kind : Kind} {saids : Saids}

theorem trF_paths {fs fs1 : Flds} {n : Bool} {ls : List (List (List Char) × Flds)} (h : trF w kind saids fs = .ok (fs1, n, ls)) :
    (∀ p ∈ ls, ∃ k ps, p.1 = k :: ps ∧ k ∈ fs.map (·.1)) ∧ (n = false → ls = [] ∧ fs1 = fs) := by
  induction fs generalizing fs1 n ls with
  | nil => simp only [trF] at h; injection h with h; simp only [Prod.mk.injEq] at h; obtain ⟨rfl, rfl, rfl⟩ := h; simp
  | cons q r ih =>
    obtain ⟨l, v⟩ := q
    rw [trF] at h
    split at h
    · exact absurd h (by simp)
    split at h
    · split at h
      · exact absurd h (by simp)
      split at h
      · exact absurd h (by simp)
      next hr =>
      injection h with h
      simp only [Prod.mk.injEq] at h
      obtain ⟨rfl, rfl, rfl⟩ := h
      refine ⟨?_, by simp⟩
      intro p hp
      rw [List.mem_append] at hp
      rcases hp with hp | hp
      · obtain ⟨q, _, rfl⟩ := List.mem_map.1 hp
        exact ⟨l, q.1, rfl, by simp⟩
      · obtain ⟨k, ps, e, hk⟩ := (ih hr).1 p hp
        exact ⟨k, ps, e, by rw [List.map_cons]; exact List.mem_cons_of_mem _ hk⟩
    · split at h
      · exact absurd h (by simp)
      next hr =>
      injection h with h
      simp only [Prod.mk.injEq] at h
      obtain ⟨rfl, rfl, rfl⟩ := h
      refine ⟨?_, ?_⟩
      · intro p hp
        obtain ⟨k, ps, e, hk⟩ := (ih hr).1 p hp
        exact ⟨k, ps, e, by rw [List.map_cons]; exact List.mem_cons_of_mem _ hk⟩
      · intro hn
        obtain ⟨a, b⟩ := (ih hr).2 hn
        exact ⟨a, by rw [b]⟩

/-- The assignments that `compact` makes. -/
def given (saids : Saids) (ls : List (List (List Char) × Flds)) : List (List (List Char) × Val) := ls.map fun p => (p.1, saidVal saids p.2)

mutual
theorem tr_rdV (w : World) (kind : Kind) (saids : Saids) : ∀ (v : Val), Tidy v →
    (∀ e, trV w kind saids v = .error e → rdV w kind saids v = .error e) ∧
    (∀ v1 ls, trV w kind saids v = .ok (v1, ls) → ∃ v2, rdV w kind saids v = .ok v2 ∧
      ∀ l r, asgAll (under l (given saids ls)) ((l, v1) :: r) = .ok ((l, v2) :: r))
  | .map fs, t => by
    rw [Tidy] at t
    obtain ⟨ie, io⟩ := tr_rdF w kind saids fs t.1 t.2
    rw [trV, rdV]
    cases hf : trF w kind saids fs with
    | error e =>
      refine ⟨?_, by simp⟩
      intro e' h
      rw [ie e hf]
      simpa using h
    | ok x =>
      obtain ⟨fs1, n, ls⟩ := x
      obtain ⟨fs2, r1, r2⟩ := io fs1 n ls hf
      obtain ⟨p1, p2⟩ := trF_paths hf
      rw [r1]
      dsimp only
      by_cases hc : (anySaid saids fs && !n) = true
      · rw [if_pos hc, if_pos hc]
        have hn : n = false := by simp at hc; exact hc.2
        obtain ⟨rfl, rfl⟩ := p2 hn
        have : fs2 = fs1 := by simpa [given, asgAll] using r2.symm
        subst this
        cases hm : makify w kind true saids fs2 with
        | error e => exact ⟨fun e' h => by simpa using h, by simp⟩
        | ok y =>
          obtain ⟨_, fs3, _⟩ := y
          refine ⟨by simp, ?_⟩
          intro v1 ls h
          simp only [Except.ok.injEq, Prod.mk.injEq, List.nil_append] at h
          obtain ⟨rfl, rfl⟩ := h
          refine ⟨_, rfl, ?_⟩
          intro l r
          simp only [given, under, List.map_cons, List.map_nil, asgAll, assign_here]
      · rw [if_neg hc, if_neg hc]
        refine ⟨by simp, ?_⟩
        intro v1 ls' h
        simp only [Except.ok.injEq, Prod.mk.injEq] at h
        obtain ⟨rfl, rfl⟩ := h
        refine ⟨_, rfl, ?_⟩
        intro l r
        refine asgAll_under _ ?_ r2
        intro p hp
        obtain ⟨q, hq, rfl⟩ := List.mem_map.1 hp
        obtain ⟨k, ps, e, _⟩ := p1 q hq
        simp [e]
  | .null, _ => by simp [trV, rdV, given, under, asgAll]
  | .bool _, _ => by simp [trV, rdV, given, under, asgAll]
  | .num _, _ => by simp [trV, rdV, given, under, asgAll]
  | .text _, _ => by simp [trV, rdV, given, under, asgAll]
  | .list _, _ => by simp [trV, rdV, given, under, asgAll]

theorem tr_rdF (w : World) (kind : Kind) (saids : Saids) : ∀ (fs : Flds), (fs.map (·.1)).Nodup → TidyF fs →
    (∀ e, trF w kind saids fs = .error e → rdF w kind saids fs = .error e) ∧
    (∀ fs1 n ls, trF w kind saids fs = .ok (fs1, n, ls) → ∃ fs2, rdF w kind saids fs = .ok (fs2, n) ∧ asgAll (given saids ls) fs1 = .ok fs2)
  | [], _, _ => by simp [trF, rdF, given, asgAll]
  | (l, v) :: r, hn, t => by
    rw [TidyF] at t
    obtain ⟨t1, t2, t3⟩ := t
    rw [List.map_cons, List.nodup_cons] at hn
    obtain ⟨ie, io⟩ := tr_rdF w kind saids r hn.2 t3
    obtain ⟨ve, vo⟩ := tr_rdV w kind saids v t2
    rw [trF, rdF]
    split
    · exact ⟨fun e h => by simpa using h, by simp⟩
    split
    · cases hv : trV w kind saids v with
      | error e => rw [ve e hv]; exact ⟨fun e h => by simpa using h, by simp⟩
      | ok x =>
        obtain ⟨v1, ls⟩ := x
        obtain ⟨v2, a1, a2⟩ := vo v1 ls hv
        rw [a1]
        dsimp only
        cases hf : trF w kind saids r with
        | error e => rw [ie e hf]; exact ⟨fun e h => by simpa using h, by simp⟩
        | ok y =>
          obtain ⟨r1, n, ls'⟩ := y
          obtain ⟨r2, b1, b2⟩ := io r1 n ls' hf
          rw [b1]
          refine ⟨by simp, ?_⟩
          intro fs1 n' lss h
          simp only [Except.ok.injEq, Prod.mk.injEq] at h
          obtain ⟨rfl, rfl, rfl⟩ := h
          refine ⟨_, rfl, ?_⟩
          have e : given saids (ls.map (fun p => (l :: p.1, p.2)) ++ ls') = under l (given saids ls) ++ given saids ls' := by
            simp [given, under]
          rw [e, asgAll_append (a2 l r1)]
          refine asgAll_skip _ ?_ b2
          intro p hp
          obtain ⟨q, hq, rfl⟩ := List.mem_map.1 hp
          obtain ⟨k, ps, e, hk⟩ := (trF_paths hf).1 q hq
          refine ⟨k, ps, e, ?_⟩
          rintro rfl
          exact hn.1 hk
    · cases hf : trF w kind saids r with
      | error e => rw [ie e hf]; exact ⟨fun e h => by simpa using h, by simp⟩
      | ok y =>
        obtain ⟨r1, n, ls'⟩ := y
        obtain ⟨r2, b1, b2⟩ := io r1 n ls' hf
        rw [b1]
        refine ⟨by simp, ?_⟩
        intro fs1 n' lss h
        simp only [Except.ok.injEq, Prod.mk.injEq] at h
        obtain ⟨rfl, rfl, rfl⟩ := h
        refine ⟨_, rfl, ?_⟩
        refine asgAll_skip _ ?_ b2
        intro p hp
        obtain ⟨q, hq, rfl⟩ := List.mem_map.1 hp
        obtain ⟨k, ps, e, hk⟩ := (trF_paths hf).1 q hq
        refine ⟨k, ps, e, ?_⟩
        rintro rfl
        exact hn.1 hk
end
end

end Verif.Mad
