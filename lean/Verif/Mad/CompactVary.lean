import Verif.Mad.CompactRoll
import Verif.Mad.PropsSaid

/-! # What the most compact form does not depend on -/

namespace Verif.Mad

open Verif.B64 Verif.Matter

theorem putSaids_total (w : World) (ser : List Char) (f : List Char → List Char) : ∀ (s : Saids) (m : Flds), (s.map (·.1)).Nodup →
    (∀ l c, (l, c) ∈ s → l ∈ m.map (·.1) → digestOf w c ser = .ok (f c)) → (m.map (·.1)).Nodup → ∃ x, putSaids w ser s m = .ok x := by
  intro s
  induction s with
  | nil => intro m _ _ _; exact ⟨_, rfl⟩
  | cons p s ih =>
    obtain ⟨l, c⟩ := p
    intro m hn hd hmn
    simp only [List.map_cons, List.nodup_cons] at hn
    simp only [putSaids]
    cases hg : getKey m l with
    | none => exact ih m hn.2 (fun l c h => hd l c (by simp [h])) hmn
    | some v =>
      have hlm : l ∈ m.map (·.1) := List.mem_map.2 ⟨_, getKey_mem hg, rfl⟩
      simp only
      rw [hd l c (by simp) hlm]
      simp only
      have hsf := setField_map m l (.text (f c)) hmn hlm
      have hk : (setField m l (.text (f c))).map (·.1) = m.map (·.1) := by rw [hsf]; simp [Function.comp_def]
      refine ih _ hn.2 (fun l' c' h h' => hd l' c' (by simp [h]) (by rw [← hk]; exact h')) (by rw [hk]; exact hmn)

theorem filled_alike (f : List Char → List Char) {saids s : Saids} (hk : s.map (·.1) = saids.map (·.1)) {fs gs : Flds} (h : AllAlike saids fs gs) :
    filled f s gs = filled f s fs := by
  induction h with
  | nil => rfl
  | @cons p q fs gs hp _ ih =>
    unfold filled at ih ⊢
    simp only [List.map_cons, ih]
    congr 1
    obtain ⟨h1, _, h3⟩ := hp
    rw [← h1]
    cases hg : getKey s p.1 with
    | some c => rfl
    | none =>
      rw [getKey_none, hk, ← getKey_none] at hg
      rw [h3 hg]

theorem makify_alike {w : World} {kind : Kind} {strict : Bool} {saids : Saids} {m1 m2 : Flds} {x : List Char × Flds × Saids}
    (hm : (m1.map (·.1)).Nodup) (hs : (saids.map (·.1)).Nodup) (ha : AllAlike saids m1 m2) (h : makify w kind strict saids m1 = .ok x) :
    makify w kind strict saids m2 = .ok x := by
  unfold makify at h
  split at h
  · exact absurd h (by simp)
  next ser mad1 s1 he =>
  split at h
  · exact absurd h (by simp)
  next mad2 hp =>
  obtain ⟨m3, a0, a1, a2, a3, _, a5, a6⟩ := exhaleDummy_alike w kind strict hm hs ha he
  let f : List Char → List Char := fun c => match digestOf w c ser with | .ok t => t | .error _ => []
  have hf : ∀ c t, digestOf w c ser = .ok t → f c = t := by intro c t h; simp only [f, h]
  have hk : s1.map (·.1) = saids.map (·.1) := by rw [a1, finalCodes_keys]
  have hs1 : (s1.map (·.1)).Nodup := by rw [hk]; exact hs
  obtain ⟨p1, p2⟩ := putSaids_eq w ser f s1 mad1 mad2 hs1 (by rw [a3]; exact hm) hf hp
  obtain ⟨y, hy⟩ := putSaids_total w ser f s1 m3 hs1 (by
    intro l c hl hlm
    refine p2 l c hl ?_
    rw [a2, ← a3] at hlm
    cases hg : getKey mad1 l with
    | some _ => rfl
    | none => exact absurd hlm (getKey_none.1 hg)) (by rw [a2]; exact hm)
  obtain ⟨q1, _⟩ := putSaids_eq w ser f s1 m3 y hs1 (by rw [a2]; exact hm) hf hy
  have e : y = mad2 := by rw [q1, p1, a5 f, a6 f, filled_alike f hk ha]
  subst e
  unfold makify
  simp only [a0, hy]
  exact h

theorem allAlike_refl (saids : Saids) (fs : Flds) : AllAlike saids fs fs := by
  induction fs with
  | nil => exact .nil
  | cons p r ih => exact .cons ⟨rfl, fun _ _ => rfl, fun _ => rfl⟩ ih

theorem allAlike_symm {saids : Saids} {fs gs : Flds} (h : AllAlike saids fs gs) : AllAlike saids gs fs := by
  induction h with
  | nil => exact .nil
  | cons hp _ ih =>
    obtain ⟨h1, h2, h3⟩ := hp
    refine .cons ⟨h1.symm, ?_, ?_⟩ ih
    · intro d hd; rw [← h1] at hd; exact (h2 d hd).symm
    · intro hn; rw [← h1] at hn; exact (h3 hn).symm

section
variable {w : World} {kind : Kind} {saids : Saids}

theorem variantF_keys : ∀ {fs gs : Flds}, VariantF w kind saids fs gs → gs.map (·.1) = fs.map (·.1)
  | _, _, .nil => rfl
  | _, _, .field _ _ h => by simp only [List.map_cons, variantF_keys h]
  | _, _, .said _ _ _ _ h => by simp only [List.map_cons, variantF_keys h]

theorem rolledF_keys {fs fs1 : Flds} (h : rolledF w kind saids fs = .ok fs1) : fs1.map (·.1) = fs.map (·.1) := by
  induction fs generalizing fs1 with
  | nil => simp only [rolledF, Except.ok.injEq] at h; subst h; rfl
  | cons q r ih =>
    obtain ⟨l, v⟩ := q
    rw [rolledF] at h
    split at h
    · exact absurd h (by simp)
    split at h
    · exact absurd h (by simp)
    split at h
    · exact absurd h (by simp)
    next hr =>
    injection h with h
    subst h
    simp only [List.map_cons, ih hr]

theorem alike_eq {fs gs : Flds} (h : AllAlike saids fs gs) (hn : anySaid saids fs = false) : gs = fs := by
  have hno : ∀ p ∈ fs, getKey saids p.1 = none := by
    rintro ⟨l, v⟩ hp
    cases hg : getKey saids l with
    | none => rfl
    | some c => rw [anySaid_of_field hp (by unfold saidLabel; rw [hg]; rfl)] at hn; exact absurd hn (by simp)
  clear hn
  induction h with
  | nil => rfl
  | @cons p q fs gs hp _ ih =>
    obtain ⟨h1, _, h3⟩ := hp
    rw [ih (fun x hx => hno x (by simp [hx]))]
    congr 1
    exact Prod.ext h1.symm (h3 (hno p (by simp)))

mutual
theorem variant_rolled (hs : Dict saids) (hw : HashOk w) : ∀ {v u : Val}, Variant w kind saids v u → Tidy v → ∀ x, rolledV w kind saids v = .ok x ↔ rolledV w kind saids u = .ok x
  | _, _, .same v, _, x => Iff.rfl
  | _, _, .hidden fs y ha hr, t, x => by
    have hy : isMap y = false := by
      rw [Tidy] at t
      rw [rolledV] at hr
      split at hr
      · exact absurd hr (by simp)
      next fs1 hf =>
      rw [if_pos ha] at hr
      split at hr
      · exact absurd hr (by simp)
      next hm =>
      injection hr with hr
      subst hr
      exact (made_said hw hs (by unfold Dict; rw [rolledF_keys hf]; exact t.1) hm).1
    rw [hr, rolledV_notMap hy]
  | _, _, .map (fs := fs) (gs := gs) h, t, x => by
    rw [Tidy] at t
    have hk := variantF_keys h
    have hF := variantF_rolled hs hw h t.2
    rw [rolledV, rolledV, anySaid_keys hk]
    have fwd : ∀ (f1 g1 : Flds), rolledF w kind saids fs = .ok f1 → AllAlike saids f1 g1 → (anySaid saids fs = true →
        ∀ y, makify w kind true saids f1 = .ok y ↔ makify w kind true saids g1 = .ok y) ∧ (anySaid saids fs = false → g1 = f1) := by
      intro f1 g1 hf ha
      have hkf := rolledF_keys hf
      have hnf : (f1.map (·.1)).Nodup := by rw [hkf]; exact t.1
      refine ⟨fun _ y => ⟨makify_alike hnf hs ha, makify_alike ?_ hs (allAlike_symm ha)⟩, ?_⟩
      · rw [alike_keys ha]; exact hnf
      · intro hn
        exact alike_eq ha (by rw [anySaid_keys hkf]; exact hn)
    cases hf : rolledF w kind saids fs with
    | error e =>
      cases hg : rolledF w kind saids gs with
      | error e' => simp
      | ok g1 =>
        obtain ⟨f1, h1, _⟩ := hF.2 g1 hg
        rw [hf] at h1
        exact absurd h1 (by simp)
    | ok f1 =>
      obtain ⟨g1, hg, ha⟩ := hF.1 f1 hf
      rw [hg]
      obtain ⟨c1, c2⟩ := fwd f1 g1 hf ha
      dsimp only
      by_cases hc : anySaid saids fs = true
      · rw [if_pos hc, if_pos hc]
        cases hm : makify w kind true saids f1 with
        | error e =>
          cases hm' : makify w kind true saids g1 with
          | error e' => simp
          | ok y => rw [(c1 hc y).2 hm'] at hm; exact absurd hm (by simp)
        | ok y => rw [(c1 hc y).1 hm]
      · rw [if_neg hc, if_neg hc, c2 (by simpa using hc)]

theorem variantF_rolled (hs : Dict saids) (hw : HashOk w) : ∀ {fs gs : Flds}, VariantF w kind saids fs gs → TidyF fs →
    (∀ f1, rolledF w kind saids fs = .ok f1 → ∃ g1, rolledF w kind saids gs = .ok g1 ∧ AllAlike saids f1 g1) ∧
    (∀ g1, rolledF w kind saids gs = .ok g1 → ∃ f1, rolledF w kind saids fs = .ok f1 ∧ AllAlike saids f1 g1)
  | _, _, .nil, _ => by
    rw [rolledF]
    exact ⟨fun f1 h => ⟨f1, h, allAlike_refl _ _⟩, fun f1 h => ⟨f1, h, allAlike_refl _ _⟩⟩
  | _, _, .field (l := l) (v := v) (u := u) (r := r) (s := s) hl hv hr, t => by
    rw [TidyF] at t
    have h1 := variant_rolled hs hw hv t.2.1
    have h2 := variantF_rolled hs hw hr t.2.2
    have hnone : getKey saids l = none := by
      unfold saidLabel at hl
      cases hg : getKey saids l with
      | none => rfl
      | some _ => rw [hg] at hl; exact absurd hl (by simp)
    rw [rolledF, rolledF, if_neg (by simp [hl]), if_neg (by simp [hl])]
    constructor
    · intro f1 h
      split at h
      · exact absurd h (by simp)
      next v1 hv1 =>
      split at h
      · exact absurd h (by simp)
      next r1 hr1 =>
      injection h with h
      subst h
      obtain ⟨s1, hs1, ha⟩ := h2.1 r1 hr1
      rw [(h1 v1).1 hv1, hs1]
      exact ⟨_, rfl, .cons ⟨rfl, fun _ _ => rfl, fun _ => rfl⟩ ha⟩
    · intro f1 h
      split at h
      · exact absurd h (by simp)
      next v1 hv1 =>
      split at h
      · exact absurd h (by simp)
      next r1 hr1 =>
      injection h with h
      subst h
      obtain ⟨s1, hs1, ha⟩ := h2.2 r1 hr1
      rw [(h1 v1).2 hv1, hs1]
      exact ⟨_, rfl, .cons ⟨rfl, fun _ _ => rfl, fun _ => rfl⟩ ha⟩
  | _, _, .said (l := l) (v := v) (u := u) (r := r) (s := s) hl hv hu hc hr, t => by
    rw [TidyF] at t
    have h2 := variantF_rolled hs hw hr t.2.2
    rw [rolledF, rolledF, if_neg (by simp [hv]), if_neg (by simp [hu]), rolledV_notMap hv, rolledV_notMap hu]
    dsimp only
    have hal : Alike saids (l, v) (l, u) := by
      refine ⟨rfl, fun d hd => hc d hd, ?_⟩
      intro hn
      unfold saidLabel at hl
      dsimp only at hn
      rw [hn] at hl
      exact absurd hl (by simp)
    constructor
    · intro f1 h
      split at h
      · exact absurd h (by simp)
      next r1 hr1 =>
      injection h with h
      subst h
      obtain ⟨s1, hs1, ha⟩ := h2.1 r1 hr1
      rw [hs1]
      exact ⟨_, rfl, .cons hal ha⟩
    · intro f1 h
      split at h
      · exact absurd h (by simp)
      next r1 hr1 =>
      injection h with h
      subst h
      obtain ⟨s1, hs1, ha⟩ := h2.2 r1 hr1
      rw [hs1]
      exact ⟨_, rfl, .cons hal ha⟩
end
end

end Verif.Mad
