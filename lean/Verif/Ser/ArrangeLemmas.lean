import Verif.Ser.Again

/-! # Lemmas about the fields that `makify` arranges -/

namespace Verif.Ser

open Verif.B64 Verif.Matter
open Verif.Mad hiding Kind verify makify Digested Collision
open Verif.Prs (Proto Kind Smellage asc chars versify deversify smell sniff)

/-- The field that a map with defaults shows. -/
def defaulted (fd : FieldDom) (alls : Flds) (g : Option Val) (k : List Char) : Option Val :=
  match g with
  | some v => some v
  | none => if k ∈ fd.opts then none else getKey alls k

theorem addMissing_facts (fd : FieldDom) (alls : Flds) (sad : Flds) (hd : Dict sad) (ha : Dict alls) :
    Dict (addMissing fd alls sad) ∧ ∀ k, getKey (addMissing fd alls sad) k = defaulted fd alls (getKey sad k) k := by
  induction alls generalizing sad with
  | nil =>
    refine ⟨hd, fun k => ?_⟩
    simp only [addMissing, defaulted]
    cases getKey sad k with
    | some v => rfl
    | none => simp [getKey_none.2]
  | cons p r ih =>
    obtain ⟨l, v⟩ := p
    unfold Dict at ha
    simp only [List.map_cons, List.nodup_cons] at ha
    have hnl : getKey r l = none := getKey_none.2 ha.1
    simp only [addMissing]
    split
    · next ho =>
      obtain ⟨i1, i2⟩ := ih sad hd ha.2
      refine ⟨i1, fun k => ?_⟩
      rw [i2]
      unfold defaulted
      cases getKey sad k with
      | some w => rfl
      | none =>
        simp only
        split
        · rfl
        · next hk => rw [getKey_cons, if_neg (fun (e : l = k) => hk (e ▸ ho))]
    · next ho =>
      split
      · next hm =>
        obtain ⟨i1, i2⟩ := ih sad hd ha.2
        refine ⟨i1, fun k => ?_⟩
        rw [i2]
        unfold defaulted
        cases hg : getKey sad k with
        | some w => rfl
        | none =>
          simp only
          split
          · rfl
          · next hk => rw [getKey_cons, if_neg (fun (e : l = k) => getKey_none.1 hg (e ▸ hm))]
      · next hm =>
        obtain ⟨i1, i2⟩ := ih (setField sad l v) (dict_setField hd _ _) ha.2
        refine ⟨i1, fun k => ?_⟩
        rw [i2, getKey_setField, getKey_cons_def]
        by_cases hk : k = l
        · subst hk
          rw [if_pos rfl]
          unfold defaulted
          rw [getKey_none.2 hm]
          simp [ho]
        · rw [if_neg hk]
          have hlk : ¬ l = k := fun e => hk e.symm
          unfold defaulted
          cases getKey sad k with
          | some w => rfl
          | none => simp only [if_neg hlk]
where
  getKey_cons_def {fd : FieldDom} {l k : List Char} {v : Val} {r : Flds} {g : Option Val} :
      defaulted fd ((l, v) :: r) g k = match g with
        | some w => some w
        | none => if k ∈ fd.opts then none else if l = k then some v else getKey r k := by
    unfold defaulted
    rw [getKey_cons]

theorem keys_filterMap (alls sad : Flds) :
    (alls.filterMap fun (p : List Char × Val) => (getKey sad p.1).map fun v => (p.1, v)).map (·.1) = (alls.map (·.1)).filter fun l => decide (l ∈ sad.map (·.1)) := by
  induction alls with
  | nil => rfl
  | cons p r ih =>
    cases hg : getKey sad p.1 with
    | none =>
      rw [List.filterMap_cons_none (by simp [hg]), List.map_cons, List.filter_cons, if_neg (by simpa using getKey_none.1 hg), ih]
    | some v =>
      have hm : p.1 ∈ sad.map (·.1) := List.mem_map.2 ⟨_, getKey_mem hg, rfl⟩
      rw [List.filterMap_cons_some (b := (p.1, v)) (by simp [hg]), List.map_cons, List.map_cons, List.filter_cons, if_pos (by simpa using hm), ih]

theorem keys_ext (alls : List (List Char)) (sad : Flds) :
    (sad.filter fun (p : List Char × Val) => p.1 ∉ alls).map (·.1) = (sad.map (·.1)).filter fun l => decide (l ∉ alls) := by
  rw [List.filter_map]
  rfl

theorem reorder_facts {alls sad : Flds} (ha : Dict alls) (hd : Dict sad) :
    (reorder alls sad).map (·.1) = (alls.map (·.1)).filter (fun l => decide (l ∈ sad.map (·.1))) ++ (sad.map (·.1)).filter (fun l => decide (l ∉ alls.map (·.1))) ∧
    Dict (reorder alls sad) ∧ ∀ k, getKey (reorder alls sad) k = getKey sad k := by
  have hk : (reorder alls sad).map (·.1) = (alls.map (·.1)).filter (fun l => decide (l ∈ sad.map (·.1))) ++ (sad.map (·.1)).filter (fun l => decide (l ∉ alls.map (·.1))) := by
    unfold reorder
    rw [List.map_append, keys_filterMap, keys_ext]
  have hdr : Dict (reorder alls sad) := by
    unfold Dict
    rw [hk, List.nodup_append]
    refine ⟨List.Pairwise.filter _ ha, List.Pairwise.filter _ hd, ?_⟩
    intro x hx y hy e
    subst e
    simp only [List.mem_filter, decide_eq_true_eq] at hx hy
    exact hy.2 hx.1
  refine ⟨hk, hdr, fun k => ?_⟩
  cases hg : getKey sad k with
  | none =>
    apply getKey_none.2
    rw [hk]
    have := getKey_none.1 hg
    simp only [List.mem_append, List.mem_filter, decide_eq_true_eq]
    rintro (⟨_, h⟩ | ⟨h, _⟩) <;> exact this h
  | some v =>
    apply getKey_of_mem hdr
    unfold reorder
    have hm := getKey_mem hg
    by_cases hc : k ∈ alls.map (·.1)
    · obtain ⟨p, hp, rfl⟩ := List.mem_map.1 hc
      exact List.mem_append_left _ (List.mem_filterMap.2 ⟨p, hp, by rw [hg]; rfl⟩)
    · exact List.mem_append_right _ (List.mem_filter.2 ⟨hm, by simpa using hc⟩)

theorem forceIlk_facts (ilk : Option (List Char)) {sad : Flds} (hd : Dict sad) :
    (forceIlk ilk sad).map (·.1) = sad.map (·.1) ∧ Dict (forceIlk ilk sad) ∧ (∀ k, k ≠ ['t'] → getKey (forceIlk ilk sad) k = getKey sad k) ∧
    (['t'] ∈ sad.map (·.1) → ilkOf (forceIlk ilk sad) = .ok ilk) ∧ (['t'] ∉ sad.map (·.1) → ilkOf (forceIlk ilk sad) = .ok none) := by
  unfold forceIlk
  by_cases ht : ['t'] ∈ sad.map (·.1)
  · rw [if_pos ht]
    refine ⟨keys_setField _ ht, dict_setField hd _ _, fun k hk => by rw [getKey_setField, if_neg hk], fun _ => ?_, fun h => absurd ht h⟩
    unfold ilkOf
    rw [getKey_setField, if_pos rfl]
    cases ilk <;> rfl
  · rw [if_neg ht]
    refine ⟨rfl, hd, fun _ _ => rfl, fun h => absurd h ht, fun _ => ?_⟩
    unfold ilkOf
    rw [getKey_none.2 ht]

/-- The arranged map. -/
def arranged (ilk : Option (List Char)) (fd : FieldDom) (sad : Flds) : Flds := forceIlk ilk (reorder fd.alls (addMissing fd fd.alls sad))

theorem arranged_facts (ilk : Option (List Char)) {fd : FieldDom} (hw : Wf fd) {sad : Flds} (hd : Dict sad) :
    Dict (arranged ilk fd sad) ∧ (∀ k, k ≠ ['t'] → getKey (arranged ilk fd sad) k = defaulted fd fd.alls (getKey sad k) k) ∧
    (['t'] ∈ (arranged ilk fd sad).map (·.1) → ilkOf (arranged ilk fd sad) = .ok ilk) ∧
    (['t'] ∉ (arranged ilk fd sad).map (·.1) → ilkOf (arranged ilk fd sad) = .ok none) := by
  have ha : Dict fd.alls := hw.nodup
  obtain ⟨a1, a2⟩ := addMissing_facts fd fd.alls sad hd ha
  obtain ⟨r1, r2, r3⟩ := reorder_facts ha a1
  obtain ⟨f1, f2, f3, f4, f5⟩ := forceIlk_facts ilk r2
  unfold arranged
  rw [f1]
  exact ⟨f2, fun k hk => by rw [f3 k hk, r3, a2], f4, f5⟩

end Verif.Ser
