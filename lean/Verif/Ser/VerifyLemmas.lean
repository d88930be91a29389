import Verif.Ser.MadeLemmas

/-! # Lemmas about what verifies -/

namespace Verif.Ser

open Verif.B64 Verif.Matter
open Verif.Mad hiding Kind verify makify Digested Collision
open Verif.Prs (Proto Kind Smellage asc chars versify deversify smell sniff)

theorem labels_of_shape {fd : FieldDom} (hw : Wf fd) {keys : List (List Char)} (h : Shape fd keys) {l : List Char} (hl : l ∈ fd.saids.map (·.1)) : l ∈ keys := by
  obtain ⟨p, hp, rfl⟩ := List.mem_map.1 hl
  obtain ⟨own, ext, rfl, _, hr, _⟩ := h
  exact List.mem_append_left _ (hr _ (hw.saids p hp).1 (hw.saids p hp).2.1)

theorem v_of_shape {fd : FieldDom} (hw : Wf fd) {keys : List (List Char)} (h : Shape fd keys) : ['v'] ∈ keys := by
  obtain ⟨own, ext, rfl, _, hr, _⟩ := h
  refine List.mem_append_left _ (hr _ ?_ hw.vreq)
  have := hw.first
  cases hl : fd.labels with
  | nil => rw [hl] at this; simp at this
  | cons a r => rw [hl] at this; simp at this; simp [this]

/-- When the fields of a message pass the checks of `_validate`. -/
theorem validate_iff {cls : Option Proto} {a : Attrs} {sad : Flds} (hd : Dict sad) {r : Flds × Saids} :
    validate cls a sad = .ok r ↔ (cls = none ∨ cls = some a.proto) ∧ (∀ g, a.gvrsn = some g → 2 ≤ g.1) ∧ ¬ (a.kind = .cesr ∧ a.pvrsn.1 < 2) ∧
      ∃ doms ilk fd, domains a.proto a.pvrsn = some doms ∧ ilkOf sad = .ok ilk ∧ domOf doms ilk = some fd ∧ Shape fd (sad.map (·.1)) ∧ readSaids fd.saids sad = .ok r := by
  have hog : oldGenus a.gvrsn = true ↔ ¬ (∀ g, a.gvrsn = some g → 2 ≤ g.1) := by
    unfold oldGenus
    cases a.gvrsn with
    | none => simp
    | some g => simp
  unfold validate
  by_cases h1 : cls ≠ none ∧ cls ≠ some a.proto
  · rw [if_pos h1]
    constructor
    · intro h; exact absurd h (by simp)
    · rintro ⟨h | h, _⟩
      · exact absurd h h1.1
      · exact absurd h h1.2
  rw [if_neg h1]
  have h1' : cls = none ∨ cls = some a.proto := by
    by_cases hc : cls = none
    · exact .inl hc
    · exact .inr (Decidable.not_not.1 fun h => h1 ⟨hc, h⟩)
  by_cases h2 : oldGenus a.gvrsn = true
  · rw [if_pos h2]
    constructor
    · intro h; exact absurd h (by simp)
    · rintro ⟨_, h, _⟩
      exact absurd h (hog.1 h2)
  rw [if_neg h2]
  have h2' := Classical.not_not.1 (fun h => h2 (hog.2 h))
  by_cases h3 : a.kind = .cesr ∧ a.pvrsn.1 < 2
  · rw [if_pos h3]
    constructor
    · intro h; exact absurd h (by simp)
    · rintro ⟨_, _, h, _⟩; exact absurd h3 h
  rw [if_neg h3]
  constructor
  · intro h
    refine ⟨h1', h2', h3, ?_⟩
    split at h
    · exact absurd h (by simp)
    next doms hdoms =>
    split at h
    · exact absurd h (by simp)
    next ilk hilk =>
    split at h
    · exact absurd h (by simp)
    next fd hfd =>
    split at h
    · exact absurd h (by simp)
    next h5 =>
    split at h
    · exact absurd h (by simp)
    split at h
    · exact absurd h (by simp)
    exact ⟨doms, ilk, fd, hdoms, hilk, hfd, (fieldsOk_iff (wf_dom hdoms hfd) hd).1 (by simpa using h5), h⟩
  · rintro ⟨_, _, _, doms, ilk, fd, e1, e2, e3, e4, e5⟩
    have hw := wf_dom e1 e3
    rw [e1]
    simp only
    rw [e2]
    simp only
    rw [e3]
    simp only
    rw [if_neg (by rw [(fieldsOk_iff hw hd).2 e4]; simp), if_neg (by
      simp only [Bool.not_eq_false, List.all_eq_true, decide_eq_true_eq]
      exact fun p hp => (hw.saids p hp).1), if_neg (by simpa using v_of_shape hw e4)]
    exact e5

theorem verify_facts {lib : Lib} {cls : Option Proto} {s : Serder} (h : verify lib cls s = .ok ()) :
    ∃ base saids sad n v sm, validate cls s.attrs s.sad = .ok (base, saids) ∧ compute lib s.attrs base saids = .ok (sad, s.raw, n) ∧
      getKey sad ['v'] = some v ∧ deversifyVal v = .ok sm ∧ consistent s s.raw sm = true := by
  unfold verify at h
  split at h
  · exact absurd h (by simp)
  next base saids h1 =>
  split at h
  · exact absurd h (by simp)
  next sad raw n h2 =>
  split at h
  · exact absurd h (by simp)
  next h3 =>
  split at h
  · exact absurd h (by simp)
  next v h4 =>
  split at h
  · exact absurd h (by simp)
  next sm h5 =>
  split at h
  · next h6 =>
    have e : raw = s.raw := Decidable.not_not.1 h3
    subst e
    exact ⟨base, saids, sad, n, v, sm, h1, h2, h4, h5, h6⟩
  · exact absurd h (by simp)

end Verif.Ser
