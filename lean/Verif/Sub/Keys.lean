import Verif.Sub.Spec

/-! # C176: composite keys -/

namespace Verif.Sub

open Verif.Db

theorem split_ne (sep : Nat) (k : Bytes) : split sep k ≠ [] := by
  cases k with
  | nil => simp [split]
  | cons c cs =>
    unfold split
    split
    · simp
    · split <;> simp

theorem split_nosep {sep : Nat} {p : Bytes} (h : sep ∉ p) : split sep p = [p] := by
  induction p with
  | nil => rfl
  | cons c p ih =>
    unfold split
    rw [if_neg (by intro h0; exact h (by simp [h0])), ih (fun h0 => h (by simp [h0]))]

theorem split_sep {sep : Nat} {p : Bytes} (h : sep ∉ p) (x : Bytes) : split sep (p ++ sep :: x) = p :: split sep x := by
  induction p with
  | nil => show split sep (sep :: x) = _; rw [split, if_pos rfl]
  | cons c p ih =>
    show split sep (c :: (p ++ sep :: x)) = _
    rw [split, if_neg (by intro h0; exact h (by simp [h0])), ih (fun h0 => h (by simp [h0]))]

theorem join_cons (sep : Nat) (p : Bytes) {ps : List Bytes} (h : ps ≠ []) : join sep (p :: ps) = p ++ sep :: join sep ps := by
  cases ps with
  | nil => exact absurd rfl h
  | cons q ps => rfl

theorem split_join {sep : Nat} {ps : List Bytes} (hne : ps ≠ []) (h : ∀ p, p ∈ ps → sep ∉ p) : split sep (join sep ps) = ps := by
  induction ps with
  | nil => exact absurd rfl hne
  | cons p ps ih =>
    cases ps with
    | nil => exact split_nosep (h p (by simp))
    | cons q ps =>
      rw [join_cons sep p (by simp), split_sep (h p (by simp)), ih (by simp) (fun x hx => h x (by simp [hx]))]

theorem split_join_sep {sep : Nat} {ps : List Bytes} (hne : ps ≠ []) (h : ∀ p, p ∈ ps → sep ∉ p) (x : Bytes) :
    split sep (join sep ps ++ sep :: x) = ps ++ split sep x := by
  induction ps with
  | nil => exact absurd rfl hne
  | cons p ps ih =>
    cases ps with
    | nil => exact split_sep (h p (by simp)) x
    | cons q ps =>
      rw [join_cons sep p (by simp), List.append_assoc, List.cons_append, split_sep (h p (by simp)),
        ih (by simp) (fun x hx => h x (by simp [hx]))]
      rfl

theorem join_split (sep : Nat) (k : Bytes) : join sep (split sep k) = k := by
  induction k with
  | nil => rfl
  | cons c k ih =>
    unfold split
    by_cases hc : c = sep
    · rw [if_pos hc, join_cons sep _ (split_ne sep k), ih, hc]; rfl
    · rw [if_neg hc]
      cases hs : split sep k with
      | nil => exact absurd hs (split_ne sep k)
      | cons p ps =>
        rw [hs] at ih
        cases ps with
        | nil => rw [← ih]; rfl
        | cons q ps => rw [← ih]; rfl

theorem join_append {sep : Nat} {ps qs : List Bytes} (hp : ps ≠ []) (hq : qs ≠ []) :
    join sep (ps ++ qs) = join sep ps ++ sep :: join sep qs := by
  induction ps with
  | nil => exact absurd rfl hp
  | cons p ps ih =>
    cases ps with
    | nil => exact join_cons sep p hq
    | cons q ps =>
      rw [List.cons_append, join_cons sep p (by simp), ih (by simp), join_cons sep p (by simp), List.append_assoc, List.cons_append]

theorem join_inj {sep : Nat} {ps qs : List Bytes} (hp : ps ≠ []) (h : ∀ p, p ∈ ps → sep ∉ p) (hq : qs ≠ [])
    (h' : ∀ p, p ∈ qs → sep ∉ p) (he : join sep ps = join sep qs) : ps = qs := by
  rw [← split_join hp h, he, split_join hq h']

theorem join_ne {sep : Nat} {ks : List Bytes} (h : KeyOk sep ks) : join sep ks ≠ [] := by
  intro h0
  have := split_join h.1 h.2.1
  rw [h0] at this
  exact h.2.2 this.symm

/-- Beginning with the joined parts and a separator is having the parts and more. -/
theorem branch_iff {sep : Nat} {ps qs : List Bytes} (hp : ps ≠ []) (h : ∀ p, p ∈ ps → sep ∉ p) (hq : qs ≠ [])
    (h' : ∀ p, p ∈ qs → sep ∉ p) : (join sep ps ++ [sep]) <+: join sep qs ↔ ∃ r, r ≠ [] ∧ qs = ps ++ r := by
  constructor
  · rintro ⟨x, hx⟩
    refine ⟨split sep x, split_ne sep x, ?_⟩
    rw [← split_join hq h', ← hx, List.append_assoc]
    exact split_join_sep hp h x
  · rintro ⟨r, hr, rfl⟩
    exact ⟨join sep r, by rw [join_append hp hr]; simp⟩

theorem tokey_parts (sep : Nat) (ps : List Bytes) : tokey sep false (.parts ps) = .ok (join sep ps) := rfl

theorem tokey_top {sep : Nat} {ps : List Bytes} (hne : ps ≠ []) (hl : ps.getLast? ≠ some []) :
    tokey sep true (.parts ps) = .ok (join sep ps ++ [sep]) := by
  unfold tokey
  simp only [if_true]
  cases h : ps.getLast? with
  | none => rw [List.getLast?_eq_none_iff] at h; exact absurd h hne
  | some l =>
    have hl' : l ≠ [] := fun h0 => hl (by rw [h, h0])
    simp only
    rw [if_pos hl', join_append hne (by simp)]
    rfl

/-- **C176.** Parts without separator are got back from the key, and different tuples of them have different keys. A key given as
one text means the parts between its separators. -/
theorem c176_keys (sep : Nat) :
    (∀ ps, ps ≠ [] → (∀ p, p ∈ ps → sep ∉ p) → ∃ k, tokey sep false (.parts ps) = .ok k ∧ tokeys sep k = ps) ∧
    (∀ ps qs k, ps ≠ [] → (∀ p, p ∈ ps → sep ∉ p) → qs ≠ [] → (∀ p, p ∈ qs → sep ∉ p) →
      tokey sep false (.parts ps) = .ok k → tokey sep false (.parts qs) = .ok k → ps = qs) ∧
    (∀ b, tokey sep false (.raw b) = tokey sep false (.parts (tokeys sep b)) ∧ ∀ p, p ∈ tokeys sep b → sep ∉ p) := by
  refine ⟨fun ps h1 h2 => ⟨_, rfl, split_join h1 h2⟩, ?_, fun b => ⟨by rw [tokey_parts]; show Except.ok b = _; rw [tokeys, join_split], ?_⟩⟩
  · intro ps qs k h1 h2 h3 h4 h5 h6
    rw [tokey_parts] at h5 h6
    rw [← h6] at h5
    injection h5 with h5
    exact join_inj h1 h2 h3 h4 h5
  · intro p hp
    unfold tokeys at hp
    induction b generalizing p with
    | nil => simp [split] at hp; subst hp; simp
    | cons c b ih =>
      unfold split at hp
      split at hp
      · rcases List.mem_cons.1 hp with rfl | hp
        · simp
        · exact ih p hp
      · rename_i hc
        split at hp
        · rename_i hs
          exact absurd hs (split_ne sep b)
        · rename_i q qs hs
          rcases List.mem_cons.1 hp with rfl | hp
          · intro h0
            rcases List.mem_cons.1 h0 with h0 | h0
            · exact hc h0.symm
            · exact ih q (by rw [hs]; simp) h0
          · exact ih p (by rw [hs]; simp [hp])

/-- **C176, what fails.** Parts that contain the separator are not told apart: `("a.b", "c")` and `("a", "b.c")` are one key. No
part and one empty part are the empty key, which holds no value; with `topive` no part raises IndexError. -/
theorem c176_counterexamples :
    tokey 46 false (.parts [[97, 46, 98], [99]]) = tokey 46 false (.parts [[97], [98, 46, 99]]) ∧
    tokey 46 false (.parts []) = .ok [] ∧ tokey 46 false (.parts [[]]) = .ok [] ∧
    tokey 46 true (.parts []) = .error .indexError ∧
    tokeys 46 [97, 46, 98, 46, 99] = [[97], [98], [99]] := by decide +kernel

example : KeyOk 46 [[97, 98], [], [99]] := by unfold KeyOk; decide

end Verif.Sub
