import Verif.Mgr.PropsEnc

/-!
# C76: signatures are made with the keys asked for and carry the indices asked for
-/

namespace Verif.Mgr

/-- Index and other index of signature `j`. -/
def ixAt (indices : List Int) (j : Nat) : Int := if indices = [] then j else indices.getD j 0
def oxAt (indices : List Int) (ondices : List (Option Int)) (j : Nat) : Option Int :=
  if ondices = [] then some (ixAt indices j) else ondices.getD j none

theorem signLoop_iff (indices : List Int) (ondices : List (Option Int)) (l : List Nat) : ∀ (j : Nat) (xs : List Sig),
    signLoop indices ondices l j = .ok xs ↔
      (∀ i < l.length, 0 ≤ ixAt indices (j + i) ∧ ∀ o, oxAt indices ondices (j + i) = some o → 0 ≤ o) ∧
        xs = l.mapIdx fun i k => ⟨k, (ixAt indices (j + i)).toNat, (oxAt indices ondices (j + i)).map Int.toNat⟩ := by
  induction l with
  | nil => intro j xs; simp [signLoop, eq_comm]
  | cons k rest ih =>
    intro j xs
    have hi : signLoop indices ondices (k :: rest) j = (if ixAt indices j < 0 then .error .value
      else if (oxAt indices ondices j).any (· < 0) then .error .value
      else match signLoop indices ondices rest (j + 1) with
        | .error e => .error e
        | .ok xs => .ok (⟨k, (ixAt indices j).toNat, (oxAt indices ondices j).map Int.toNat⟩ :: xs)) := rfl
    rw [hi]
    by_cases h1 : ixAt indices j < 0
    · rw [if_pos h1]
      simp only [reduceCtorEq, List.length_cons, false_iff, not_and]
      intro h
      have := (h 0 (by omega)).1
      rw [Nat.add_zero] at this; omega
    rw [if_neg h1]
    by_cases h2 : (oxAt indices ondices j).any (· < 0) = true
    · rw [if_pos h2]
      simp only [reduceCtorEq, List.length_cons, false_iff, not_and]
      intro h
      have h3 := (h 0 (by omega)).2
      rw [Nat.add_zero] at h3
      cases ho : oxAt indices ondices j with
      | none => rw [ho] at h2; simp at h2
      | some o => rw [ho] at h2; simp at h2; have := h3 o ho; omega
    rw [if_neg h2]
    have h0 : ∀ o, oxAt indices ondices j = some o → 0 ≤ o := by
      intro o ho; rw [ho] at h2; simp at h2; exact h2
    have hsh : ∀ i, j + 1 + i = j + (i + 1) := by intro i; omega
    cases hr : signLoop indices ondices rest (j + 1) with
    | error e =>
      simp only [reduceCtorEq, List.length_cons, false_iff, not_and]
      intro h _
      have := (ih (j + 1) _).2 ⟨fun i hi => by rw [hsh]; exact h (i + 1) (by omega), rfl⟩
      rw [hr] at this; simp at this
    | ok ys =>
      obtain ⟨g1, g2⟩ := (ih (j + 1) ys).1 hr
      simp only [Except.ok.injEq, List.length_cons, List.mapIdx_cons, Nat.add_zero]
      subst g2
      simp only [hsh] at g1 ⊢
      constructor
      · rintro rfl
        refine ⟨fun i hi => ?_, rfl⟩
        cases i with
        | zero => exact ⟨by simpa using h1, h0⟩
        | succ i => exact g1 i (by omega)
      · rintro ⟨_, rfl⟩; rfl

theorem readPris_iff {env : Env} {ks : Ks} {mem : Mem} (hk : Kept ks) (l : List Nat) :
    (∃ xs, readPris env ks mem l = .ok xs) ↔ ∀ k ∈ l, Readable env ks mem k := by
  induction l with
  | nil => simp [readPris]
  | cons k rest ih =>
    simp only [List.mem_cons, forall_eq_or_imp]
    rw [← ih]
    constructor
    · rintro ⟨xs, h⟩
      unfold readPris at h
      split at h
      · simp at h
      rename_i hc
      split at h
      · simp at h
      rename_i s hs
      split at h
      · simp at h
      rename_i x hx
      split at h
      · simp at h
      rename_i ys hys
      refine ⟨⟨fun ha => ?_, s, hs, ?_⟩, ⟨ys, hys⟩⟩
      · cases hd : mem.dec with
        | none => simp [ha, hd] at hc
        | some d => rfl
      · have hxk : x = k := unlock_holds hx (hk.pris k s hs)
        subst hxk
        cases hd : mem.dec with
        | none =>
          rw [hd] at hx
          cases s <;> simp [unlock] at hx
          exact .inl ⟨rfl, by rw [hx]⟩
        | some d =>
          rw [hd] at hx
          cases s with
          | plain y => simp [unlock] at hx
          | junk => simp [unlock] at hx
          | sealed b y =>
            simp only [unlock] at hx
            split at hx
            · rename_i hb
              simp at hx
              exact .inr ⟨d, rfl, by rw [hb, hx]⟩
            · simp at hx
    · rintro ⟨⟨ha, s, hs, ho⟩, ys, hys⟩
      unfold readPris
      have hc : ¬ (ks.aeid.isSome && mem.dec.isNone) = true := by
        intro hc
        simp only [Bool.and_eq_true] at hc
        have := ha hc.1
        simp at this hc
        rw [hc.2] at this; simp at this
      rw [if_neg hc, hs]
      have hu : unlock env mem.dec s = .ok k := by
        rcases ho with ⟨hd, rfl⟩ | ⟨d, hd, rfl⟩ <;> rw [hd] <;> simp [unlock]
      dsimp only
      rw [hu]
      dsimp only
      rw [hys]
      exact ⟨_, rfl⟩

/-- **C76.** After any history, signing with a manager succeeds exactly when the private key of every key given can be read, there are no indices or as many
as keys, none negative, and the same for other indices; then there is one signature for each key, in order, made with its private key, with the
indices asked for. Nothing is written. -/
theorem c76_sign {env : Env} {h : Hist} {n : Node} (hh : Happened env h n) {mem : Mem} (hm : n.mem = some mem) (pubs : List Nat) (indices : List Int)
    (ondices : List (Option Int)) (sigs : List Sig) :
    ((n.step env (.call (.sign pubs indices ondices))).2 = some (.sigs sigs) ↔
      (∀ k ∈ pubs, Readable env n.ks mem k) ∧ (indices ≠ [] → indices.length = pubs.length ∧ ∀ i ∈ indices, 0 ≤ i) ∧
        (ondices ≠ [] → ondices.length = pubs.length ∧ ∀ i, some i ∈ ondices → 0 ≤ i) ∧ sigs = wanted pubs indices ondices) ∧
      (n.step env (.call (.sign pubs indices ondices))).1 = n := by
  have hk := hh.kept
  have hst : (n.step env (.call (.sign pubs indices ondices))) = (⟨n.ks, n.mem⟩, some (.ofSigs (sign env n.ks mem pubs indices ondices))) := by
    show ((⟨n.ks.applyAll (exec env n (.sign pubs indices ondices)).1, (exec env n (.sign pubs indices ondices)).2.1⟩ : Node),
      some (exec env n (.sign pubs indices ondices)).2.2) = _
    simp only [exec, withMgr, hm]; rfl
  rw [hst]
  refine ⟨?_, rfl⟩
  have hsig : (some (Res.ofSigs (sign env n.ks mem pubs indices ondices)) = some (.sigs sigs)) ↔ sign env n.ks mem pubs indices ondices = .ok sigs := by
    cases sign env n.ks mem pubs indices ondices <;> simp [Res.ofSigs]
  dsimp only
  rw [hsig]
  unfold sign
  rw [← readPris_iff hk]
  cases hr : readPris env n.ks mem pubs with
  | error e => simp
  | ok signers =>
    obtain ⟨rfl, _⟩ := readPris_ok hk hr
    dsimp only
    simp only [Except.ok.injEq, exists_eq', true_and]
    by_cases h1 : indices ≠ [] ∧ indices.length ≠ signers.length
    · rw [if_pos h1]
      simp only [reduceCtorEq, false_iff, not_and]
      intro h; exact absurd (h h1.1).1 h1.2
    rw [if_neg h1]
    by_cases h2 : ondices ≠ [] ∧ ondices.length ≠ signers.length
    · rw [if_pos h2]
      simp only [reduceCtorEq, false_iff, not_and]
      intro _ h; exact absurd (h h2.1).1 h2.2
    rw [if_neg h2, signLoop_iff]
    simp only [Nat.zero_add]
    have hl1 : indices ≠ [] → indices.length = signers.length := fun h => by
      rcases Nat.lt_trichotomy indices.length signers.length with g | g | g
      · exact absurd ⟨h, by omega⟩ h1
      · exact g
      · exact absurd ⟨h, by omega⟩ h1
    have hl2 : ondices ≠ [] → ondices.length = signers.length := fun h => by
      rcases Nat.lt_trichotomy ondices.length signers.length with g | g | g
      · exact absurd ⟨h, by omega⟩ h2
      · exact g
      · exact absurd ⟨h, by omega⟩ h2
    have hw : (signers.mapIdx fun i k => (⟨k, (ixAt indices i).toNat, (oxAt indices ondices i).map Int.toNat⟩ : Sig)) = wanted signers indices ondices := rfl
    rw [hw]
    have hcond : (∀ i < signers.length, 0 ≤ ixAt indices i ∧ ∀ o, oxAt indices ondices i = some o → 0 ≤ o) ↔
        (indices ≠ [] → indices.length = signers.length ∧ ∀ i ∈ indices, 0 ≤ i) ∧
          (ondices ≠ [] → ondices.length = signers.length ∧ ∀ i, some i ∈ ondices → 0 ≤ i) := by
      constructor
      · intro h
        refine ⟨fun hne => ⟨hl1 hne, fun x hx => ?_⟩, fun hne => ⟨hl2 hne, fun x hx => ?_⟩⟩
        · obtain ⟨j, hj, rfl⟩ := List.mem_iff_getElem.1 hx
          have := (h j (by rw [← hl1 hne]; exact hj)).1
          simpa [ixAt, hne, hj] using this
        · obtain ⟨j, hj, hjx⟩ := List.mem_iff_getElem.1 hx
          refine (h j (by rw [← hl2 hne]; exact hj)).2 x ?_
          simp [oxAt, hne, hj, hjx]
      · rintro ⟨g1, g2⟩ i hi
        have hix : 0 ≤ ixAt indices i := by
          unfold ixAt
          split
          · omega
          · rename_i hne
            have hii : i < indices.length := by rw [hl1 hne]; exact hi
            rw [List.getD_eq_getElem?_getD, List.getElem?_eq_getElem hii]
            exact (g1 hne).2 _ (List.getElem_mem hii)
        refine ⟨hix, fun o ho => ?_⟩
        unfold oxAt at ho
        split at ho
        · simp at ho; omega
        · rename_i hne
          have hii : i < ondices.length := by rw [hl2 hne]; exact hi
          rw [List.getD_eq_getElem?_getD, List.getElem?_eq_getElem hii] at ho
          simp at ho
          exact (g2 hne).2 o (by rw [← ho]; exact List.getElem_mem hii)
    rw [hcond, and_assoc]

end Verif.Mgr
