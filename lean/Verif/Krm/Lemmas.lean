import Verif.Krm.Spec

/-! # What the parts of `Kramer` change -/

namespace Verif.Krm

open Verif.Kel (Id Dig Sig)

/-- Only what waits under one key is different. -/
structure Part (key : Id × Dig) (k k' : Krm) : Prop where
  enabled : k'.enabled = k.enabled
  denials : k'.denials = k.denials
  cf : k'.cf = k.cf
  pending : k'.pending = k.pending
  ctyp : k'.ctyp = k.ctyp
  msgc : k'.msgc = k.msgc
  tmsc : k'.tmsc = k.tmsc
  pmkm : ∀ q, q ≠ key → k'.pmkm.get q = k.pmkm.get q
  pmks : ∀ q, q ≠ key → k'.pmks.get q = k.pmks.get q
  pmsk : ∀ q, q ≠ key → k'.pmsk.get q = k.pmsk.get q

theorem Part.refl (key : Id × Dig) (k : Krm) : Part key k k := ⟨rfl, rfl, rfl, rfl, rfl, rfl, rfl, fun _ _ => rfl, fun _ _ => rfl, fun _ _ => rfl⟩

theorem items_pin {t : Tab (Id × Dig) (List Sig)} (k : Id × Dig) (v : List Sig) (q : Id × Dig) :
    Tab.items (Tab.pin t k v) q = if k = q then v else Tab.items t q := by
  unfold Tab.items
  rw [get_pin]
  split <;> rfl

theorem addSigs_other {q key : Id × Dig} (h : q ≠ key) : ∀ (l : List Sig) (t : Tab (Id × Dig) (List Sig)), Tab.get (addSigs t key l) q = Tab.get t q
  | [], _ => rfl
  | s :: l, t => by
    show Tab.get (addSigs (if s ∈ t.items key then t else Tab.pin t key (t.items key ++ [s])) key l) q = _
    rw [addSigs_other h l]
    split
    · rfl
    · rw [get_pin, if_neg (fun e => h e.symm)]

theorem part_write {key : Id × Dig} {k : Krm} {m : Msg} {l : List Sig} {v : Nat × Dig} (a b : Bool) : Part key k { k with
    pmkm := if a then k.pmkm.put key m else k.pmkm, pmks := addSigs k.pmks key l, pmsk := if b then k.pmsk.pin key v else k.pmsk } := by
  refine ⟨rfl, rfl, rfl, rfl, rfl, rfl, rfl, ?_, ?_, ?_⟩
  · intro q hq
    dsimp only
    split
    · rw [get_put, if_neg (fun e => hq e.1.symm)]
    · rfl
  · intro q hq
    exact addSigs_other hq _ _
  · intro q hq
    dsimp only
    split
    · rw [get_pin, if_neg (fun e => hq e.symm)]
    · rfl

theorem gather_part (k : Krm) (m : Msg) (ks : Ks) (l : List Sig) : Part (m.sender, m.said) k (gather k m ks l) := by
  have := part_write (key := (m.sender, m.said)) (k := k) (m := m) (v := (ks.sn, ks.said)) (l := l) (decide (l ≠ []))
    (decide (l ≠ [] ∧ k.pmsk.get (m.sender, m.said) = none))
  simp only [decide_eq_true_eq] at this
  exact this

theorem accumulate_part (env : Env) (k : Krm) (m : Msg) (ks : Ks) (kwa : Kwa) : Part (m.sender, m.said) k (accumulate env k m ks kwa).1 := by
  unfold accumulate
  dsimp only
  split
  · exact .refl _ _
  · split
    · exact .refl _ _
    · split <;> exact gather_part ..

theorem again_part (env : Env) (k : Krm) (m : Msg) (mdt : Int) (kwa : Kwa) (seals sigs : Bool) (c : Cache) :
    Part (m.sender, m.said) k (again env k m mdt kwa seals sigs c).1 := by
  unfold again
  split
  · exact .refl _ _
  · split
    · exact .refl _ _
    · split
      · exact .refl _ _
      · split
        · exact .refl _ _
        · exact .refl _ _
        · split
          · exact .refl _ _
          · exact accumulate_part ..

/-- A message in the cache is only handed on if signatures are waiting or it is newer. -/
theorem again_drop {env : Env} {k : Krm} {m : Msg} {mdt : Int} {kwa : Kwa} {seals sigs : Bool} {c : Cache} (h1 : mdt ≤ c.mdt)
    (h2 : k.pmkm.get (m.sender, m.said) = none) : again env k m mdt kwa seals sigs c = (k, .ok none) := by
  unfold again
  rw [if_pos ⟨h1, h2⟩]

/-- The ways a message that is not in the cache is treated. -/
theorem authenticate_cases (env : Env) (k : Krm) (m : Msg) (ks : Ks) (kwa : Kwa) (auth : Auth) (validated : Bool) (pin : Krm → Krm) :
    authenticate env k m ks kwa auth validated pin = (k, .ok none) ∨ (∃ kwa', authenticate env k m ks kwa auth validated pin = (pin k, .ok (some kwa'))) ∨
      (auth = .asmk ∧ ∃ k', authenticate env k m ks kwa auth validated pin = (k', .ok none) ∧ Part (m.sender, m.said) (pin k) k' ∧
        k'.pmkm.get (m.sender, m.said) ≠ none) := by
  unfold authenticate
  cases auth with
  | asr =>
    dsimp only
    split
    · exact Or.inr (Or.inl ⟨_, rfl⟩)
    · exact Or.inl rfl
  | assk =>
    dsimp only
    split
    · exact Or.inr (Or.inl ⟨_, rfl⟩)
    · exact Or.inl rfl
  | asmk =>
    dsimp only
    split
    · exact Or.inl rfl
    · split
      · exact Or.inr (Or.inl ⟨_, rfl⟩)
      · refine Or.inr (Or.inr ⟨rfl, _, rfl, ?_, ?_⟩)
        · have := part_write (key := (m.sender, m.said)) (k := pin k) (m := m) (v := (ks.sn, ks.said)) (l := (verifyAttached env m ks kwa).2.1) true true
          simpa using this
        · dsimp only
          rw [get_put]
          by_cases h : (pin k).pmkm.get (m.sender, m.said) = none
          · simp [h]
          · simp [h]

/-- What a delivery does, for a message of no exchange. -/
inductive Done (S : Prop) (env : Env) (now : Int) (k : Krm) (m : Msg) : Krm → Bool → Prop where
  | same : Done S env now k m k false
  | waits {k' : Krm} {b : Bool} : k.pmkm.get (m.sender, m.said) ≠ none ∨ (∃ c mdt, k.msgc.get (m.sender, m.said) = some c ∧ m.stamp = some mdt ∧ c.mdt < mdt) →
      (∃ ks, env.kevers m.sender = some ks ∧ ks.keys.length ≠ 1) → Part (m.sender, m.said) k k' → Done S env now k m k' b
  | pass {mdt : Int} {r : Rec} {auth : Auth} {ks : Ks} {b : Bool} {k' : Krm} : m.stamp = some mdt → k.msgc.get (m.sender, m.said) = none → fetch k.ctyp m = .ok r →
      env.kevers m.sender = some ks → (auth = .asr ∧ S) ∨ auth = sigAuth ks →
      timely now mdt r.d (lags r auth).1 = true →
      Part (m.sender, m.said) { k with msgc := k.msgc.pin (m.sender, m.said) ⟨mdt, 0, r.d, (lags r auth).1, (lags r auth).2, r.xl, r.pxl⟩ } k' →
      (b = true → k'.pmkm.get (m.sender, m.said) = k.pmkm.get (m.sender, m.said)) → (b = false → auth = .asmk ∧ k'.pmkm.get (m.sender, m.said) ≠ none) →
      Done S env now k m k' b

def isPass : Except Exn (Option Kwa) → Bool
  | .ok (some _) => true
  | _ => false

theorem resolve_auth {env : Env} {m : Msg} {k : Kwa} {ks : Ks} {seals sigs : Bool} {auth : Auth} {v : Bool} (h : resolve env m k ks seals sigs = some (auth, v)) :
    (auth = .asr ∧ seals = true) ∨ auth = sigAuth ks := by
  unfold resolve at h
  split at h
  · rename_i h1; cases h; exact Or.inl ⟨rfl, by simp at h1; exact h1.1⟩
  · split at h
    · cases h; exact Or.inr rfl
    · split at h
      · split at h
        · rename_i h1 _ _; cases h; exact Or.inl ⟨rfl, by simp at h1; exact h1.1⟩
        · cases h; exact Or.inr rfl
      · cases h

theorem again_done {S : Prop} {env : Env} {now : Int} {k : Krm} {m : Msg} {mdt : Int} {kwa : Kwa} {seals sigs : Bool} {c : Cache} (hs : m.stamp = some mdt)
    (hc : k.msgc.get (m.sender, m.said) = some c) :
    Done S env now k m (again env k m mdt kwa seals sigs c).1 (isPass (again env k m mdt kwa seals sigs c).2) := by
  unfold again
  split
  · exact .same
  · rename_i h0
    split
    · exact .same
    · split
      · exact .same
      · rename_i ks hks
        split
        · exact .same
        · exact .same
        · split
          · exact .same
          · rename_i h1
            refine .waits ?_ ⟨ks, hks, h1⟩ (accumulate_part ..)
            by_cases h2 : k.pmkm.get (m.sender, m.said) = none
            · refine Or.inr ⟨c, mdt, hc, hs, ?_⟩
              by_cases h3 : mdt ≤ c.mdt
              · exact absurd ⟨h3, h2⟩ h0
              · omega
            · exact Or.inl h2

theorem fresh1_done {S : Prop} {env : Env} {now : Int} {k : Krm} {m : Msg} {mdt : Int} {kwa : Kwa} {seals sigs : Bool} (hs : m.stamp = some mdt)
    (hc : k.msgc.get (m.sender, m.said) = none) (hS : seals = true → S) :
    Done S env now k m (fresh1 env now k m mdt kwa seals sigs).1 (isPass (fresh1 env now k m mdt kwa seals sigs).2) := by
  unfold fresh1
  split
  · exact .same
  · rename_i r hr
    split
    · exact .same
    · rename_i ks hks
      split
      · exact .same
      · rename_i auth v hv
        dsimp only
        split
        · exact .same
        · rename_i ht
          have ht : timely now mdt r.d (lags r auth).1 = true := by simpa using ht
          rcases authenticate_cases env k m ks kwa auth v
            (fun k => { k with msgc := k.msgc.pin (m.sender, m.said) ⟨mdt, 0, r.d, (lags r auth).1, (lags r auth).2, r.xl, r.pxl⟩ }) with h | ⟨kwa', h⟩ | ⟨h1, k', h, h3, h4⟩
          · rw [h]; exact .same
          · rw [h]; exact .pass hs hc hr hks ((resolve_auth hv).imp (fun h => ⟨h.1, hS h.2⟩) id) ht (.refl _ _) (fun _ => rfl) (fun h => by simp [isPass] at h)
          · rw [h]; exact .pass hs hc hr hks ((resolve_auth hv).imp (fun h => ⟨h.1, hS h.2⟩) id) ht h3 (fun h => by simp [isPass] at h) (fun _ => ⟨h1, h4⟩)

theorem hasSeals_norm {m : Msg} {kwa : Kwa} (h : hasSeals m.sender (normLast m.sender (normSeals m.sender kwa)) = true) : HasSeal m kwa := by
  unfold hasSeals normLast normSeals at h
  dsimp only at h
  rw [Bool.or_eq_true] at h
  rcases h with h | h
  · have h : kwa.sscs ++ (kwa.ssts.filter (fun t => t.1 = m.sender)).map (fun t => (t.2.1, t.2.2)) ≠ [] := by simpa using h
    by_cases h1 : kwa.sscs = []
    · rw [h1, List.nil_append] at h
      obtain ⟨q, hq⟩ := List.exists_mem_of_ne_nil _ h
      obtain ⟨t, ht, _⟩ := List.mem_map.1 hq
      obtain ⟨h2, h3⟩ := List.mem_filter.1 ht
      exact Or.inr ⟨t, h2, by simpa using h3⟩
    · exact Or.inl h1
  · obtain ⟨t, ht, h2⟩ := List.any_eq_true.1 h
    exact Or.inr ⟨t, (List.mem_filter.1 ht).1, by simpa using h2⟩

theorem kramit_done (env : Env) (now : Int) (k : Krm) (m : Msg) (kwa : Kwa) (hx : exId m = none) :
    Done (HasSeal m kwa) env now k m (kramit env now k m kwa).1 (isPass (kramit env now k m kwa).2) := by
  unfold kramit
  split
  · exact .same
  · rename_i mdt hs
    dsimp only
    split
    · exact .same
    · rw [hx]
      dsimp only
      split
      · rename_i c hc
        exact again_done hs hc
      · rename_i hc
        exact fresh1_done hs hc hasSeals_norm

end Verif.Krm
