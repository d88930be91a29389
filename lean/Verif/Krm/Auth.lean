import Verif.Krm.SpecAuth
import Verif.Krm.Uniform
import Verif.Kel.Val

/-! # Authentication -/

namespace Verif.Krm

open Verif.Kel (Id Dig Sig)

theorem attached_norm {ks : Ks} {m : Msg} {kwa : Kwa} {s : Sig} (h : Attached ks m (normLast m.sender (normSeals m.sender kwa)) s) : Attached ks m kwa s := by
  rcases h with h | ⟨l, h1, h2, h3⟩ | h
  · rcases List.mem_append.1 h with h | h
    · exact Or.inl h
    · obtain ⟨l, h1, h2⟩ := List.mem_flatMap.1 h
      obtain ⟨h3, h4⟩ := List.mem_filter.1 h1
      exact Or.inr (Or.inl ⟨l, h3, by simpa using h4, h2⟩)
  · exact Or.inr (Or.inl ⟨l, (List.mem_filter.1 h1).1, h2, h3⟩)
  · exact Or.inr (Or.inr h)

theorem sealed_norm {env : Env} {m : Msg} {kwa : Kwa} (h : Sealed env m (normLast m.sender (normSeals m.sender kwa))) : Sealed env m kwa := by
  obtain ⟨sn, dig, h1, h2⟩ := h
  refine ⟨sn, dig, ?_, h2⟩
  rcases h1 with h1 | h1
  · rcases List.mem_append.1 h1 with h1 | h1
    · exact Or.inl h1
    · obtain ⟨⟨a, b, c⟩, h3, h4⟩ := List.mem_map.1 h1
      obtain ⟨h5, h6⟩ := List.mem_filter.1 h3
      have h7 : a = m.sender := by simpa using h6
      injection h4 with h8 h9
      dsimp only at h8 h9
      subst h7 h8 h9
      exact Or.inr h5
  · exact Or.inr (List.mem_filter.1 h1).1

theorem ownSig_norm {env : Env} {m : Msg} {kwa : Kwa} (h : OwnSig env m (normLast m.sender (normSeals m.sender kwa))) : OwnSig env m kwa := h

theorem current_true {s : Id} {ks : Ks} {t : Id × Nat × Dig × List Sig} (h : current s ks t = true) : t.1 = s ∧ t.2.1 = ks.sn ∧ t.2.2.1 = ks.said :=
  of_decide_eq_true h

theorem pool_attached {ks : Ks} {m : Msg} {kwa : Kwa} {s : Sig} (h : s ∈ pool m.sender ks (scrubPrior m.sender ks (normCurrent m.sender ks kwa))) : Attached ks m kwa s := by
  unfold pool at h
  rcases List.mem_append.1 h with h | h
  · rcases List.mem_append.1 h with h | h
    · rcases List.mem_append.1 h with h | h
      · exact Or.inl h
      · obtain ⟨t, h1, h2⟩ := List.mem_flatMap.1 h
        obtain ⟨h3, h4⟩ := List.mem_filter.1 h1
        obtain ⟨h5, h6, h7⟩ := current_true h4
        exact Or.inr (Or.inr ⟨t, h3, h5, h6, h7, h2⟩)
    · obtain ⟨l, h1, h2⟩ := List.mem_flatMap.1 h
      obtain ⟨h3, h4⟩ := List.mem_filter.1 h1
      exact Or.inr (Or.inl ⟨l, h3, by simpa using h4, h2⟩)
  · obtain ⟨t, h1, h2⟩ := List.mem_flatMap.1 h
    obtain ⟨h3, h4⟩ := List.mem_filter.1 h1
    obtain ⟨h5, h6, h7⟩ := current_true h4
    exact Or.inr (Or.inr ⟨t, (List.mem_filter.1 h3).1, h5, h6, h7, h2⟩)

theorem verifySigs_good {env : Env} {m : Msg} {ss : List Sig} {ks : Ks} {s : Sig} (h : s ∈ verifySigs env m ss ks.keys) : s ∈ ss ∧ Good env ks m s := by
  unfold verifySigs at h
  obtain ⟨h1, h2⟩ := List.mem_filter.1 h
  refine ⟨?_, ?_⟩
  · exact (Verif.Kel.mem_oset _ _).1 h1
  · split at h2
    · simp at h2
    · rename_i k hk
      exact ⟨k, hk, h2⟩

theorem verifyAttached_nodup (env : Env) (m : Msg) (ks : Ks) (kwa : Kwa) : (verifyAttached env m ks kwa).2.1.Nodup := by
  unfold verifyAttached
  dsimp only
  split
  · simp
  · exact (Verif.Kel.nodup_oset _).filter _

/-- What verification of signatures establishes. -/
theorem verifyAttached_good {env : Env} {m : Msg} {ks : Ks} {kwa : Kwa} (h : (verifyAttached env m ks kwa).1 = true) :
    (∀ s ∈ (verifyAttached env m ks kwa).2.1, Attached ks m kwa s ∧ Good env ks m s) ∧ (OwnSig env m kwa ∨ (verifyAttached env m ks kwa).2.1 ≠ []) := by
  unfold verifyAttached at h ⊢
  dsimp only at h ⊢
  split
  · rename_i hc
    refine ⟨fun s hs => by simp at hs, Or.inl ?_⟩
    obtain ⟨c, h1, h2⟩ := List.any_eq_true.1 hc
    simp only [Bool.and_eq_true, Bool.not_eq_true', decide_eq_true_eq] at h2
    exact ⟨c, h1, h2.1.2.symm, h2.1.1, h2.2⟩
  · rename_i hc
    rw [if_neg hc] at h
    refine ⟨fun s hs => ?_, Or.inr ?_⟩
    · obtain ⟨h1, h2⟩ := verifySigs_good hs
      exact ⟨pool_attached h1, h2⟩
    · simpa using h

theorem validateSeal_sealed {env : Env} {m : Msg} {kwa : Kwa} (h : validateSeal env m kwa = .ok true) : Sealed env m kwa := by
  unfold validateSeal at h
  dsimp only at h
  split at h
  · simp at h
  · rename_i sn dig hc
    split at h
    · simp at h
    · rename_i d hd
      split at h
      · simp at h
      · rename_i hne
        have hne : d = dig := Decidable.not_not.1 hne
        split at h
        · simp at h
        · rename_i ds hds
          injection h with h
          subst hne
          refine ⟨sn, d, ?_, hd, ds, hds, by simpa using h⟩
          have h1 := List.mem_of_getLast? hc
          rcases List.mem_append.1 h1 with h1 | h1
          · exact Or.inl h1
          · obtain ⟨⟨a, b, c⟩, h3, h4⟩ := List.mem_map.1 h1
            obtain ⟨h5, h6⟩ := List.mem_filter.1 h3
            have h7 : a = m.sender := by simpa using h6
            injection h4 with h8 h9
            dsimp only at h8 h9
            subst h7 h8 h9
            exact Or.inr h5

/-- How the partial signatures change, and why a message is handed on. -/
inductive Sgn (env : Env) (k : Krm) (m : Msg) (kwa : Kwa) : Krm → Bool → Prop where
  | drop {k' : Krm} : k'.pmks = k.pmks → k'.pmsk = k.pmsk → k'.pmkm = k.pmkm → Sgn env k m kwa k' false
  | pass {k' : Krm} : k'.pmks = k.pmks → k'.pmsk = k.pmsk → k'.pmkm = k.pmkm →
      (Sealed env m kwa ∨ OwnSig env m kwa ∨ ∃ ks, env.kevers m.sender = some ks ∧
        ((ks.keys.length = 1 ∧ ∃ s, Attached ks m kwa s ∧ Good env ks m s) ∨
          ∃ vs : List Sig, (∀ s ∈ vs, Attached ks m kwa s ∧ Good env ks m s) ∧ vs.Nodup ∧ Verif.Thold.satisfy ks.kt (vs.map Sig.index) = true)) → Sgn env k m kwa k' true
  | wait {k' : Krm} {ks : Ks} {vs : List Sig} : env.kevers m.sender = some ks → (∀ s ∈ vs, Attached ks m kwa s ∧ Good env ks m s) → vs.Nodup →
      (match exId m with | none => k.msgc.get (m.sender, m.said) = none | some x => k.tmsc.get (m.sender, x, m.said) = none) →
      k'.pmks = addSigs k.pmks (m.sender, m.said) vs → k'.pmsk = k.pmsk.pin (m.sender, m.said) (ks.sn, ks.said) → Sgn env k m kwa k' false
  | more {k' : Krm} {ks : Ks} {vs : List Sig} {b : Bool} : env.kevers m.sender = some ks → (∀ s ∈ vs, Attached ks m kwa s ∧ Good env ks m s) → vs.Nodup →
      (∀ s ∈ vs, s.index ∉ (k.pmks.items (m.sender, m.said)).map Sig.index) →
      stale (k.pmsk.get (m.sender, m.said)) ks = false → k'.pmks = addSigs k.pmks (m.sender, m.said) vs →
      k'.pmsk = (if vs ≠ [] ∧ k.pmsk.get (m.sender, m.said) = none then k.pmsk.pin (m.sender, m.said) (ks.sn, ks.said) else k.pmsk) →
      (b = true → Verif.Thold.satisfy ks.kt ((k.pmks.items (m.sender, m.said) ++ vs).map Sig.index) = true) → Sgn env k m kwa k' b

theorem sigAuth_assk {ks : Ks} (h : sigAuth ks = .assk) : ks.keys.length = 1 := by
  unfold sigAuth at h
  split at h
  · assumption
  · simp at h

theorem authenticate_sgn {env : Env} {k : Krm} {m : Msg} {ks : Ks} {kwa : Kwa} {auth : Auth} {v : Bool} {pin : Krm → Krm} (hk : env.kevers m.sender = some ks)
    (hp : (pin k).pmks = k.pmks ∧ (pin k).pmsk = k.pmsk ∧ (pin k).pmkm = k.pmkm) (ha : auth = .asr ∨ auth = sigAuth ks) (hv : v = true → Sealed env m kwa)
    (hn : match exId m with | none => k.msgc.get (m.sender, m.said) = none | some x => k.tmsc.get (m.sender, x, m.said) = none) :
    Sgn env k m kwa (authenticate env k m ks kwa auth v pin).1 (isPass (authenticate env k m ks kwa auth v pin).2) := by
  unfold authenticate
  cases auth with
  | asr =>
    dsimp only
    split
    · rename_i h
      refine .pass hp.1 hp.2.1 hp.2.2 (Or.inl ?_)
      unfold sealOk at h
      cases hvv : v with
      | true => exact hv hvv
      | false =>
        rw [hvv, Bool.false_or] at h
        cases hs : validateSeal env m kwa with
        | error e => rw [hs] at h; simp at h
        | ok b =>
          rw [hs] at h
          dsimp only at h
          subst h
          exact validateSeal_sealed hs
    · exact .drop rfl rfl rfl
  | assk =>
    dsimp only
    split
    · rename_i h
      obtain ⟨h1, h2⟩ := verifyAttached_good h
      refine .pass hp.1 hp.2.1 hp.2.2 (Or.inr ?_)
      rcases h2 with h2 | h2
      · exact Or.inl h2
      · obtain ⟨s, hs⟩ := List.exists_mem_of_ne_nil _ h2
        refine Or.inr ⟨ks, hk, Or.inl ⟨?_, s, h1 s hs⟩⟩
        rcases ha with ha | ha
        · simp at ha
        · exact sigAuth_assk ha.symm
    · exact .drop rfl rfl rfl
  | asmk =>
    dsimp only
    split
    · exact .drop rfl rfl rfl
    · rename_i h
      have h : (verifyAttached env m ks kwa).1 = true := by simpa using h
      obtain ⟨h1, h2⟩ := verifyAttached_good h
      split
      · rename_i h3
        exact .pass hp.1 hp.2.1 hp.2.2 (Or.inr (Or.inr ⟨ks, hk, Or.inr ⟨_, h1, verifyAttached_nodup _ _ _ _, h3⟩⟩))
      · refine .wait hk h1 (verifyAttached_nodup _ _ _ _) hn ?_ ?_
        · dsimp only; rw [hp.1]
        · dsimp only; rw [hp.2.1]

theorem again_sgn {env : Env} {k : Krm} {m : Msg} {mdt : Int} {kwa : Kwa} {seals sigs : Bool} {c : Cache} :
    Sgn env k m kwa (again env k m mdt kwa seals sigs c).1 (isPass (again env k m mdt kwa seals sigs c).2) := by
  unfold again
  split
  · exact .drop rfl rfl rfl
  · split
    · exact .drop rfl rfl rfl
    · split
      · exact .drop rfl rfl rfl
      · rename_i ks hks
        split
        · exact .drop rfl rfl rfl
        · exact .drop rfl rfl rfl
        · split
          · exact .drop rfl rfl rfl
          · unfold accumulate
            dsimp only
            split
            · exact .drop rfl rfl rfl
            · rename_i hv
              have hv : (verifyAttached env m ks kwa).1 = true := by simpa using hv
              obtain ⟨h1, h2⟩ := verifyAttached_good hv
              split
              · exact .drop rfl rfl rfl
              · rename_i hst
                have hst : stale (k.pmsk.get (m.sender, m.said)) ks = false := by simpa using hst
                have h3 : ∀ s ∈ unseen (k.pmks.items (m.sender, m.said)) (verifyAttached env m ks kwa).2.1, Attached ks m kwa s ∧ Good env ks m s :=
                  fun s hs => h1 s (List.mem_filter.1 hs).1
                split
                · rename_i h4
                  exact .more hks h3 ((verifyAttached_nodup _ _ _ _).filter _) (fun s hs => by simpa [unseen] using (List.mem_filter.1 hs).2) hst rfl rfl (fun _ => h4.2)
                · exact .more hks h3 ((verifyAttached_nodup _ _ _ _).filter _) (fun s hs => by simpa [unseen] using (List.mem_filter.1 hs).2) hst rfl rfl (fun h => by simp [isPass] at h)

theorem resolve_sealed {env : Env} {m : Msg} {kwa : Kwa} {ks : Ks} {seals sigs : Bool} {auth : Auth} {v : Bool} (h : resolve env m kwa ks seals sigs = some (auth, v)) :
    v = true → Sealed env m kwa := by
  intro hv
  subst hv
  unfold resolve at h
  split at h
  · simp at h
  · split at h
    · simp at h
    · split at h
      · split at h
        · rename_i hs
          exact validateSeal_sealed hs
        · simp at h
      · simp at h

theorem kramit_sgn (env : Env) (now : Int) (k : Krm) (m : Msg) (kwa : Kwa) :
    Sgn env k m (normLast m.sender (normSeals m.sender kwa)) (kramit env now k m kwa).1 (isPass (kramit env now k m kwa).2) := by
  unfold kramit
  split
  · exact .drop rfl rfl rfl
  · dsimp only
    split
    · exact .drop rfl rfl rfl
    · split
      · rename_i hx
        split
        · exact again_sgn
        · rename_i hn
          unfold fresh1
          split
          · exact .drop rfl rfl rfl
          · split
            · exact .drop rfl rfl rfl
            · rename_i ks hks
              split
              · exact .drop rfl rfl rfl
              · rename_i auth v hv
                dsimp only
                split
                · exact .drop rfl rfl rfl
                · exact authenticate_sgn hks ⟨rfl, rfl, rfl⟩ ((resolve_auth hv).imp And.left id) (resolve_sealed hv) (by rw [hx]; exact hn)
      · rename_i x hx
        split
        · exact again_sgn
        · rename_i hn
          unfold fresh2
          split
          · exact .drop rfl rfl rfl
          · split
            · exact .drop rfl rfl rfl
            · rename_i ks hks
              split
              · exact .drop rfl rfl rfl
              · rename_i auth v hv
                dsimp only
                split
                · exact .drop rfl rfl rfl
                · split
                  · exact .drop rfl rfl rfl
                  · split
                    · exact .drop rfl rfl rfl
                    · exact authenticate_sgn hks ⟨rfl, rfl, rfl⟩ ((resolve_auth hv).imp And.left id) (resolve_sealed hv) (by rw [hx]; exact hn)

end Verif.Krm
