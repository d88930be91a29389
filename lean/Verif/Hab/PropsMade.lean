import Verif.Hab.PropsFail

/-!
# C132: what a new identifier is made of
-/

namespace Verif.Hab

open Verif.Kel (Event Id Dig)
open Verif.Mgr (Keys)

theorem inceptWr_keys {env : Mgr.Env} {ks : Mgr.Ks} {mem : Mgr.Mem} {cr : Mgr.Creator} {pidx : Nat} {pubs nxts : List Nat} {k : Keys}
    (h : (Mgr.inceptWr env ks mem cr pidx pubs nxts).2 = .ok k) : k = ⟨pubs, nxts.map env.dig⟩ := by
  unfold Mgr.inceptWr at h
  split at h
  · cases h
  dsimp only at h
  iterate 3 (split at h; · cases h)
  split at h
  · cases h
  split at h
  · cases h
  · injection h with h; exact h.symm

theorem makeKeys_counts {env : Env} {w : World} {a : MakeArgs} {k : Keys} (h : (makeKeys env w a).2 = .ok k) :
    k.verfers.length = a.icount.toNat ∧ k.digers.length = (if a.transferable then a.ncount.getD a.icount else 0).toNat := by
  unfold makeKeys Mgr.incept at h
  dsimp only at h
  split at h
  · cases h
  split at h
  · cases h
  split at h
  · cases h
  split at h
  · cases h
  rename_i icodes hi
  split at h
  · cases h
  rename_i ncodes hn
  rw [inceptWr_keys h]
  exact ⟨create_length.trans (expand_nil_length hi), by rw [List.length_map]; exact create_length.trans (expand_nil_length hn)⟩

theorem thold2_hex (n : Nat) : thold2 (hexSith n) = .ok (.num n) := sith_back (t := .num n) (by intro _ h; cases h)

/-- C132, content: the event of a new identifier has as many keys and digests of next keys as asked for, and the thresholds asked for; by default half of the keys, rounded up,
sign, and the next threshold is the given one. Identifiers that are not transferable commit to no next keys. -/
theorem c132_content {env : Env} {w : World} {a : MakeArgs} {e : Event} (h : eventOf env w (.make a) = some e) :
    e.keys.length = a.icount.toNat ∧
    e.ndigs.length = (if a.transferable then (a.ncount.getD a.icount).toNat else 0) ∧
    (∀ s, a.isith = some s → thold2 s = .ok e.kt) ∧
    (a.isith = none → e.kt = .num (max 1 ((e.keys.length + 1) / 2))) ∧
    (a.transferable = true → ∀ s, a.nsith = some s → thold2 s = .ok e.nt) ∧
    (a.transferable = true → a.nsith = none → ∀ s, a.isith = some s → thold2 s = .ok e.nt) ∧
    (a.transferable = true → a.nsith = none → a.isith = none → e.nt = .num ((e.ndigs.length + 1) / 2)) ∧
    (a.transferable = false → e.nt = .num 0) ∧
    e.wits = a.icp.wits ∧ e.delpre = a.icp.delpre ∧ e.seals = a.icp.seals ∧ e.sn = 0 := by
  simp only [eventOf] at h
  cases hk : (makeKeys env w a).2 with
  | error x => rw [hk] at h; simp at h
  | ok k =>
    rw [hk] at h
    obtain ⟨c1, c2⟩ := makeKeys_counts hk
    cases he : icpEvent env k a with
    | error x => simp only [he, Except.toOption] at h; cases h
    | ok e' =>
      simp only [he, Except.toOption] at h
      injection h with h
      subst h
      unfold icpEvent at he
      dsimp only at he
      split at he
      · cases he
      rename_i kt hkt
      split at he
      · cases he
      rename_i nt hnt
      obtain ⟨h1, h2, h3, h4, h5, h6, _, _⟩ := buildIcp_says he
      have hm : ∀ {x y}, inceptId env x y = .ok e' → e'.wits = y.wits ∧ e'.delpre = y.delpre ∧ e'.seals = y.seals := by
        intro x y h
        unfold inceptId at h
        split at h
        · injection h with h; subst h; simp
        · iterate 3 (split at h; · exact absurd h (by simp))
          injection h with h; subst h; simp
        · injection h with h; subst h; simp
        · exact absurd h (by simp)
      have hrest : e'.wits = a.icp.wits ∧ e'.delpre = a.icp.delpre ∧ e'.seals = a.icp.seals := by
        generalize (if a.transferable = true then a.code else PreCode.key) = cd at he
        unfold buildIcp at he
        dsimp only at he
        iterate 3 (split at he; · cases he)
        split at he
        · cases he
        exact hm he
      have hcd : ∀ n, Verif.Thold.ceilDiv n 2 = (n + 1) / 2 := fun n => by unfold Verif.Thold.ceilDiv; rfl
      subst h5 h6
      refine ⟨by rw [h3, c1], ?_, ?_, ?_, ?_, ?_, ?_, ?_, hrest.1, hrest.2.1, hrest.2.2, h2⟩
      · rw [h4, c2]; split <;> rfl
      · intro s hs; rw [hs] at hkt; exact hkt
      · intro hs
        rw [hs] at hkt
        have := (thold2_hex _).symm.trans hkt
        injection this with this
        rw [← this, h3, hcd]
      · intro ht s hs; rw [hs] at hnt; simp only [ht, if_true] at hnt; exact hnt
      · intro ht hs s hs'; rw [hs, hs'] at hnt; simp only [ht, if_true] at hnt; exact hnt
      · intro ht hs hs'
        rw [hs, hs'] at hnt
        simp only [ht, if_true] at hnt
        have := (thold2_hex _).symm.trans hnt
        injection this with this
        rw [← this, h4, hcd]
      · intro ht
        simp only [ht] at hnt
        have : thold2 (.hex ['0']) = .ok (.num 0) := by decide +kernel
        have hn : thold2 (.hex ['0']) = .ok e'.nt := hnt
        rw [this] at hn
        injection hn with hn
        exact hn.symm

end Verif.Hab
