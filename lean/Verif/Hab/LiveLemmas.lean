import Verif.Hab.MakeInv

/-!
# Events of one's own that were built are taken
-/

namespace Verif.Hab

open Verif.Kel
open Verif.Thold (Thold Sith)

theorem range_ne {t : Thold} {n : Nat} (h : Thold.satisfy t (List.range n) = true) : n ≠ 0 := by
  rintro rfl
  rw [List.range_zero, satisfy_nil] at h
  simp at h

theorem val_own_ok {env : Env} (hs : SigLaw env) {n : Node} {k : Kever} {e : Event} {keys : List Id} {kt : Thold} {toad : Nat} {wits : List Id}
    (ho : n.owned k.pre = true) (hsat : Thold.satisfy kt (List.range keys.length) = true)
    (hnext : e.ilk = .rot ∨ e.ilk = .drt → Thold.satisfy k.nt (exposeds env.kel k.ndigs keys (allSigs env keys e)) = true)
    (hsz : Thold.size kt ≤ keys.length) (hd : ∃ dp, delegator k e = .ok dp) (hw : ∀ w ∈ wits, env.kel.okKey w = true) (ht : wits = [] → toad = 0) :
    ∃ v, n.valSigsWigsDel env.kel k e (allSigs env keys e) [] keys kt toad wits none false true = (n.db, .ok v) := by
  have hne : allSigs env keys e ≠ [] := by
    intro h0
    have := congrArg List.length h0
    rw [allSigs_length] at this
    exact range_ne hsat this
  have hc : n.checkSigs env.kel k e (allSigs env keys e) keys kt true = .ok (allSigs env keys e) := by
    unfold Node.checkSigs
    rw [if_neg (by omega)]
    simp only [Bool.not_true, Bool.false_and, Bool.false_eq_true, if_false, List.not_mem_nil, decide_false, Bool.not_false]
    rw [List.filter_eq_self.2 (by simp), allSigs_verified hs, if_neg hne]
  obtain ⟨dp, hd⟩ := hd
  unfold Node.valSigsWigsDel
  rw [hc]
  dsimp only
  rw [hd]
  dsimp only
  rw [if_neg (by simp), if_neg (by simpa using hw), if_neg (by rw [allSigs_index, hsat]; simp), if_neg (by
    rintro ⟨h1, h2⟩; rw [hnext h1] at h2; exact absurd h2 (by simp))]
  unfold Node.checkWitDel
  rw [if_neg (by rintro ⟨h1, h2⟩; exact h2 (ht h1)), if_neg (by simp [ho]), if_neg (by simp [ho]), if_neg (by simp [ho])]
  have hv : n.validateDelegation ⟨k, e, allSigs env keys e, verifySigs env.kel e [] wits, wits, none, false, true⟩ dp = (n.db, .ok none) := by
    unfold Node.validateDelegation
    cases dp with
    | none => rfl
    | some d => simp [ho]
  rw [hv]
  exact ⟨_, rfl⟩

/-- The rotation is taken. `wits` are the new witnesses. -/
theorem own_rot_live {env : Env} (hs : SigLaw env) {n : Node} {k : Kever} {e : Event} {wits : List Id} (hk : n.kevers e.pre = some k) (hpre : k.pre = e.pre)
    (ho : n.owned e.pre = true) (hi : e.ilk = if k.delpre.isSome then .drt else .rot) (hsn : e.sn = k.sn + 1) (hpr : e.prior = k.serder.said)
    (hp : env.kel.okPre e.pre = true) (htr : env.kel.transferable e.pre = true) (hnd : k.ndigs ≠ []) (hsz : Thold.size e.kt ≤ e.keys.length)
    (hsat : Thold.satisfy e.kt (List.range e.keys.length) = true)
    (hnext : Thold.satisfy k.nt (exposeds env.kel k.ndigs e.keys (allSigs env e.keys e)) = true)
    (hkeys : ∀ x ∈ e.keys, env.kel.okKey x = true) (hback : deriveBacks k e = .ok (wits, e.cuts, e.adds)) (htoad : toadOk e.toad wits = true)
    (hwit : ∀ x ∈ wits, env.kel.okKey x = true) :
    (n.processEvent env.kel e (allSigs env e.keys e) [] none false true).2 = .ok () := by
  have hilk : e.ilk = .rot ∨ e.ilk = .drt := by rw [hi]; split <;> simp
  unfold Node.processEvent
  rw [if_neg (by simp [hp]), hk]
  have hni : ¬ (e.ilk = .icp ∨ e.ilk = .dip) := by rcases hilk with h | h <;> rw [h] <;> simp
  dsimp only
  rw [if_neg hni, if_neg (by omega), if_pos (.inl hsn)]
  unfold Node.update
  rw [if_neg (by simp [Kever.transferable, hnd, hpre, htr]), if_neg (by rw [hpre]; simp)]
  have key : (n.updateRot env.kel k e (allSigs env e.keys e) [] none false true).2 = .ok () := by
    unfold Node.updateRot
    rw [if_neg (by rintro ⟨h1, h2⟩; exact h2 (by rw [hi, if_pos h1]))]
    have hpri : rotatePrior n.db k e = .ok () := by
      unfold rotatePrior
      rw [if_neg (by omega), if_neg (by omega), if_neg (by simp [hpr])]
    have hrot : Kel.rotate env.kel n.db k e = .ok (wits, e.cuts, e.adds) := by
      unfold Kel.rotate
      rw [hpri]
      dsimp only
      rw [if_neg hnd, if_neg (by omega), hback]
      dsimp only
      rw [if_neg (by simp [htoad]), if_neg (by simpa using hkeys)]
    rw [hrot]
    dsimp only
    have hd : ∃ dp, delegator k e = .ok dp := by
      unfold delegator
      rcases hilk with h | h <;> rw [h] <;> exact ⟨_, rfl⟩
    obtain ⟨v, hv⟩ := val_own_ok hs (n := n) (k := k) (e := e) (keys := e.keys) (kt := e.kt) (toad := e.toad) (wits := wits) (by rw [hpre]; exact ho) hsat (fun _ => hnext) hsz hd hwit
      (by intro h0; rw [h0] at htoad; simpa [toadOk] using htoad)
    rw [hv]
  rcases hilk with h | h <;> rw [h] <;> exact key

theorem own_ixn_live {env : Env} (hs : SigLaw env) {n : Node} {k : Kever} {e : Event} (hk : n.kevers e.pre = some k) (hpre : k.pre = e.pre)
    (ho : n.owned e.pre = true) (hi : e.ilk = .ixn) (hsn : e.sn = k.sn + 1) (hpr : e.prior = k.serder.said)
    (hp : env.kel.okPre e.pre = true) (htr : env.kel.transferable e.pre = true) (hnd : k.ndigs ≠ []) (heo : k.estOnly = false)
    (hsz : Thold.size k.kt ≤ k.keys.length) (hsat : Thold.satisfy k.kt (List.range k.keys.length) = true)
    (ht : k.wits = [] → k.toad = 0) (hwit : ∀ x ∈ k.wits, env.kel.okKey x = true) :
    (n.processEvent env.kel e (allSigs env k.keys e) [] none false true).2 = .ok () := by
  unfold Node.processEvent
  rw [if_neg (by simp [hp]), hk]
  have hni : ¬ (e.ilk = .icp ∨ e.ilk = .dip) := by rw [hi]; simp
  dsimp only
  rw [if_neg hni, if_neg (by omega), if_pos (.inl hsn)]
  unfold Node.update
  rw [if_neg (by simp [Kever.transferable, hnd, hpre, htr]), if_neg (by rw [hpre]; simp)]
  simp only [hi]
  unfold Node.updateIxn
  rw [if_neg (by simp [heo]), if_neg (by omega), if_neg (by simp [hpr])]
  obtain ⟨v, hv⟩ := val_own_ok hs (n := n) (k := k) (e := e) (keys := k.keys) (kt := k.kt) (toad := k.toad) (wits := k.wits) (by rw [hpre]; exact ho) hsat
    (by rw [hi]; rintro (h | h) <;> simp at h) hsz ⟨none, by simp [delegator, hi]⟩ hwit ht
  rw [hv]

theorem own_icp_live {env : Env} (hs : SigLaw env) {n : Node} {e : Event} (hk : n.kevers e.pre = none) (ho : n.owned e.pre = true)
    (hi : e.ilk = if e.delpre.isNone then .icp else .dip) (hsn : e.sn = 0) (hp : env.kel.okPre e.pre = true)
    (htr : env.kel.transferable e.pre = true ∨ (e.ndigs = [] ∧ e.wits = [] ∧ e.anchors = false)) (hsz : Thold.size e.kt ≤ e.keys.length)
    (hsat : Thold.satisfy e.kt (List.range e.keys.length) = true) (hkeys : ∀ x ∈ e.keys, env.kel.okKey x = true) (hw : (oset e.wits).length = e.wits.length)
    (htoad : toadOk e.toad e.wits = true) (hwit : ∀ x ∈ e.wits, env.kel.okKey x = true) :
    (n.processEvent env.kel e (allSigs env e.keys e) [] none false true).2 = .ok () := by
  have hilk : e.ilk = .icp ∨ e.ilk = .dip := by rw [hi]; split <;> simp
  unfold Node.processEvent
  rw [if_neg (by simp [hp]), hk]
  dsimp only
  rw [if_pos hilk]
  unfold Node.inception
  have hne : allSigs env e.keys e ≠ [] := by
    intro h0
    have := congrArg List.length h0
    rw [allSigs_length] at this
    exact range_ne hsat this
  rw [if_neg hne]
  have hin : ∃ k, Kel.incept env.kel e = .ok k ∧ k.pre = e.pre := by
    unfold Kel.incept
    rw [if_neg (by simp [hsn]), if_neg (by simpa using hkeys), if_neg (by omega),
      if_neg (by rcases htr with h | ⟨h, _⟩ <;> simp [h]), if_neg (by rcases htr with h | ⟨_, h, _⟩ <;> simp [h]), if_neg (by simp [hw]), if_neg (by simp [htoad]),
      if_neg (by rcases htr with h | ⟨_, _, h⟩ <;> simp [h])]
    exact ⟨_, rfl, rfl⟩
  obtain ⟨k, hin, hkp⟩ := hin
  rw [hin]
  dsimp only
  have hd : ∃ dp, delegator k e = .ok dp := by
    unfold delegator
    cases hdp : e.delpre with
    | none => rw [hi, hdp]; exact ⟨_, rfl⟩
    | some d => rw [hi, hdp]; exact ⟨_, rfl⟩
  obtain ⟨v, hv⟩ := val_own_ok hs (n := n) (k := k) (e := e) (keys := e.keys) (kt := e.kt) (toad := e.toad) (wits := e.wits) (by rw [hkp]; exact ho) hsat
    (fun h' => by rcases hilk with h | h <;> rcases h' with h' | h' <;> exact absurd (h.symm.trans h') (by simp)) hsz hd hwit
    (by intro h0; rw [h0] at htoad; simpa [toadOk] using htoad)
  rw [hv]

/-! ## What the builder checked -/

theorem toadFor_ok {toad : Option Int} {wits : List Id} {t : Nat} (h : toadFor toad wits = .ok t) : toadOk t wits = true := by
  unfold toadFor at h
  unfold toadOk
  cases toad <;> grind

theorem buildRot_backs {env : Env} {ilk : Ilk} {pre : Id} {prior : Dig} {sn : Nat} {k : Kever} {keys : List Id} {kt : Thold} {ndigs : List Dig} {nt : Thold} {a : RotArgs}
    {e : Event} (h : buildRot env ilk pre prior sn k.wits keys kt ndigs nt a = .ok e) (hsn : k.sn < sn) (hi : ilk = .rot ∨ ilk = .drt) :
    ∃ wits, deriveBacks k e = .ok (wits, e.cuts, e.adds) ∧ toadOk e.toad wits = true ∧ (∀ x ∈ wits, x ∈ k.wits ∨ x ∈ a.adds) ∧ e.adds = a.adds := by
  unfold buildRot at h
  obtain ⟨_, h⟩ := ite_err h
  obtain ⟨_, h⟩ := ite_err h
  obtain ⟨_, h⟩ := ite_err h
  obtain ⟨_, h⟩ := ite_err h
  obtain ⟨h1, h⟩ := ite_err h
  obtain ⟨h2, h⟩ := ite_err h
  obtain ⟨h3, h⟩ := ite_err h
  obtain ⟨h4, h⟩ := ite_err h
  obtain ⟨h5, h⟩ := ite_err h
  obtain ⟨h6, h⟩ := ite_err h
  obtain ⟨h7, h⟩ := ite_err h
  split at h
  · cases h
  rename_i toad ht
  injection h with h
  subst h
  refine ⟨_, ?_, toadFor_ok ht, ?_, rfl⟩
  · unfold deriveBacks
    rw [if_neg (by dsimp only; grind)]
    dsimp only
    rw [if_neg h2, if_neg (by simpa using h3), if_neg h4, if_neg h6, if_neg h5, if_neg h7]
  · intro x hx
    rw [mem_ioPut] at hx
    rcases hx with hx | hx
    · exact .inl ((mem_oset _ _).1 (List.mem_filter.1 hx).1)
    · exact .inr hx

theorem icpEvent_more {env : Env} (hsaid : ∀ e, env.kel.okPre (env.said e) = true ∧ env.kel.transferable (env.said e) = true) {keys : Mgr.Keys} {a : MakeArgs} {e : Event}
    (h : icpEvent env keys a = .ok e) : e.delpre = a.icp.delpre ∧ (oset e.wits).length = e.wits.length ∧ toadOk e.toad e.wits = true ∧ env.kel.okPre e.pre = true ∧
      (env.kel.transferable e.pre = true ∨ (e.ndigs = [] ∧ e.wits = [] ∧ e.anchors = false)) ∧ e.wits = a.icp.wits := by
  unfold icpEvent at h
  dsimp only at h
  split at h
  · cases h
  split at h
  · cases h
  unfold buildIcp at h
  obtain ⟨_, h⟩ := ite_err h
  obtain ⟨_, h⟩ := ite_err h
  obtain ⟨hw, h⟩ := ite_err h
  split at h
  · cases h
  rename_i toad ht
  have ht := toadFor_ok ht
  dsimp only at hw ht
  unfold inceptId at h
  split at h
  · injection h with h; subst h; exact ⟨rfl, by simpa using hw, ht, (hsaid _).1, .inl (hsaid _).2, rfl⟩
  · rename_i k _ _ _
    obtain ⟨g1, h⟩ := ite_err h
    obtain ⟨g2, h⟩ := ite_err h
    obtain ⟨g3, h⟩ := ite_err h
    injection h with h; subst h
    refine ⟨rfl, by simpa using hw, ht, by simpa using g1, ?_, rfl⟩
    dsimp only at g3 ⊢
    cases htr : env.kel.transferable k
    · refine .inr ?_
      simp [htr] at g3
      grind
    · exact .inl rfl
  · injection h with h; subst h; exact ⟨rfl, by simpa using hw, ht, (hsaid _).1, .inl (hsaid _).2, rfl⟩
  · cases h

end Verif.Hab
