import Verif.Kel.Chain

/-! # What successful validation means: helper lemmas -/

namespace Verif.Kel

open Verif.Thold (Thold)

theorem mem_oset {α} [DecidableEq α] (l : List α) (x : α) : x ∈ oset l ↔ x ∈ l := by
  unfold oset; rw [mem_ioPut]; simp

theorem nodup_ioPut {α} [DecidableEq α] (vs l : List α) (h : l.Nodup) : (ioPut l vs).Nodup := by
  unfold ioPut
  induction vs generalizing l with
  | nil => exact h
  | cons v vs ih => rw [List.foldl_cons]; exact ih _ (nodup_ioAdd _ _ h)

theorem nodup_oset {α} [DecidableEq α] (l : List α) : (oset l).Nodup := nodup_ioPut _ _ (by simp)

theorem mem_verifySigs {env : Env} {e : Event} {ss : List Sig} {keys : List Id} {s : Sig}
    (h : s ∈ verifySigs env e ss keys) : s ∈ ss ∧ ∃ k, keys[s.index]? = some k ∧ env.verify k s.raw e = true := by
  unfold verifySigs at h
  rw [List.mem_filter, mem_oset] at h
  refine ⟨h.1, ?_⟩
  have := h.2
  split at this
  · exact absurd this (by simp)
  · rename_i k hk; exact ⟨k, hk, this⟩

theorem nodup_verifySigs (env : Env) (e : Event) (ss : List Sig) (keys : List Id) : (verifySigs env e ss keys).Nodup := by
  unfold verifySigs; exact (nodup_oset ss).filter _

/-- Consequences of a successful `valSigsWigsDel`. -/
structure Valid (env : Env) (n : Node) (k : Kever) (e : Event) (ss ws : List Sig) (keys : List Id) (kt : Thold)
    (toad : Nat) (wits : List Id) (couple : Option Couple) (eager isLocal : Bool) (v : Verified) : Prop where
  size : Thold.size kt ≤ keys.length
  sigs : ∀ s, s ∈ v.sigs → s ∈ ss ∧ ∃ key, keys[s.index]? = some key ∧ env.verify key s.raw e = true
  nodup : v.sigs.Nodup
  some : v.sigs ≠ []
  thold : Thold.satisfy kt (v.sigs.map Sig.index) = true
  next : e.ilk = .rot ∨ e.ilk = .drt → Thold.satisfy k.nt (exposeds env k.ndigs keys v.sigs) = true
  wigs : v.wigs = verifySigs env e ws wits
  wit : wits ≠ [] → (n.owned k.pre || n.membered k.pre || n.witnessed k wits) = false →
    1 ≤ toad ∧ toad ≤ wits.length ∧ toad ≤ v.wigs.length
  nowit : wits = [] → toad = 0
  remote : isLocal = false → n.owned k.pre = false ∧ n.witnessed k wits = false ∧
    ∀ dp, delegator k e = .ok dp → n.delegated dp = false
  contrib : isLocal = false → n.membered k.pre = true → ∃ idx, n.contributed k.pre keys = .ok idx ∧
    ∀ s, s ∈ v.sigs → s.index ∉ idx
  deleg : ∃ dp, delegator k e = .ok dp ∧
    ((e.ilk = .dip ∨ e.ilk = .drt) → n.delegated dp = true → n.owned k.pre = false → couple ≠ none) ∧
    ∃ db, n.validateDelegation ⟨k, e, v.sigs, v.wigs, wits, couple, eager, isLocal⟩ dp = (db, .ok v.couple)

theorem val_ok {env : Env} {n : Node} {k : Kever} {e : Event} {ss ws : List Sig} {keys : List Id} {kt : Thold}
    {toad : Nat} {wits : List Id} {couple : Option Couple} {eager isLocal : Bool} {v : Verified} {db : Db}
    (h : n.valSigsWigsDel env k e ss ws keys kt toad wits couple eager isLocal = (db, .ok v)) :
    Valid env n k e ss ws keys kt toad wits couple eager isLocal v := by
  have herr : ∀ {db' : Db} {x : Exn}, (db', (Except.error x : Except Exn Verified)) = (db, .ok v) → False := by
    intro db' x h; injection h with _ h; exact absurd h (by simp)
  unfold Node.valSigsWigsDel at h
  split at h
  · exact (herr h).elim
  · rename_i vs hvs
    split at h
    · exact (herr h).elim
    · rename_i dp hdp
      split at h
      · exact (herr h).elim
      · rename_i hmis
        split at h
        · exact (herr h).elim
        · simp only at h
          split at h
          · exact (herr h).elim
          · rename_i hth
            split at h
            · exact (herr h).elim
            · rename_i hnext
              unfold Node.checkWitDel at h
              split at h
              · exact (herr h).elim
              · rename_i hw0
                split at h
                · exact (herr h).elim
                · rename_i hw1
                  split at h
                  · exact (herr h).elim
                  · rename_i hw2
                    split at h
                    · exact (herr h).elim
                    · rename_i happ
                      split at h
                      · exact (herr h).elim
                      · rename_i db' cp hval
                        injection h with _ h
                        injection h with h
                        subst h
                        -- signatures
                        unfold Node.checkSigs at hvs
                        split at hvs
                        · exact absurd hvs (by simp)
                        · rename_i hsize
                          split at hvs
                          · exact absurd hvs (by simp)
                          · rename_i idx hidx
                            simp only at hvs
                            split at hvs
                            · exact absurd hvs (by simp)
                            · rename_i hne
                              injection hvs with hvs
                              subst hvs
                              refine ⟨by omega, ?_, nodup_verifySigs .., hne, by simpa using hth, ?_, rfl, ?_, ?_, ?_, ?_,
                                dp, hdp, ?_, db', hval⟩
                              · intro s hs
                                have := mem_verifySigs hs
                                exact ⟨(List.mem_filter.1 this.1).1, this.2⟩
                              · intro hi
                                simp only [not_and, Bool.not_eq_true, Bool.not_eq_false'] at hnext
                                exact hnext hi
                              · intro hw hnl
                                simp only [hnl, Bool.not_false, true_and, hw, ne_eq, not_false_eq_true] at hw1 hw2
                                simp at hw1 hw2
                                simp
                                omega
                              · intro hw
                                simpa [hw] using hw0
                              · intro hl
                                subst hl
                                simp at hmis
                                refine ⟨hmis.1.1, hmis.1.2, ?_⟩
                                intro dp' hdp'
                                rw [hdp] at hdp'; injection hdp' with hdp'; subst hdp'
                                exact hmis.2
                              · intro hl hm
                                simp only [hl, hm, Bool.not_false, Bool.and_true, if_true] at hidx
                                refine ⟨idx, hidx, ?_⟩
                                intro s hs
                                have := (List.mem_filter.1 (mem_verifySigs hs).1).2
                                simpa using this
                              · intro h1 h2 h3 h4
                                apply happ
                                exact ⟨h1, h2, by simpa using h3, h4⟩

theorem mem_exposeds {env : Env} {ndigs : List Dig} {keys : List Id} {ss : List Sig} {o : Nat}
    (h : o ∈ exposeds env ndigs keys ss) : ∃ s, s ∈ ss ∧ s.ondex = some o ∧ ∃ key d, keys[s.index]? = some key ∧
      ndigs[o]? = some d ∧ env.commits key d = true := by
  unfold exposeds at h
  rw [List.mem_filterMap] at h
  obtain ⟨s, hs, h⟩ := h
  refine ⟨s, hs, ?_⟩
  split at h
  · exact absurd h (by simp)
  · rename_i o' ho'
    split at h
    · rename_i d key hd hk
      split at h
      · rename_i hc
        injection h with h; subst h
        exact ⟨ho', key, d, hk, hd, hc⟩
      · exact absurd h (by simp)
    · exact absurd h (by simp)

/-! ## Witness lists -/

theorem ioAdd_of_not_mem {α} [DecidableEq α] (l : List α) (v : α) (h : v ∉ l) : ioAdd l v = l ++ [v] := by simp [ioAdd, h]

theorem ioPut_append {α} [DecidableEq α] (vs l : List α) (h : (l ++ vs).Nodup) : ioPut l vs = l ++ vs := by
  unfold ioPut
  induction vs generalizing l with
  | nil => simp
  | cons v vs ih =>
    have hv : v ∉ l := by
      rw [List.nodup_append] at h
      intro hm; exact h.2.2 v hm v (by simp) rfl
    rw [List.foldl_cons, ioAdd_of_not_mem _ _ hv, ih _ (by simpa using h)]
    simp

theorem oset_of_nodup {α} [DecidableEq α] (l : List α) (h : l.Nodup) : oset l = l := by
  unfold oset; rw [ioPut_append _ _ (by simpa using h)]; simp

theorem length_ioPut_le {α} [DecidableEq α] (vs l : List α) : (ioPut l vs).length ≤ l.length + vs.length := by
  unfold ioPut
  induction vs generalizing l with
  | nil => simp
  | cons v vs ih =>
    rw [List.foldl_cons]
    have := ih (ioAdd l v)
    have h2 : (ioAdd l v).length ≤ l.length + 1 := by unfold ioAdd; split <;> simp
    simp only [List.length_cons]
    omega

theorem ioPut_full {α} [DecidableEq α] (vs l : List α) (hl : l.Nodup) (h : (ioPut l vs).length = l.length + vs.length) :
    (l ++ vs).Nodup := by
  unfold ioPut at h
  induction vs generalizing l with
  | nil => simpa using hl
  | cons v vs ih =>
    rw [List.foldl_cons] at h
    by_cases hv : v ∈ l
    · have : ioAdd l v = l := by simp [ioAdd, hv]
      rw [this] at h
      have h2 := length_ioPut_le vs l
      unfold ioPut at h2
      simp only [List.length_cons] at h
      omega
    · have h1 := ioAdd_of_not_mem l v hv
      rw [h1] at h
      have := ih (l ++ [v]) (by rw [← h1]; exact nodup_ioAdd _ _ hl) (by rw [h]; simp; omega)
      simpa using this

theorem oset_full {α} [DecidableEq α] (l : List α) (h : (oset l).length = l.length) : l.Nodup := by
  have := ioPut_full l [] (by simp) (by simpa [oset] using h)
  simpa using this

/-- The members of a list that are in another, when that is a part of it in the same order. -/
theorem filter_sublist {α} [DecidableEq α] {l cs : List α} (hs : cs.Sublist l) (hl : l.Nodup) : l.filter (fun x => decide (x ∈ cs)) = cs := by
  induction hs with
  | slnil => rfl
  | @cons cs l a hs ih =>
    rw [List.nodup_cons] at hl
    rw [List.filter_cons_of_neg (by simpa using fun h => hl.1 (hs.subset h)), ih hl.2]
  | @cons_cons cs l a hs ih =>
    rw [List.nodup_cons] at hl
    rw [List.filter_cons_of_pos (by simp)]
    congr 1
    conv => rhs; rw [← ih hl.2]
    apply List.filter_congr
    intro x hx
    have : x ≠ a := fun h => hl.1 (h ▸ hx)
    simp [this]

theorem cutsOk_iff {α} [DecidableEq α] {l cs : List α} (hl : l.Nodup) (hc : cs.Nodup) : cutsOk l cs = true ↔ cs.Sublist l := by
  unfold cutsOk
  rw [oset_of_nodup _ hl, oset_of_nodup _ hc, decide_eq_true_eq]
  exact ⟨fun h => h ▸ List.filter_sublist, fun h => filter_sublist h hl⟩

theorem cutsOk_mem {α} [DecidableEq α] {l cs : List α} (h : cutsOk l cs = true) {x : α} (hx : x ∈ cs) : x ∈ l := by
  unfold cutsOk at h
  rw [decide_eq_true_eq] at h
  have : x ∈ (oset l).filter (fun w => decide (w ∈ cs)) := by rw [h]; exact (mem_oset _ _).2 hx
  exact (mem_oset _ _).1 (List.mem_filter.1 this).1

theorem deriveBacks_ok {k : Kever} {e : Event} {w c a : List Id} (hk : k.wits.Nodup)
    (h : deriveBacks k e = .ok (w, c, a)) :
    (((e.ilk ≠ .rot ∧ e.ilk ≠ .drt) ∨ k.sn ≥ e.sn) ∧ w = k.wits ∧ c = k.cuts ∧ a = k.adds) ∨
    ((e.ilk = .rot ∨ e.ilk = .drt) ∧ k.sn < e.sn ∧ w = k.wits.filter (fun x => decide (x ∉ e.cuts)) ++ e.adds ∧
      e.cuts.Nodup ∧ e.adds.Nodup ∧ (∀ x, x ∈ e.cuts → x ∈ k.wits ∧ x ∉ e.adds) ∧ (∀ x, x ∈ k.wits → x ∉ e.adds) ∧
      w.Nodup ∧ e.cuts.Sublist k.wits) := by
  unfold deriveBacks at h
  split at h
  · rename_i hc
    injection h with h; injection h with h1 h; injection h with h2 h3
    exact .inl ⟨hc, h1.symm, h2.symm, h3.symm⟩
  · rename_i hrot
    right
    split at h
    · exact absurd h (by simp)
    · rename_i h1
      split at h
      · exact absurd h (by simp)
      · rename_i h2
        split at h
        · exact absurd h (by simp)
        · rename_i h3
          split at h
          · exact absurd h (by simp)
          · rename_i h4
            split at h
            · exact absurd h (by simp)
            · rename_i h5
              simp only at h
              split at h
              · exact absurd h (by simp)
              · injection h with h; injection h with h6 h
                have hcut := oset_full _ (by simpa using h1)
                have hadd := oset_full _ (by simpa using h3)
                simp only [decide_eq_true_eq, Bool.not_eq_true', Bool.not_eq_false, List.any_eq_true, not_exists, not_and] at h2 h4 h5
                rw [oset_of_nodup _ hk] at h6
                have hnd : (k.wits.filter (fun w => !decide (w ∈ e.cuts)) ++ e.adds).Nodup := by
                  rw [List.nodup_append]
                  refine ⟨hk.filter _, hadd, ?_⟩
                  intro x hx y hy hxy
                  subst hxy
                  exact h5 x (List.mem_filter.1 hx).1 hy
                rw [ioPut_append _ _ hnd] at h6
                refine ⟨?_, by omega, ?_, hcut, hadd, fun x hx => ⟨cutsOk_mem h2 hx, h4 x hx⟩, h5, by rw [← h6]; exact hnd, (cutsOk_iff hk hcut).1 h2⟩
                · by_cases hr : e.ilk = .rot
                  · exact .inl hr
                  · right
                    apply Decidable.byContradiction
                    intro hd; exact hrot (.inl ⟨hr, hd⟩)
                · rw [← h6]
                  simp

theorem rotate_ok {env : Env} {db : Db} {k : Kever} {e : Event} {w c a : List Id} (h : rotate env db k e = .ok (w, c, a)) :
    rotatePrior db k e = .ok () ∧ k.ndigs ≠ [] ∧ Thold.size e.kt ≤ e.keys.length ∧ deriveBacks k e = .ok (w, c, a) ∧
    toadOk e.toad w = true := by
  unfold rotate at h
  split at h
  · exact absurd h (by simp)
  · rename_i hp
    split at h
    · exact absurd h (by simp)
    · rename_i hn
      split at h
      · exact absurd h (by simp)
      · rename_i hs
        split at h
        · exact absurd h (by simp)
        · rename_i w' c' a' hd
          split at h
          · exact absurd h (by simp)
          · rename_i ht
            split at h
            · exact absurd h (by simp)
            · injection h with h; injection h with h1 h; injection h with h2 h3
              subst h1 h2 h3
              exact ⟨hp, hn, by omega, hd, by simpa using ht⟩

end Verif.Kel
