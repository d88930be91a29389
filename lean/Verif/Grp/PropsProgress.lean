import Verif.Grp.PropsPublish

/-!
# Properties of delegations: requests move on
-/

namespace Verif.Grp

open Verif.Kel (Id Dig Event Kever Seal Ilk upd upd2)

theorem same_of_key {ev : Id → Dig → Option Event} {y e : Event} (hy : ev y.pre y.said = some y) (he : ev e.pre e.said = some e) (hk : key y = key e) : y = e := by
  injection hk with k1 k2
  rw [k1, k2, he] at hy
  injection hy with hy
  exact hy.symm

/-- One pass over the requests: what the stores hold is of `ev`. -/
theorem dPartialWitness_ofEv {ev : Id → Dig → Option Event} (hev : Digests ev) {w : World} (hw : ∀ p d e, w.node.db.evts p d = some e → ev p d = some e) {y : Event} :
    ∀ z ∈ (dPartialWitness w y).1, z.ofEv ev := by
  unfold dPartialWitness
  split
  · simp
  split
  · split
    · simp
    split
    · simp
    split
    · simp
    split
    · simp
    split
    · simp
    split
    · simp
    · simp
    · rename_i s _ _ hs _
      have hs' := hw _ _ _ hs
      obtain ⟨k1, k2⟩ := hev.own _ _ _ hs'
      have hse : ev s.pre s.said = some s := by rw [k1, k2]; exact hs'
      simp [Wr.ofEv, hse]
  · simp

theorem unanchored_ofEv {ev : Id → Dig → Option Event} {env : Env} {w : World} {y : Event} (hy : ev y.pre y.said = some y) : ∀ z ∈ (unanchored env w y).1, z.ofEv ev := by
  unfold unanchored
  split
  · simp
  split
  · simp
  split
  · simp
  split
  · simp
  dsimp only
  split
  · simp [Wr.ofEv, hy]
  split <;> simp [Wr.ofEv, hy]

/-- Writes of the first part keep what waits for approval. -/
theorem dune_stays {ev : Id → Dig → Option Event} {e : Event} (he : ev e.pre e.said = some e) {w : World} (h : e ∈ w.dune) {ws : List Wr}
    (hz : ∀ z ∈ ws, z.ofEv ev ∧ ∀ k, z ≠ .duneRem k) : e ∈ (w.applyAll ws).dune := by
  refine writes_keep (P := fun w => e ∈ w.dune) (L := fun z => z.ofEv ev ∧ ∀ k, z ≠ .duneRem k) ?_ _ hz h
  intro w z h ⟨h1, h2⟩
  cases z with
  | duneRem k => exact absurd rfl (h2 k)
  | dunePin y =>
    refine mem_evPin.2 ?_
    by_cases hk : key y = key e
    · exact .inl (same_of_key h1 he hk).symm
    · exact .inr ⟨h, fun h => hk h.symm⟩
  | cgmsPut y => simp only [World.apply]; split <;> exact h
  | cdelPut q sn d => simp only [World.apply]; split <;> exact h
  | pubFeed q n => simp only [World.apply]; split <;> exact h
  | _ => exact h

theorem dPartialWitness_noRem {w : World} {y : Event} : ∀ z ∈ (dPartialWitness w y).1, ∀ k, z ≠ .duneRem k := by
  unfold dPartialWitness
  split
  · simp
  split
  · split
    · simp
    split
    · simp
    split
    · simp
    split
    · simp
    split
    · simp
    split <;> simp
  · simp

/-- In the store for publication, or complete. -/
def Out (e : Event) (w : World) : Prop := e ∈ w.dpub ∨ (w.cdel e.pre e.sn).isSome = true

theorem Out.apply {e : Event} {w : World} (h : Out e w) {z : Wr} (hz : z ≠ .dpubRem (key e)) : Out e (w.apply z) := by
  rcases h with h | h
  · cases z with
    | dpubPut y => exact .inl (evPut_keeps h)
    | dpubRem k => exact .inl (mem_evRem.2 ⟨h, fun hk => hz (by rw [hk])⟩)
    | cgmsPut y => simp only [World.apply]; split <;> exact .inl h
    | cdelPut q sn d => simp only [World.apply]; split <;> exact .inl h
    | pubFeed q n => simp only [World.apply]; split <;> exact .inl h
    | _ => exact .inl h
  · exact .inr (cdel_isSome h z)

theorem Out.writes {e : Event} {w : World} (h : Out e w) {ws : List Wr} (hz : ∀ z ∈ ws, z ≠ .dpubRem (key e)) : Out e (w.applyAll ws) :=
  writes_keep (P := Out e) (fun _ _ h l => h.apply l) _ hz h

theorem unanchored_noRem {env : Env} {w : World} {y : Event} : ∀ z ∈ (unanchored env w y).1, ∀ k, z ≠ .dpubRem k := by
  unfold unanchored
  split
  · simp
  split
  · simp
  split
  · simp
  split
  · simp
  dsimp only
  split
  · simp
  split <;> simp

/-- The last part completes, or leaves for publication. -/
theorem out_last {ev : Id → Dig → Option Event} {e : Event} (he : ev e.pre e.said = some e) {w : World} (hf : FromEv ev w) (h : Out e w) :
    Out e (w.applyAll (pass publication w w.dpub).1) := by
  refine pass_full (P := Out e) _ (fun w' fr p y hy => ?_) h
  by_cases hk : key y = key e
  · have := same_of_key (hf y (.inr (.inr hy))) he hk
    subst this
    cases hb : w'.pubs y.pre with
    | none => unfold publication; rw [hb]; exact p
    | some b =>
      by_cases hi : b.idle = true
      · exact .inr (publication_done ⟨b, hb, hi⟩)
      · unfold publication; rw [hb]; simp only [hi]; exact p
  · refine p.writes ?_
    unfold publication
    split
    · simp
    split
    · simp
    · simp [hk]

/-- C142: a delegated event that waits for approval and is approved goes on to publication, or is complete, with the next pass of the Anchorer, unless the pass raises an exception. -/
theorem c142_approved {ev : Id → Dig → Option Event} (hev : Digests ev) {env : Env} {node : Kel.Node} {habs : Id → Option (Option Id)} {proxy : Bool} {w : World}
    (hh : Hist env (Steady ev) (World.start node habs proxy) w) (g : Steady ev w .anchor) {e : Event} (hx : e ∈ w.dune) {k dk : Kever} {dp : Id}
    (h1 : w.node.kevers e.pre = some k) (h2 : k.delpre = some dp) (h3 : w.node.kevers dp = some dk) (h4 : (w.node.findSeal dk.pre ⟨e.pre, e.sn, e.said⟩).isSome = true)
    (hn : (anchor env w).2 = none) : e ∈ (w.step env .anchor).dpub ∨ ((w.step env .anchor).cdel e.pre e.sn).isSome = true := by
  have hf : FromEv ev w := FromEv.hist hev hh (by intro y hy; simp [World.start] at hy)
  have he := hf e (.inr (.inl hx))
  obtain ⟨w1, w2, e1, n1, e2, n2, n3, e3⟩ := anchor_parts hn
  show Out e (w.applyAll (anchor env w).1)
  rw [e3]
  have f1 : Frame w w1 := e1 ▸ frame_applyAll _ _
  have p1 : e ∈ w1.dune ∧ FromEv ev w1 := by
    rw [e1]
    refine pass_full (P := fun w => e ∈ w.dune ∧ FromEv ev w) _ (fun w' fr p y hy => ?_) ⟨hx, hf⟩
    have hw := dPartialWitness_ofEv hev (w := w') (by rw [fr.evts]; exact g.2) (y := y)
    exact ⟨dune_stays he p.1 fun z hz => ⟨hw z hz, dPartialWitness_noRem z hz⟩, p.2.writes hw⟩
  have p2 : FromEv ev w2 ∧ Out e w2 := by
    rw [e2]
    refine pass_reach (P := FromEv ev) (Q := Out e) _ n2 ?_ ?_ ?_ p1.2
    · intro w' _ p y hy _; exact p.writes (unanchored_ofEv (p1.2 y (.inr (.inl hy))))
    · intro w' _ _ hq y _ _; exact hq.writes (fun z hz => unanchored_noRem z hz _)
    · refine .inr ⟨e, p1.1, fun w' fr p hnn => .inl ?_⟩
      have fr := f1.trans fr
      unfold unanchored at hnn ⊢
      rw [fr.kevers, h1] at hnn ⊢
      dsimp only at hnn ⊢
      rw [h2] at hnn ⊢
      dsimp only at hnn ⊢
      rw [h3] at hnn ⊢
      dsimp only at hnn ⊢
      rw [fr.findSeal] at hnn ⊢
      obtain ⟨de, hde⟩ := Option.isSome_iff_exists.1 h4
      rw [hde] at hnn ⊢
      dsimp only at hnn ⊢
      have put : ∀ w', FromEv ev w' → e ∈ (w'.applyAll [.dpubPut e, .duneRem (key e)]).dpub :=
        fun w' p => evPut_has (fun u hu hk => same_of_key (p u (.inr (.inr hu))) he hk)
      have hp : FromEv ev (w'.apply (.aessPin k.pre k.serder.said (de.sn, de.said))) := p.apply trivial
      split
      · exact put _ hp
      · rename_i hb
        split
        · rename_i hh; rw [hb] at hnn; simp only [hh] at hnn; cases hnn
        · exact put _ (hp.apply (z := .pubFeed _ _) trivial)
  exact out_last he p2.1 p2.2

end Verif.Grp
