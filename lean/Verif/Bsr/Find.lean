import Verif.Bsr.Spec
import Verif.Kel.PropsAuth

/-! # A seal in the log is found and verified -/

namespace Verif.Bsr

open Verif.Kel (Id Dig Node Seal Event Inv Contig lastEvents)

theorem length_le_of_nodup {α : Type} [DecidableEq α] (l m : List α) (hn : l.Nodup) (hs : ∀ x ∈ l, x ∈ m) : l.length ≤ m.length := by
  induction l generalizing m with
  | nil => simp
  | cons a l ih =>
    have ha := hs a List.mem_cons_self
    have hn' := List.nodup_cons.1 hn
    have := ih (m.erase a) hn'.2 fun x hx => (List.mem_erase_of_ne (a := x) (b := a) (fun h => hn'.1 (by rw [← h]; exact hx))).2 (hs x (List.mem_cons_of_mem _ hx))
    rw [List.length_erase_of_mem ha] at this
    have hpos : 0 < m.length := List.length_pos_of_mem ha
    simp only [List.length_cons]; omega

theorem mem_lastEvents {n : Node} {p : Id} (fuel : Nat) : ∀ sn t a d, sn ≤ t → t < sn + fuel → (∀ j, j ≤ t → n.db.kels p j ≠ []) →
    (n.db.kels p t).getLast? = some d → n.db.evts p d = some a → a ∈ lastEvents n.db p fuel sn := by
  induction fuel with
  | zero => intro sn t a d h1 h2; omega
  | succ f ih =>
    intro sn t a d h1 h2 hc hd ha
    unfold lastEvents
    cases hl : (n.db.kels p sn).getLast? with
    | none => exact absurd (List.getLast?_eq_none_iff.1 hl) (hc sn h1)
    | some d' =>
      dsimp only
      by_cases hst : sn = t
      · subst hst
        rw [hl] at hd; cases hd
        rw [ha]; exact List.mem_cons_self
      · have := ih (sn + 1) t a d (by omega) (by omega) hc hd ha
        split
        · exact this
        · exact List.mem_cons_of_mem _ this

theorem of_lastEvents {n : Node} {p : Id} (fuel : Nat) : ∀ sn a, a ∈ lastEvents n.db p fuel sn →
    ∃ t d, (n.db.kels p t).getLast? = some d ∧ n.db.evts p d = some a := by
  induction fuel with
  | zero => intro sn a h; simp [lastEvents] at h
  | succ f ih =>
    intro sn a h
    unfold lastEvents at h
    split at h
    · simp at h
    · rename_i d hd
      split at h
      · exact ih _ _ h
      · rename_i e he
        rcases List.mem_cons.1 h with rfl | h
        · exact ⟨sn, d, hd, he⟩
        · exact ih _ _ h

theorem occupied {U : Event → Prop} {n : Node} (hi : Inv U n) {p : Id} (hc : Contig n p) {s : Nat} (hs : n.db.kels p s ≠ []) : s < (n.db.fels p).length := by
  have hne : ∀ j, j ≤ s → n.db.kels p j ≠ [] := fun j hj => hc.le s hs j hj
  have key : ∀ m, m ≤ s + 1 → ∃ l : List Dig, l.length = m ∧ l.Nodup ∧ ∀ d ∈ l, d ∈ n.db.fels p ∧ ∃ x, n.db.evts p d = some x ∧ x.sn < m := by
    intro m
    induction m with
    | zero => intro _; exact ⟨[], rfl, List.nodup_nil, by simp⟩
    | succ m ih =>
      intro hm
      obtain ⟨l, h1, h2, h3⟩ := ih (by omega)
      cases hl : n.db.kels p m with
      | nil => exact absurd hl (hne m (by omega))
      | cons d t =>
        obtain ⟨hd, x, hx, hxs⟩ := (hi.mem p d m).1 (by rw [hl]; exact List.mem_cons_self)
        refine ⟨d :: l, by simp [h1], List.nodup_cons.2 ⟨fun hm => ?_, h2⟩, fun y hy => ?_⟩
        · obtain ⟨_, x', hx', hlt⟩ := h3 d hm
          rw [hx] at hx'; cases hx'; omega
        · rcases List.mem_cons.1 hy with rfl | hy
          · exact ⟨hd, x, hx, by omega⟩
          · obtain ⟨g1, x', g2, g3⟩ := h3 y hy
            exact ⟨g1, x', g2, by omega⟩
  obtain ⟨l, h1, h2, h3⟩ := key (s + 1) (Nat.le_refl _)
  have := length_le_of_nodup l _ h2 (fun x hx => (h3 x hx).1)
  omega

/-- In a key event log made by a history, a seal is found by the search and the anchor found passes the check. -/
theorem found {env : Kel.Env} {U : Event → Prop} (hnc : Kel.NoColl U) {nd : Node} (h : Kel.Reached env U nd) (hab : Id) (e : REvt)
    (hs : Sealed nd hab e.seal) : ∃ a, nd.findSeal hab e.seal = some a ∧ verifyAnchor nd hab e (a.sn, a.said) = true := by
  have hi := h.inv hnc
  have hc := h.contig hnc hab
  obtain ⟨sn, d, a, hd, ha, hin, hw⟩ := hs
  have hne : nd.db.kels hab sn ≠ [] := fun hn => by rw [hn] at hd; cases hd
  have hmem := mem_lastEvents (n := nd) (p := hab) (nd.db.fels hab).length 0 sn a d (by omega) (by have := occupied hi hc hne; omega)
    (fun j hj => hc.le sn hne j hj) hd ha
  cases hf : nd.findSeal hab e.seal with
  | none =>
    unfold Node.findSeal at hf
    have := List.find?_eq_none.1 hf a hmem
    simp [hin, hw] at this
  | some x =>
    refine ⟨x, rfl, ?_⟩
    unfold Node.findSeal at hf
    have hp := List.find?_some hf
    have hx := List.mem_of_find?_eq_some hf
    simp only [Bool.and_eq_true, decide_eq_true_eq] at hp
    obtain ⟨t, d', h1, h2⟩ := of_lastEvents _ _ _ hx
    obtain ⟨_, y, hy, hys⟩ := (hi.mem hab d' t).1 (List.mem_of_getLast? h1)
    rw [h2] at hy; cases hy
    have hsd := (hi.evt _ _ _ h2).2.1
    unfold verifyAnchor
    dsimp only
    rw [hys, h1]
    dsimp only
    rw [h2]
    simp [hp.1, hp.2]

end Verif.Bsr
