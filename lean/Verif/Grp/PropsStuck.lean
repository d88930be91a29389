import Verif.Grp.PropsKept

/-!
# Group events that are never completed
-/

namespace Verif.Grp

open Verif.Kel (Id Dig Event Kever Seal Ilk upd2)

/-- Entry for number `sn` of group `p`. -/
def At (p : Id) (sn : Nat) (y : Entry) : Prop := y.1 = p ∧ y.2.1.num = sn

/-- The event is not started again; whenever the Counselor looks the own member has the first key, and the group has witnesses. -/
def Elected (p : Id) (sn : Nat) (w : World) (i : Inp) : Prop :=
  (∀ num d, i = .start p num d → num.num ≠ sn) ∧
  ((i = .counsel ∨ ∃ n, i = .crashCounsel n) → ∀ k, w.node.kevers p = some k → k.wits ≠ [] ∧ elected w p k = .ok true)

/-- Events with the number may wait for receipts only, the receiptor knows of none, and what is reported is as given. -/
structure Same (p : Id) (sn : Nat) (c : Num → Option Dig) (w : World) : Prop where
  gpse : ∀ y ∈ w.gpse, ¬At p sn y
  gdee : ∀ y ∈ w.gdee, ¬At p sn y
  cmsgs : (p, sn) ∉ w.cmsgs
  ccues : (p, sn) ∉ w.ccues
  cgms : ∀ num, num.num = sn → w.cgms p num = c num

def Wr.apart (p : Id) (sn : Nat) : Wr → Prop
  | .gdeeAdd y => ¬At p sn y
  | .cgmsPut y => ¬At p sn y
  | .cmsg q n => (p, sn) ≠ (q, n)
  | _ => True

theorem Same.apply {p : Id} {sn : Nat} {c : Num → Option Dig} {w : World} (h : Same p sn c w) {z : Wr} (hz : z.apart p sn) : Same p sn c (w.apply z) := by
  cases z with
  | gpseRem q => exact ⟨fun y hy => h.gpse y (List.mem_filter.1 hy).1, h.gdee, h.cmsgs, h.ccues, h.cgms⟩
  | gdeeRem q => exact ⟨h.gpse, fun y hy => h.gdee y (List.mem_filter.1 hy).1, h.cmsgs, h.ccues, h.cgms⟩
  | gdeeAdd x =>
    refine ⟨h.gpse, fun y hy => ?_, h.cmsgs, h.ccues, h.cgms⟩
    rcases mem_entAdd.1 hy with rfl | hy
    · exact hz
    · exact h.gdee y hy
  | cgmsPut x =>
    simp only [World.apply]
    split
    · refine ⟨h.gpse, h.gdee, h.cmsgs, h.ccues, fun num hn => ?_⟩
      simp only [upd2]
      rw [if_neg]
      · exact h.cgms num hn
      · rintro ⟨h1, h2⟩; exact hz ⟨h1.symm, by rw [← h2]; exact hn⟩
    · exact h
  | cmsg q n =>
    refine ⟨h.gpse, h.gdee, ?_, h.ccues, h.cgms⟩
    have hz : (p, sn) ≠ (q, n) := hz
    show (p, sn) ∉ w.cmsgs ++ [(q, n)]
    simp only [List.mem_append, List.mem_singleton, not_or]
    exact ⟨h.cmsgs, hz⟩
  | cdelPut q sn d => simp only [World.apply]; split <;> exact ⟨h.gpse, h.gdee, h.cmsgs, h.ccues, h.cgms⟩
  | pubFeed q n => simp only [World.apply]; split <;> exact ⟨h.gpse, h.gdee, h.cmsgs, h.ccues, h.cgms⟩
  | _ => exact ⟨h.gpse, h.gdee, h.cmsgs, h.ccues, h.cgms⟩

theorem Same.part {p : Id} {sn : Nat} {c : Num → Option Dig} {w : World} (h : Same p sn c w) {ws : List Wr} (hz : ∀ z ∈ ws, z.apart p sn) (n : Nat) :
    Same p sn c (w.applyAll (ws.take n)) :=
  writes_keep (P := Same p sn c) (fun _ _ h l => h.apply l) _ (fun z hm => hz z (List.mem_of_mem_take hm)) h

theorem delegation_apart {w : World} {p q : Id} {sn : Nat} {s : Option Nat} : ∀ z ∈ (delegation w q s).1, z.apart p sn := by
  intro x hx
  unfold delegation at hx
  split at hx
  · simp at hx
  split at hx
  · simp at hx; subst hx; trivial
  split at hx
  · simp at hx; subst hx; trivial
  split at hx
  · simp at hx; subst hx; trivial
  dsimp only at hx
  split at hx
  · simp at hx; subst hx; trivial
  split at hx
  · simp at hx; subst hx; trivial
  · simp at hx; rcases hx with rfl | rfl | rfl <;> trivial

theorem partialSigned_apart {w : World} {p : Id} {sn : Nat} {x : Entry} (hx : ¬At p sn x) : ∀ z ∈ (partialSigned w x).1, z.apart p sn := by
  have hm : (p, sn) ≠ (x.1, x.2.1.num) := by
    intro h; injection h with h1 h2; exact hx ⟨h1.symm, h2.symm⟩
  intro z hz
  unfold partialSigned at hz
  split at hz
  · simp at hz
  split at hz
  · simp at hz; subst hz; trivial
  split at hz
  · simp at hz; subst hz; trivial
  split at hz
  · simp at hz; subst hz; trivial
  split at hz
  · simp at hz; subst hz; trivial
  split at hz
  · simp at hz; subst hz; trivial
  split at hz
  · split at hz
    · split at hz
      · rename_i ws e hd
        rcases List.mem_cons.1 hz with rfl | h
        · trivial
        · exact delegation_apart (w := w) (q := x.1) (s := some x.2.1.num) _ (by rw [hd]; exact h)
      · rename_i ws hd
        simp only [List.cons_append, List.mem_cons, List.mem_append, List.not_mem_nil, or_false] at hz
        rcases hz with rfl | h | rfl
        · trivial
        · exact delegation_apart (w := w) (q := x.1) (s := some x.2.1.num) _ (by rw [hd]; exact h)
        · exact hx
    · simp at hz; rcases hz with rfl | rfl
      · trivial
      · exact hx
  · split at hz
    · simp at hz; rcases hz with rfl | rfl | rfl
      · trivial
      · exact hm
      · trivial
    · simp at hz; rcases hz with rfl | rfl <;> trivial

theorem delegateEsc_apart {w : World} {p : Id} {sn : Nat} {x : Entry} (hx : ¬At p sn x) : ∀ z ∈ (delegateEsc w x).1, z.apart p sn := by
  intro z hz
  unfold delegateEsc at hz
  split at hz
  · simp at hz
  split at hz
  · simp at hz
  split at hz
  · simp at hz
  · split at hz
    · simp at hz; rcases hz with rfl | rfl
      · trivial
      · exact hx
    · simp at hz
  · split at hz
    · simp at hz
    split at hz
    · simp at hz
    · simp at hz; rcases hz with rfl | rfl | rfl <;> trivial

theorem partialWitness_apart {w : World} {p : Id} {sn : Nat} {x : Entry} (hc : (p, sn) ∉ w.ccues)
    (he : ∀ k, w.node.kevers p = some k → k.wits ≠ [] ∧ elected w p k = .ok true) : ∀ z ∈ (partialWitness w x).1, z.apart p sn := by
  intro z hz
  unfold partialWitness at hz
  split at hz
  · simp at hz
  rename_i k hk
  split at hz
  · simp at hz
  split at hz
  · simp at hz
  rename_i el hel
  split at hz
  · split at hz
    · simp at hz
    · rename_i hne
      by_cases ha : At p sn x
      · exfalso
        obtain ⟨h1, h2⟩ := ha
        rw [h1] at hk hel
        obtain ⟨g1, g2⟩ := he k hk
        rw [hel] at g2
        injection g2 with g2
        subst g2
        refine hne ?_
        rw [h1, h2]
        simp [hc, List.length_pos_iff, g1]
      · simp at hz; rcases hz with rfl | rfl
        · trivial
        · exact ha
  · simp at hz

theorem deleg_apart {p : Id} {sn : Nat} {w : World} {c : Num → Option Dig} {z : Wr} (h : Same p sn c w) (hz : z.deleg) (hm : ∀ q n, z ≠ .cmsg q n) :
    Same p sn c (w.apply z) := by
  refine h.apply ?_
  cases z with
  | gdeeAdd => exact hz.elim
  | cgmsPut => exact hz.elim
  | cmsg q n => exact absurd rfl (hm q n)
  | _ => trivial

/-- The Anchorer asks nothing of the receiptor of the Counselor. -/
theorem Same.anchor {env : Env} {p : Id} {sn : Nat} {w : World} {c : Num → Option Dig} (h : Same p sn c w) (n : Nat) : Same p sn c (w.applyAll ((anchor env w).1.take n)) := by
  have go : ∀ {ws : List Wr} {w' : World}, (∀ y ∈ ws, Wr.deleg y) → (∀ y ∈ ws, ∀ q n, y ≠ .cmsg q n) → Same p sn c w' → ∀ n, Same p sn c (w'.applyAll (ws.take n)) :=
    fun hd hm hp n => writes_keep (P := Same p sn c) (L := fun z => z.deleg ∧ ∀ q n, z ≠ .cmsg q n) (fun _ _ h l => deleg_apart h l.1 l.2) _
      (fun y hy => ⟨hd y (List.mem_of_mem_take hy), hm y (List.mem_of_mem_take hy)⟩) hp
  unfold Grp.anchor
  refine three_part (P := Same p sn c) (a := World.dpwe) (b := World.dune) (c := World.dpub) ?_ ?_ ?_ h n
  · intro w' _ hp x _ n
    refine go dPartialWitness_deleg ?_ hp n
    intro y hy q n he
    subst he
    unfold dPartialWitness at hy
    split at hy
    · simp at hy
    split at hy
    · split at hy
      · simp at hy
      split at hy
      · simp at hy
      split at hy
      · simp at hy
      split at hy
      · simp at hy
      split at hy
      · simp at hy
      split at hy <;> simp at hy
    · simp at hy
  · intro _ _ _ w' _ hp x _ n
    refine go unanchored_deleg ?_ hp n
    intro y hy q n he
    subst he
    unfold unanchored at hy
    split at hy
    · simp at hy
    split at hy
    · simp at hy
    split at hy
    · simp at hy
    split at hy
    · simp at hy
    dsimp only at hy
    split at hy
    · simp at hy
    split at hy <;> simp at hy
  · intro _ _ _ w' _ hp x _ n
    refine go publication_deleg ?_ hp n
    intro y hy q n he
    subst he
    unfold publication at hy
    split at hy
    · simp at hy
    split at hy <;> simp at hy

theorem Same.counsel {p : Id} {sn : Nat} {w : World} {c : Num → Option Dig} (h : Same p sn c w)
    (he : ∀ k, w.node.kevers p = some k → k.wits ≠ [] ∧ elected w p k = .ok true) (n : Nat) : Same p sn c (w.applyAll ((counsel w).1.take n)) := by
  unfold Grp.counsel
  refine three_part (P := Same p sn c) (a := World.gpse) (b := World.gdee) (c := World.gpwe) ?_ ?_ ?_ h n
  · intro w' _ hp x hx n; exact hp.part (partialSigned_apart (h.gpse x hx)) n
  · intro w1 _ h1 w' _ hp x hx n; exact hp.part (delegateEsc_apart (h1.gdee x hx)) n
  · intro w1 _ h1 w' fr hp x hx n
    refine hp.part (partialWitness_apart hp.ccues ?_) n
    intro k hk
    rw [fr.kevers] at hk
    rw [fr.elected]
    exact he k hk

theorem Same.step {env : Env} {p : Id} {sn : Nat} {w : World} {c : Num → Option Dig} (h : Same p sn c w) {i : Inp} (g : Elected p sn w i) : Same p sn c (w.step env i) := by
  cases i with
  | start q num d =>
    simp only [World.step]
    split
    · refine ⟨fun y hy => ?_, h.gdee, h.cmsgs, h.ccues, h.cgms⟩
      rcases mem_entAdd.1 hy with rfl | hy
      · rintro ⟨h1, h2⟩
        have h1 : q = p := h1
        subst h1
        exact g.1 num d rfl h2
      · exact h.gpse y hy
    · exact h
  | delegation q s => have := h.part (delegation_apart (w := w) (q := q) (s := s)) (delegation w q s).1.length; rw [take_all] at this; exact this
  | counsel => have := h.counsel (g.2 (.inl rfl)) (Grp.counsel w).1.length; rw [take_all] at this; exact this
  | anchor => have := h.anchor (env := env) (Grp.anchor env w).1.length; rw [take_all] at this; exact this
  | cReceipted =>
    simp only [World.step, receipted]
    split
    · exact h
    · rename_i m r hm
      have h3 := h.cmsgs
      rw [hm] at h3
      simp only [List.mem_cons, not_or] at h3
      refine ⟨h.gpse, h.gdee, h3.2, ?_, h.cgms⟩
      simp only [List.mem_append, List.mem_singleton, not_or]
      exact ⟨h.ccues, h3.1⟩
  | aReceipted => exact ⟨h.gpse, h.gdee, h.cmsgs, h.ccues, h.cgms⟩
  | pubStart q => simp only [World.step]; split <;> exact ⟨h.gpse, h.gdee, h.cmsgs, h.ccues, h.cgms⟩
  | pubDone q => simp only [World.step]; split <;> exact ⟨h.gpse, h.gdee, h.cmsgs, h.ccues, h.cgms⟩
  | node n => exact ⟨h.gpse, h.gdee, h.cmsgs, h.ccues, h.cgms⟩
  | crashCounsel n =>
    have := h.counsel (g.2 (.inr ⟨n, rfl⟩)) n
    exact ⟨this.gpse, this.gdee, by simp [World.step, World.restarted], by simp [World.step, World.restarted], this.cgms⟩
  | crashAnchor n =>
    have := h.anchor (env := env) n
    exact ⟨this.gpse, this.gdee, by simp [World.step, World.restarted], by simp [World.step, World.restarted], this.cgms⟩
  | restart => exact ⟨h.gpse, h.gdee, by simp [World.step, World.restarted], by simp [World.step, World.restarted], h.cgms⟩

/-- C139, where the code fails: an event of a group with witnesses that waits for receipts when the process of the elected member stops is never reported complete, whatever
receipts arrive, unless it is started again. -/
theorem c139_stuck {env : Env} {p : Id} {sn : Nat} {w w' : World} (hs : ∀ y ∈ w.gpse, ¬At p sn y) (hd : ∀ y ∈ w.gdee, ¬At p sn y)
    (h : Hist env (Elected p sn) (w.step env .restart) w') (num : Num) (hn : num.num = sn) : w'.cgms p num = w.cgms p num := by
  have h0 : Same p sn (w.cgms p) (w.step env .restart) := ⟨hs, hd, by simp [World.step, World.restarted], by simp [World.step, World.restarted], fun _ _ => rfl⟩
  have : Same p sn (w.cgms p) w' := by
    clear hs hd
    induction h with
    | nil => exact h0
    | step i _ g ih => exact ih.step g
  exact this.cgms num hn

end Verif.Grp
