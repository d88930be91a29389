import Verif.Rct.PropsOwn

/-! # Property C34: good receipts of stored events are stored -/

namespace Verif.Rct

open Verif.Kel

/-- A loop whose steps all succeed runs to the end, and what one of its steps establishes holds at the end when every step keeps
it. -/
theorem loop_runs {α : Type} {f : RNode → α → ROut} {P Q : RNode → Prop} {a : α} : ∀ (xs : List α) (r : RNode), P r →
    (∀ r1 x, x ∈ xs → P r1 → (f r1 x).2 = .ok () ∧ P (f r1 x).1 ∧ (Q r1 → Q (f r1 x).1)) → (∀ r1, P r1 → Q (f r1 a).1) →
    (loop f r xs).2 = .ok () ∧ P (loop f r xs).1 ∧ (Q r → Q (loop f r xs).1) ∧ (a ∈ xs → Q (loop f r xs).1) := by
  intro xs
  induction xs with
  | nil => intro r hp _ _; exact ⟨rfl, hp, id, by simp⟩
  | cons x xs ih =>
    intro r hp hs ha
    obtain ⟨h1, h2, h3⟩ := hs r x (by simp) hp
    obtain ⟨g1, g2, g3, g4⟩ := ih (f r x).1 h2 (fun r1 y hy => hs r1 y (by simp [hy])) ha
    have e : loop f r (x :: xs) = loop f (f r x).1 xs := by
      have hfx : f r x = ((f r x).1, .ok ()) := by rw [← h1]
      conv => lhs; unfold loop
      rw [hfx]
    rw [e]
    refine ⟨g1, g2, fun hq => g3 (h3 hq), fun hm => ?_⟩
    rcases List.mem_cons.1 hm with rfl | hm
    · exact g3 (ha r hp)
    · exact g4 hm

/-- The couple is stored for (p, d): as a receipt couple, or as a witness signature when its key is in `ws`. -/
def Stored (ws : List Id) (p : Id) (d : Dig) (c : Cigar) (r : RNode) : Prop :=
  (c.key ∉ ws ∧ c ∈ r.store.rcts p d) ∨ (∃ s ∈ r.node.db.wigs p d, s.raw = c.raw ∧ ws[s.index]? = some c.key)

theorem Stored.mono {env : Env} {wg : Id → Dig → Sig → Prop} {rc : Id → Dig → Cigar → Prop} {vr : VKey → Sig → Prop}
    {ue : Entry Cigar → Prop} {r r' : RNode} (h : Rel env wg rc vr ue r r') {ws : List Id} {p : Id} {d : Dig} {c : Cigar}
    (g : Stored ws p d c r) : Stored ws p d c r' := by
  rcases g with ⟨h1, h2⟩ | ⟨s, h1, h2⟩
  · exact .inl ⟨h1, h.rkeep _ _ _ h2⟩
  · exact .inr ⟨s, h.wkeep _ _ _ h1, h2⟩

section
variable {env : Env} {lax l : Bool} {r : RNode} {x : Rct} {e : Event} {ws : List Id} {ldig : Dig}

theorem cigarStep_ok (hws : r.wits x.pre x.sn = .ok ws) (hlen : ws.length ≤ 64) {r1 : RNode} (h : CoreR r.node r1.node) (c : Cigar) :
    (cigarStep env lax l x e r1 c).2 = .ok () ∧
    (env.transferable c.key = false → ownBad lax l r.node c.key x.pre = false → env.verify c.key c.raw e = true →
      Stored ws x.pre x.said c (cigarStep env lax l x e r1 c).1) := by
  unfold cigarStep
  split
  · rename_i h1; exact ⟨rfl, fun h2 => absurd (h1.symm.trans h2) (by simp)⟩
  · split
    · rename_i h1
      rw [h.ownBad] at h1
      exact ⟨rfl, fun _ h2 => absurd (h1.symm.trans h2) (by simp)⟩
    · split
      · rename_i h1
        refine ⟨rfl, fun _ _ h2 => ?_⟩
        rw [h2] at h1; exact absurd h1 (by simp)
      · rw [wits_core h, hws]
        simp only
        split
        · rename_i hm
          have hidx : ws.idxOf c.key < 64 := Nat.lt_of_lt_of_le (List.idxOf_lt_length_of_mem hm) hlen
          simp only [mkWig, hidx, if_true]
          refine ⟨trivial, fun _ _ _ => .inr ⟨⟨0, ws.idxOf c.key, some (ws.idxOf c.key), c.raw⟩, ?_, rfl, getElem_idxOf hm⟩⟩
          show _ ∈ upd2 r1.node.db.wigs x.pre x.said _ x.pre x.said
          simp only [upd2, and_self, if_true]
          exact mem_ioAdd_self _ _
        · rename_i hm
          refine ⟨rfl, fun _ _ _ => .inl ⟨hm, ?_⟩⟩
          show _ ∈ upd2 r1.store.rcts x.pre x.said _ x.pre x.said
          simp only [upd2, and_self, if_true]
          exact mem_ioAdd_self _ _

theorem wigerStep_ok {r1 : RNode} (h : CoreR r.node r1.node) (hkeys : ∀ w ∈ ws, env.okKey w = true) (s : Sig) :
    (wigerStep env lax l x e ws r1 s).2 = .ok () ∧
    (∀ w, ws[s.index]? = some w → env.transferable w = false → ownBad lax l r.node w x.pre = false → env.verify w s.raw e = true →
      s ∈ (wigerStep env lax l x e ws r1 s).1.node.db.wigs x.pre x.said) := by
  unfold wigerStep
  split
  · rename_i h1; exact ⟨rfl, fun w h2 => absurd (h1.symm.trans h2) (by simp)⟩
  · rename_i w hw
    have hok : env.okKey w = true := hkeys w (List.mem_of_getElem? hw)
    simp only [hok, Bool.not_true, Bool.false_eq_true, if_false]
    split
    · rename_i h1
      refine ⟨rfl, fun w' h2 h3 => ?_⟩
      rw [hw] at h2; injection h2 with h2; subst h2; exact absurd (h1.symm.trans h3) (by simp)
    · split
      · rename_i h1
        rw [h.ownBad] at h1
        refine ⟨rfl, fun w' h2 _ h3 => ?_⟩
        rw [hw] at h2; injection h2 with h2; subst h2; exact absurd (h1.symm.trans h3) (by simp)
      · split
        · refine ⟨rfl, fun _ _ _ _ _ => ?_⟩
          show _ ∈ upd2 r1.node.db.wigs x.pre x.said _ x.pre x.said
          simp only [upd2, and_self, if_true]
          exact mem_ioAdd_self _ _
        · rename_i h1
          refine ⟨rfl, fun w' h2 _ _ h3 => ?_⟩
          rw [hw] at h2; injection h2 with h2; subst h2; exact absurd h3 h1

/-- **C34, good receipts are stored.** For a stored event at an occupied number, every couple of a receipt message by a non-transferable key
that verifies over the event is stored for it, and so is every witness signature that verifies under the witness at its index in the
witness list `fetchWitnessState` reports; neither is refused because of other signatures that come along. -/
theorem c34_good_stored (he : r.node.db.evts x.pre x.said = some e) (hsaid : e.said = x.said)
    (hl : (r.node.db.kels x.pre x.sn).getLast? = some ldig) (hws : r.wits x.pre x.sn = .ok ws) (hlen : ws.length ≤ 64)
    (hkeys : ∀ w ∈ ws, env.okKey w = true) (cs : List Cigar) (wgs : List Sig) (ts gs : List Group) :
    (∀ c ∈ cs, env.transferable c.key = false → ownBad lax l r.node c.key x.pre = false → env.verify c.key c.raw e = true →
      Stored ws x.pre x.said c (r.step env (.receipt lax l x cs wgs ts gs))) ∧
    (∀ s ∈ wgs, ∀ w, ws[s.index]? = some w → env.transferable w = false → ownBad lax l r.node w x.pre = false →
      env.verify w s.raw e = true → s ∈ (r.step env (.receipt lax l x cs wgs ts gs)).node.db.wigs x.pre x.said) := by
  let R := Rel env (WgR env lax l r x) (RcR env lax l r x) (VrR env lax l r x) (UeR env) r
  have hrel1 : ∀ r1 (c : Cigar), R r1 → Rel env (WgR env lax l r x) (RcR env lax l r x) (VrR env lax l r x) (UeR env) r1 (cigarStep env lax l x e r1 c).1 :=
    fun r1 c h => rel_cigarStep h.core he hl c
  have hrel2 : ∀ r1 (s : Sig), R r1 → Rel env (WgR env lax l r x) (RcR env lax l r x) (VrR env lax l r x) (UeR env) r1 (wigerStep env lax l x e ws r1 s).1 :=
    fun r1 c h => rel_wigerStep h.core he hws c
  have hrel3 : ∀ r1 (gl : List Group), R r1 → Rel env (WgR env lax l r x) (RcR env lax l r x) (VrR env lax l r x) (UeR env) r1 (loop (groupStep env lax l x e ldig) r1 gl).1 := by
    intro r1 gl h
    refine rel_loop _ _ _ _ (.rfl' _) (fun r2 g _ h2 => rel_groupStep (h.trans h2).core he hl g)
  have first : ∀ (Q : RNode → Prop) (a : Cigar), (∀ r1, R r1 → Q (cigarStep env lax l x e r1 a).1) →
      (∀ r1 r2, Rel env (WgR env lax l r x) (RcR env lax l r x) (VrR env lax l r x) (UeR env) r1 r2 → Q r1 → Q r2) →
      (loop (cigarStep env lax l x e) r cs).2 = .ok () ∧ R (loop (cigarStep env lax l x e) r cs).1 ∧
      (a ∈ cs → Q (loop (cigarStep env lax l x e) r cs).1) := by
    intro Q a ha hm
    have := loop_runs (f := cigarStep env lax l x e) (P := R) (Q := Q) (a := a) cs r (.rfl' _)
      (fun r1 c _ h => ⟨(cigarStep_ok hws hlen h.core c).1, h.trans (hrel1 r1 c h), hm _ _ (hrel1 r1 c h)⟩) ha
    exact ⟨this.1, this.2.1, this.2.2.2⟩
  obtain ⟨o1, p1, _⟩ := first (fun _ => True) ⟨0, 0⟩ (fun _ _ => trivial) (fun _ _ _ _ => trivial)
  have second : ∀ (Q : RNode → Prop) (a : Sig), (∀ r1, R r1 → Q (wigerStep env lax l x e ws r1 a).1) →
      (∀ r1 r2, Rel env (WgR env lax l r x) (RcR env lax l r x) (VrR env lax l r x) (UeR env) r1 r2 → Q r1 → Q r2) →
      (loop (wigerStep env lax l x e ws) (loop (cigarStep env lax l x e) r cs).1 wgs).2 = .ok () ∧
      R (loop (wigerStep env lax l x e ws) (loop (cigarStep env lax l x e) r cs).1 wgs).1 ∧
      (Q (loop (cigarStep env lax l x e) r cs).1 → Q (loop (wigerStep env lax l x e ws) (loop (cigarStep env lax l x e) r cs).1 wgs).1) ∧
      (a ∈ wgs → Q (loop (wigerStep env lax l x e ws) (loop (cigarStep env lax l x e) r cs).1 wgs).1) := by
    intro Q a ha hm
    exact loop_runs (f := wigerStep env lax l x e ws) (P := R) (Q := Q) (a := a) wgs _ p1
      (fun r1 c _ h => ⟨(wigerStep_ok h.core hkeys c).1, h.trans (hrel2 r1 c h), hm _ _ (hrel2 r1 c h)⟩) ha
  obtain ⟨o2, p2, _⟩ := second (fun _ => True) ⟨0, 0, none, 0⟩ (fun _ _ => trivial) (fun _ _ _ _ => trivial)
  have whole : r.step env (.receipt lax l x cs wgs ts gs) =
      (loop (groupStep env lax l x e ldig) (loop (wigerStep env lax l x e ws) (loop (cigarStep env lax l x e) r cs).1 wgs).1 (ts ++ gs)).1 := by
    have e1 : loop (cigarStep env lax l x e) r cs = ((loop (cigarStep env lax l x e) r cs).1, .ok ()) := by rw [← o1]
    have e2 : loop (wigerStep env lax l x e ws) (loop (cigarStep env lax l x e) r cs).1 wgs =
      ((loop (wigerStep env lax l x e ws) (loop (cigarStep env lax l x e) r cs).1 wgs).1, .ok ()) := by rw [← o2]
    show (r.receipt env lax l x cs wgs ts gs).1 = _
    unfold RNode.receipt
    simp only [hl, he, hsaid, ne_eq, not_true, if_false]
    rw [e1]
    simp only
    rw [wits_core p1.core, hws]
    simp only
    rw [e2]
  rw [whole]
  constructor
  · intro c hc h1 h2 h3
    obtain ⟨_, _, q⟩ := first (Stored ws x.pre x.said c) c (fun r1 h => (cigarStep_ok hws hlen h.core c).2 h1 h2 h3)
      (fun _ _ h g => g.mono h)
    have q1 := q hc
    have q2 : Stored ws x.pre x.said c (loop (wigerStep env lax l x e ws) (loop (cigarStep env lax l x e) r cs).1 wgs).1 := by
      refine Stored.mono (env := env) (wg := WgR env lax l r x) (rc := RcR env lax l r x) (vr := VrR env lax l r x) (ue := UeR env) ?_ q1
      exact rel_loop _ _ _ _ (.rfl' _) (fun r1 s _ h => hrel2 r1 s (p1.trans h))
    exact q2.mono (hrel3 _ _ p2)
  · intro s hs w h1 h2 h3 h4
    obtain ⟨_, _, _, q⟩ := second (fun r' => s ∈ r'.node.db.wigs x.pre x.said) s
      (fun r1 h => (wigerStep_ok h.core hkeys s).2 w h1 h2 h3 h4) (fun _ _ h g => h.wkeep _ _ _ g)
    exact (hrel3 _ _ p2).wkeep _ _ _ (q hs)

end

/-- **C34, good groups are stored.** A receipt message with one group by the establishment event last logged at its number, each of whose
indices is in range, stores under the last event at the receipt's number those of its signatures that verify over the receipted event. -/
theorem c34_good_group_stored {env : Env} {lax l : Bool} {r : RNode} {x : Rct} {e a : Event} {ws : List Id} {ldig : Dig}
    (he : r.node.db.evts x.pre x.said = some e) (hsaid : e.said = x.said)
    (hl : (r.node.db.kels x.pre x.sn).getLast? = some ldig) (hws : r.wits x.pre x.sn = .ok ws) (g : Group)
    (hown : ownBad lax l r.node g.pre x.pre = false)
    (hr : (r.node.db.kels g.pre g.sn).getLast? = some g.said) (ha : r.node.db.evts g.pre g.said = some a) (hasaid : a.said = g.said)
    (hest : a.ilk.est = true) (hidx : ∀ s ∈ g.sigs, s.index < a.keys.length) (hne : a.keys ≠ []) (s : Sig) (hs : s ∈ g.sigs)
    (hv : SignedBy env a.keys e s) :
    s ∈ (r.step env (.receipt lax l x [] [] [g] [])).store.vrcs ⟨x.pre, ldig, g.pre, g.sn, g.said⟩ ∧
    s ∈ (r.step env (.receipt lax l x [] [] [] [g])).store.vrcs ⟨x.pre, ldig, g.pre, g.sn, g.said⟩ := by
  have hvf : verfers a = a.keys := by simp [verfers, hest]
  have key : (groupStep env lax l x e ldig r g).2 = .ok () ∧
      s ∈ (groupStep env lax l x e ldig r g).1.store.vrcs ⟨x.pre, ldig, g.pre, g.sn, g.said⟩ := by
    have eq : groupStep env lax l x e ldig r g = loop (sigStep env false e a.keys ⟨x.pre, ldig, g.pre, g.sn, g.said⟩) r g.sigs := by
      unfold groupStep
      simp [hown, hr, ha, hasaid, hvf, hne]
    rw [eq]
    have step : ∀ (r1 : RNode) (t : Sig), t.index < a.keys.length →
        (sigStep env false e a.keys ⟨x.pre, ldig, g.pre, g.sn, g.said⟩ r1 t).2 = .ok () ∧
        (SignedBy env a.keys e t → t ∈ (sigStep env false e a.keys ⟨x.pre, ldig, g.pre, g.sn, g.said⟩ r1 t).1.store.vrcs ⟨x.pre, ldig, g.pre, g.sn, g.said⟩) := by
      intro r1 t ht
      unfold sigStep
      rw [List.getElem?_eq_getElem ht]
      simp only
      split
      · refine ⟨rfl, fun _ => ?_⟩
        show _ ∈ upd r1.store.vrcs _ _ _
        simp only [upd, if_true]
        exact mem_ioAdd_self _ _
      · rename_i h1
        refine ⟨rfl, fun ⟨key, h2, h3⟩ => ?_⟩
        rw [List.getElem?_eq_getElem ht] at h2
        injection h2 with h2; rw [h2] at h1; exact absurd h3 h1
    have := loop_runs (f := sigStep env false e a.keys ⟨x.pre, ldig, g.pre, g.sn, g.said⟩) (P := fun _ => True)
      (Q := fun r1 => s ∈ r1.store.vrcs ⟨x.pre, ldig, g.pre, g.sn, g.said⟩) (a := s) g.sigs r trivial
      (fun r1 t ht _ => ⟨(step r1 t (hidx t ht)).1, trivial,
        fun hq => (rel_sigStep (env := env) (wg := fun _ _ _ => True) (rc := fun _ _ _ => True) (vr := fun _ _ => True) (ue := fun _ => True)
          r1 t (fun _ => trivial)).vkeep _ _ hq⟩)
      (fun r1 _ => (step r1 s (hidx s hs)).2 hv)
    exact ⟨this.1, this.2.2.2 hs⟩
  have h1 : groupStep env lax l x e ldig r g = ((groupStep env lax l x e ldig r g).1, .ok ()) := by rw [← key.1]
  constructor
  · show s ∈ (r.receipt env lax l x [] [] [g] []).1.store.vrcs _
    unfold RNode.receipt
    simp only [hl, he, hsaid, ne_eq, not_true, if_false, loop, hws, List.append_nil]
    rw [h1]; exact key.2
  · show s ∈ (r.receipt env lax l x [] [] [] [g]).1.store.vrcs _
    unfold RNode.receipt
    simp only [hl, he, hsaid, ne_eq, not_true, if_false, loop, hws, List.nil_append]
    rw [h1]; exact key.2

/-- **C34, good attachments are stored.** Couples attached to an event that is the last one logged at its number, or the one with the given
first-seen ordinal, are stored for it when they verify over it. -/
theorem c34_good_attached_stored {env : Env} {lax l : Bool} {r : RNode} {e : Event} {ws : List Id} (fn : Option Nat)
    (hl : (fn = none ∧ (r.node.db.kels e.pre e.sn).getLast? = some e.said) ∨ (∃ i, fn = some i ∧ (r.node.db.fels e.pre)[i]? = some e.said))
    (hws : r.wits e.pre e.sn = .ok ws) (cs : List Cigar) (c : Cigar) (hc : c ∈ cs)
    (h1 : env.transferable c.key = false) (h2 : ownBad lax l r.node c.key e.pre = false) (h3 : env.verify c.key c.raw e = true) :
    c ∈ (r.step env (.couples lax l e fn cs)).store.rcts e.pre e.said := by
  have hl : ldigOf r e fn = some e.said := by
    rcases hl with ⟨h, h'⟩ | ⟨i, h, h'⟩ <;> subst h <;> exact h'
  have eq : r.step env (.couples lax l e fn cs) = (loop (attStep env lax l e e.said) r cs).1 := by
    show (r.couples env lax l e fn cs).1 = _
    unfold RNode.couples
    simp [hl]
  rw [eq]
  have step : ∀ (r1 : RNode) (a : Cigar), CoreR r.node r1.node → (attStep env lax l e e.said r1 a).2 = .ok () ∧
      Rel env (fun _ _ _ => True) (fun _ _ _ => True) (fun _ _ => True) (fun _ => True) r1 (attStep env lax l e e.said r1 a).1 := by
    intro r1 a h
    unfold attStep
    split
    · exact ⟨rfl, .rfl' _⟩
    · split
      · exact ⟨rfl, .rfl' _⟩
      · split
        · exact ⟨rfl, .rfl' _⟩
        · rw [wits_core h, hws]
          exact ⟨rfl, rel_addRct _ _ _ _ trivial⟩
  refine (loop_runs (f := attStep env lax l e e.said) (P := fun r1 => CoreR r.node r1.node)
    (Q := fun r1 => c ∈ r1.store.rcts e.pre e.said) (a := c) cs r ⟨rfl, rfl, rfl, rfl, rfl, rfl, rfl, rfl⟩ ?_ ?_).2.2.2 hc
  · intro r1 a _ h
    obtain ⟨s1, s2⟩ := step r1 a h
    exact ⟨s1, h.trans s2.core, s2.rkeep _ _ _⟩
  · intro r1 h
    unfold attStep
    rw [wits_core h, hws, h.ownBad]
    simp only [h1, h2, h3]
    show _ ∈ upd2 r1.store.rcts e.pre e.said _ e.pre e.said
    simp only [upd2, and_self, if_true]
    exact mem_ioAdd_self _ _

end Verif.Rct
