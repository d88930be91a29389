import Verif.Kel.Order
import Verif.Kel.Demo

/-! # C31: a log delivered in any order, with repetitions, ends in the same state -/

namespace Verif.Kel

open Verif.Thold (Thold)

section

variable {env : Env} {ps gs : List Id} {md : Id → Option Id} {l : Bool} {p : Id} {L : List Msg}

theorem accepts_nonempty {n : Node} {e : Event} {ss ws : List Sig} {couple : Option Couple} {eager : Bool} {k1 : Kever}
    {v : Verified} {w : List Id} (ha : Accepts env n e ss ws couple eager l k1 v w) : ss ≠ [] := by
  rcases ha with ⟨a, _⟩ | ⟨k, a⟩ | ⟨k, a, _⟩
  · obtain ⟨_, _, _, hv, _⟩ := a.inc; exact val_nonempty hv
  · obtain ⟨_, _, _, _, hv, _⟩ := a.rot; exact val_nonempty hv
  · obtain ⟨_, hv, _⟩ := a.val; exact val_nonempty hv

theorem oset_ne_nil {α} [DecidableEq α] {a : List α} (h : a ≠ []) : oset a ≠ [] := by
  intro h'
  match a with
  | x :: a => exact absurd ((mem_oset (x :: a) (x := x)).2 (by simp)) (by rw [h']; simp)

theorem mem_remEntry (db : Db) (x y : Id × Nat × Dig) : y ∈ (db.remEntry x .outOfOrder).ooes ↔ y ∈ db.ooes ∧ y ≠ x := by
  simp [Db.remEntry]

/-- The node without an out-of-order entry. -/
def Node.dropOO (n : Node) (x : Id × Nat × Dig) : Node := { n with db := n.db.remEntry x .outOfOrder }

/-- What one entry of an out-of-order pass does. -/
theorem escStep_oo (env : Env) (n : Node) (p : Id) (s : Nat) (d : Dig) :
    (n.escStep env .outOfOrder (fun _ => false) (p, s, d) = n.dropOO (p, s, d) ∧
      (n.db.esrs p d = none ∨ n.db.evts p d = none ∨ n.db.sigs p d = [])) ∨
    ∃ l e, n.db.esrs p d = some l ∧ n.db.evts p d = some e ∧
      ((n.escStep env .outOfOrder (fun _ => false) (p, s, d) =
          (n.processEvent env e (n.db.sigs p d) (n.db.wigs p d) none false l).1 ∧
        (n.processEvent env e (n.db.sigs p d) (n.db.wigs p d) none false l).2 = .error .outOfOrder) ∨
       (n.escStep env .outOfOrder (fun _ => false) (p, s, d) =
          (n.processEvent env e (n.db.sigs p d) (n.db.wigs p d) none false l).1.dropOO (p, s, d) ∧
        (n.processEvent env e (n.db.sigs p d) (n.db.wigs p d) none false l).2 ≠ .error .outOfOrder)) := by
  unfold Node.escStep
  simp only [Bool.false_eq_true, if_false]
  split
  · rename_i h; exact .inl ⟨rfl, .inl h⟩
  · rename_i l hl
    split
    · rename_i h; exact .inl ⟨rfl, .inr (.inl h)⟩
    · rename_i e he
      split
      · rename_i h; exact .inl ⟨rfl, .inr (.inr h)⟩
      · rw [if_neg (by simp)]
        refine .inr ⟨l, e, hl, he, ?_⟩
        simp only [Esc.couple]
        split
        · rename_i n' hn'
          rw [hn']; exact .inr ⟨rfl, by simp⟩
        · rename_i n' x hn'
          rw [hn']
          by_cases hx : x = Esc.keep .outOfOrder
          · rw [if_pos hx]; subst hx; exact .inl ⟨rfl, rfl⟩
          · rw [if_neg hx]; exact .inr ⟨rfl, by simpa [Esc.keep] using hx⟩

/-- Removing the entry of an accepted message. -/
theorem OInv.drop {n n' : Node} {j : Nat} (h : OInv env ps gs md l p L n j) (i : Nat) (hi : i < L.length) (hij : i < j)
    (hn : n' = n.dropOO (entry p L i hi)) (hr : Reached env (Msg.events L) n') :
    OInv env ps gs md l p L n' j := by
  subst hn
  refine ⟨h.jle, hr, LogsEq.trans h.logs ⟨rfl, rfl, rfl, rfl, rfl⟩, h.prefixes, h.groups, h.mid, h.mono, ?_, ?_, ?_, ?_⟩
  · intro x hx; exact h.ents x ((mem_remEntry _ _ _).1 hx).1
  · exact h.sorted.filter _
  · intro i' hi' hji' hx; exact h.held i' hi' hji' ((mem_remEntry _ _ _).1 hx).1
  · intro i' hi' hji' hx
    refine h.clean i' hi' hji' (fun h' => hx ((mem_remEntry _ _ _).2 ⟨h', fun heq => ?_⟩))
    have := entry_inj heq
    omega

/-- One entry of an out-of-order pass. -/
theorem OInv.step (hnc : NoColl (Msg.events L)) (hv : ValidLog env (Node.start ps gs md) l p L) {n : Node} {j : Nat}
    (h : OInv env ps gs md l p L n j) (i : Nat) (hi : i < L.length) (hin : entry p L i hi ∈ n.db.ooes) :
    ∃ j', OInv env ps gs md l p L (n.escStep env .outOfOrder (fun _ => false) (entry p L i hi)) j' ∧
      (i = j → j' = j + 1) ∧ (i ≠ j → j' = j) ∧
      (j' ≤ i → entry p L i hi ∈ (n.escStep env .outOfOrder (fun _ => false) (entry p L i hi)).db.ooes) ∧
      ∀ i' (hi' : i' < L.length), i' ≠ i → entry p L i' hi' ∈ n.db.ooes →
        entry p L i' hi' ∈ (n.escStep env .outOfOrder (fun _ => false) (entry p L i hi)).db.ooes := by
  have hU : Msg.events L L[i].e := ⟨L[i], List.getElem_mem hi, rfl⟩
  have hr' : Reached env (Msg.events L) (n.escStep env .outOfOrder (fun _ => false) (entry p L i hi)) :=
    h.reached.run (h' := [.retry .outOfOrder (fun _ => false) (entry p L i hi)])
      (fun j hj x hx => by simp at hj; subst hj; simp [Inp.delivers] at hx)
  -- what the drop leaves
  have hdrop : ∀ m : Node, (∀ i' (hi' : i' < L.length), i' ≠ i → entry p L i' hi' ∈ n.db.ooes → entry p L i' hi' ∈ m.db.ooes) →
      ∀ i' (hi' : i' < L.length), i' ≠ i → entry p L i' hi' ∈ n.db.ooes →
        entry p L i' hi' ∈ (m.dropOO (entry p L i hi)).db.ooes := by
    intro m hm i' hi' hne hx
    exact (mem_remEntry _ _ _).2 ⟨hm i' hi' hne hx, fun heq => hne (entry_inj heq)⟩
  have hproc : ∀ (l' : Bool) i' (hi' : i' < L.length), i' ≠ i → entry p L i' hi' ∈ n.db.ooes →
      entry p L i' hi' ∈ (n.processEvent env L[i].e (n.db.sigs p L[i].e.said) (n.db.wigs p L[i].e.said) none false
        l').1.db.ooes := by
    intro l' i' hi' hne hx
    exact ((h.frame hnc hv i hi (frame_process env n L[i].e _ _ none false l')).2.2 i' hi' hne).1.2 hx
  have hcases : _ := escStep_oo env n p i L[i].e.said
  change (n.escStep env .outOfOrder (fun _ => false) (entry p L i hi) = n.dropOO (entry p L i hi) ∧ _) ∨ (∃ l' e, _ ∧ _ ∧
    ((n.escStep env .outOfOrder (fun _ => false) (entry p L i hi) = _ ∧ _) ∨
     (n.escStep env .outOfOrder (fun _ => false) (entry p L i hi) = Node.dropOO _ (entry p L i hi) ∧ _))) at hcases
  have hev : ∀ e, n.db.evts p L[i].e.said = some e → e = L[i].e := by
    intro e he
    have := h.reached.evtU _ _ _ he
    exact hnc e L[i].e this.2.2 hU this.2.1
  generalize n.escStep env .outOfOrder (fun _ => false) (entry p L i hi) = r at *
  by_cases hij : i < j
  · -- already accepted
    refine ⟨j, ?_, by omega, fun _ => rfl, by omega, ?_⟩
    · rcases hcases with ⟨hr, _⟩ | ⟨l', e, _, he, ⟨hr, _⟩ | ⟨hr, _⟩⟩
      · exact h.drop i hi hij hr hr'
      · obtain rfl := hev e he
        rw [hr]; exact h.replay hnc hv i hi hij _ _ none false l'
      · obtain rfl := hev e he
        exact (h.replay hnc hv i hi hij _ _ none false l').drop i hi hij hr hr'
    · rcases hcases with ⟨hr, _⟩ | ⟨l', e, _, he, ⟨hr, _⟩ | ⟨hr, _⟩⟩
      · rw [hr]; exact hdrop n (fun _ _ _ h => h)
      · obtain rfl := hev e he
        rw [hr]; exact hproc l'
      · obtain rfl := hev e he
        rw [hr]; exact hdrop _ (hproc l')
  · obtain ⟨g1, g2, g3, g4⟩ := h.held i hi (by omega) hin
    have hne : n.db.sigs p L[i].e.said ≠ [] := by
      obtain ⟨_, _, _, _, _, ha⟩ := enters_acc (inOrder_reached i).evtU.ok (hv.ent i hi)
      rw [g2]; exact oset_ne_nil (accepts_nonempty ha)
    have hss : oset (n.db.sigs p L[i].e.said) = oset L[i].ss := by rw [g2, oset_oset]
    have hws : oset (n.db.wigs p L[i].e.said) = oset L[i].ws := by rw [g3, oset_oset]
    rcases hcases with ⟨_, hr⟩ | ⟨l', e, hl', he, hr⟩
    · rcases hr with hr | hr | hr
      · rw [g4] at hr; exact absurd hr (by simp)
      · rw [g1] at hr; exact absurd hr (by simp)
      · exact absurd hr hne
    obtain rfl : l = l' := by rw [g4] at hl'; injection hl'
    obtain rfl := hev e he
    by_cases hij' : i = j
    · subst hij'
      have hnx := h.next hnc hv hi _ _ hss hws none false
      refine ⟨i + 1, ?_, fun _ => rfl, by omega, by omega, ?_⟩
      · rcases hr with ⟨hr, _⟩ | ⟨hr, _⟩
        · rw [hr]; exact hnx
        · exact hnx.drop i hi (by omega) hr hr'
      · rcases hr with ⟨hr, _⟩ | ⟨hr, _⟩
        · rw [hr]; exact hproc l
        · rw [hr]; exact hdrop _ (hproc l)
    · obtain ⟨a1, a2, a3⟩ := h.ahead hnc hv i hi (by omega) _ _ hss hws none false
      rcases hr with ⟨hr, _⟩ | ⟨_, hr⟩
      · rw [hr]
        exact ⟨j, a1, fun h => absurd h hij', fun _ => rfl, fun _ => a3, hproc l⟩
      · exact absurd a2 hr

/-- An out-of-order pass. -/
theorem OInv.pass (hnc : NoColl (Msg.events L)) (hv : ValidLog env (Node.start ps gs md) l p L)
    (xs : List (Id × Nat × Dig)) : ∀ {n : Node} {j : Nat}, OInv env ps gs md l p L n j → (∀ x, x ∈ xs → x ∈ n.db.ooes) →
    xs.Pairwise (fun a b => a.2.1 < b.2.1) →
    ∃ j', j ≤ j' ∧ OInv env ps gs md l p L (xs.foldl (fun n x => n.escStep env .outOfOrder (fun _ => false) x) n) j' ∧
      (∀ i (hi : i < L.length), entry p L i hi ∈ n.db.ooes → i < j' ∨
        entry p L i hi ∈ (xs.foldl (fun n x => n.escStep env .outOfOrder (fun _ => false) x) n).db.ooes) ∧
      ((∀ i (hi : i < L.length), j ≤ i → entry p L i hi ∈ xs) → j' = L.length) := by
  induction xs with
  | nil =>
    intro n j h _ _
    refine ⟨j, Nat.le_refl _, h, fun i hi hx => .inr hx, fun hall => ?_⟩
    by_cases hj : j < L.length
    · exact absurd (hall j hj (Nat.le_refl _)) (by simp)
    · have := h.jle; omega
  | cons x xs ih =>
    intro n j h hsub hsort
    rw [List.pairwise_cons] at hsort
    obtain ⟨i, hi, rfl⟩ := h.ents x (hsub x (by simp))
    obtain ⟨j1, s1, s2, s3, s4, s5⟩ := h.step hnc hv i hi (hsub _ (by simp))
    rw [List.foldl_cons]
    have hj1 : j ≤ j1 := by
      by_cases hij : i = j
      · rw [s2 hij]; omega
      · rw [s3 hij]; omega
    have hsub' : ∀ x, x ∈ xs → x ∈ (n.escStep env .outOfOrder (fun _ => false) (entry p L i hi)).db.ooes := by
      intro x hx
      obtain ⟨i', hi', rfl⟩ := h.ents x (hsub x (by simp [hx]))
      refine s5 i' hi' ?_ (hsub _ (by simp [hx]))
      have : i < i' := hsort.1 _ hx
      omega
    obtain ⟨j', p1, p2, p3, p4⟩ := ih s1 hsub' hsort.2
    refine ⟨j', by omega, p2, ?_, ?_⟩
    · intro i' hi' hx
      by_cases hii : i' = i
      · subst hii
        by_cases hle : j1 ≤ i'
        · exact p3 i' hi' (s4 hle)
        · left; omega
      · exact p3 i' hi' (s5 i' hi' hii hx)
    · intro hall
      have hall' : ∀ i (hi : i < L.length), j1 ≤ i → entry p L i hi ∈ xs := by
        intro i' hi' hle
        rcases List.mem_cons.1 (hall i' hi' (by omega)) with heq | hin
        · have hii := entry_inj heq
          subst hii
          -- the head is not below j, and not j; so j lies after it, which sorting forbids
          by_cases hij : i' = j
          · have := s2 hij; omega
          · have hj := s3 hij
            have hjl : j < L.length := by omega
            rcases List.mem_cons.1 (hall j hjl (Nat.le_refl _)) with heq' | hin'
            · exact absurd (entry_inj heq') (by omega)
            · have : i' < j := hsort.1 _ hin'
              omega
        · exact hin
      exact p4 hall'

theorem OInv.event (hnc : NoColl (Msg.events L)) (hv : ValidLog env (Node.start ps gs md) l p L) {n : Node} {j : Nat}
    (h : OInv env ps gs md l p L n j) (i : Nat) (hi : i < L.length) (c : Option Couple) (eager : Bool) :
    ∃ j', j ≤ j' ∧ OInv env ps gs md l p L (n.processEvent env L[i].e L[i].ss L[i].ws c eager l).1 j' ∧
      (i < j' ∨ entry p L i hi ∈ (n.processEvent env L[i].e L[i].ss L[i].ws c eager l).1.db.ooes) ∧
      ∀ i' (hi' : i' < L.length), entry p L i' hi' ∈ n.db.ooes → i' < j' ∨
        entry p L i' hi' ∈ (n.processEvent env L[i].e L[i].ss L[i].ws c eager l).1.db.ooes := by
  have hf := (h.frame hnc hv i hi (frame_process env n L[i].e L[i].ss L[i].ws c eager l)).2.2
  rcases Nat.lt_trichotomy i j with hij | hij | hij
  · refine ⟨j, Nat.le_refl _, h.replay hnc hv i hi hij _ _ c eager l, .inl hij, ?_⟩
    intro i' hi' hx
    by_cases hii : i' = i
    · left; omega
    · exact .inr ((hf i' hi' hii).1.2 hx)
  · subst hij
    refine ⟨i + 1, by omega, h.next hnc hv hi _ _ rfl rfl c eager, .inl (by omega), ?_⟩
    intro i' hi' hx
    by_cases hii : i' = i
    · left; omega
    · exact .inr ((hf i' hi' hii).1.2 hx)
  · obtain ⟨a1, _, a3⟩ := h.ahead hnc hv i hi hij _ _ rfl rfl c eager
    refine ⟨j, Nat.le_refl _, a1, .inr a3, ?_⟩
    intro i' hi' hx
    by_cases hii : i' = i
    · subst hii; exact .inr a3
    · exact .inr ((hf i' hi' hii).1.2 hx)

/-- Invariant of a whole history. -/
theorem oinv_run (hnc : NoColl (Msg.events L)) (hv : ValidLog env (Node.start ps gs md) l p L) (h : List Inp) :
    ∀ {n : Node} {j : Nat}, OInv env ps gs md l p L n j → (∀ i, i ∈ h → Feeds L l i) →
    ∃ j', j ≤ j' ∧ OInv env ps gs md l p L (n.run env h) j' ∧
      (∀ i (hi : i < L.length), entry p L i hi ∈ n.db.ooes → i < j' ∨ entry p L i hi ∈ (n.run env h).db.ooes) ∧
      (∀ i (hi : i < L.length), (∃ c eager, Inp.event L[i].e L[i].ss L[i].ws c eager l ∈ h) →
        i < j' ∨ entry p L i hi ∈ (n.run env h).db.ooes) := by
  induction h with
  | nil =>
    intro n j h _
    exact ⟨j, Nat.le_refl _, h, fun i hi hx => .inr hx, fun i hi ⟨_, _, hx⟩ => absurd hx (by simp)⟩
  | cons x h ih =>
    intro n j ho hfeed
    have hx := hfeed x (by simp)
    have hrest := fun i hi => hfeed i (List.mem_cons_of_mem _ hi)
    -- one input
    have hone : ∃ j1, j ≤ j1 ∧ OInv env ps gs md l p L (n.step env x) j1 ∧
        (∀ i (hi : i < L.length), entry p L i hi ∈ n.db.ooes → i < j1 ∨ entry p L i hi ∈ (n.step env x).db.ooes) ∧
        (∀ i (hi : i < L.length), (∃ c eager, Inp.event L[i].e L[i].ss L[i].ws c eager l = x) →
          i < j1 ∨ entry p L i hi ∈ (n.step env x).db.ooes) := by
      rcases hx with rfl | ⟨m, hm, c, eager, rfl⟩
      · obtain ⟨j1, p1, p2, p3, _⟩ := ho.pass hnc hv n.db.ooes (fun _ h => h) ho.sorted
        exact ⟨j1, p1, p2, p3, fun i hi ⟨_, _, hx⟩ => absurd hx (by simp)⟩
      · obtain ⟨i, hi, rfl⟩ := List.getElem_of_mem hm
        obtain ⟨j1, p1, p2, p3, p4⟩ := ho.event hnc hv i hi c eager
        refine ⟨j1, p1, p2, p4, ?_⟩
        rintro i' hi' ⟨c', eager', heq⟩
        injection heq with heq
        have : i' = i := by rw [← hv.sn i' hi', ← hv.sn i hi, heq]
        subst this
        exact p3
    obtain ⟨j1, p1, p2, p3, p4⟩ := hone
    obtain ⟨j', q1, q2, q3, q4⟩ := ih p2 hrest
    refine ⟨j', by omega, q2, ?_, ?_⟩
    · intro i hi hin
      rcases p3 i hi hin with h1 | h1
      · left; omega
      · exact q3 i hi h1
    · rintro i hi ⟨c, eager, hin⟩
      rcases List.mem_cons.1 hin with heq | hin
      · rcases p4 i hi ⟨c, eager, heq⟩ with h1 | h1
        · left; omega
        · exact q3 i hi h1
      · exact q4 i hi ⟨c, eager, hin⟩

end

/-- **C31 (safety).** Whatever the order and repetition in which the messages of a valid log arrive, and however
out-of-order passes are interleaved, at every moment the node's logs and key states are those of a node that got the first `j`
messages in order, for some `j`. -/
theorem c31_prefix_partial {env : Env} {ps gs : List Id} {md : Id → Option Id} {l : Bool} {p : Id} {L : List Msg}
    (hnc : NoColl (Msg.events L)) (hv : ValidLog env (Node.start ps gs md) l p L) (h : List Inp)
    (hf : ∀ i, i ∈ h → Feeds L l i) :
    ∃ j, j ≤ L.length ∧ LogsEq (inOrder env (Node.start ps gs md) l L j) ((Node.start ps gs md).run env h) := by
  obtain ⟨j, _, ho, _, _⟩ := oinv_run hnc hv h (oinv_start L) hf
  exact ⟨j, ho.jle, ho.logs⟩

/-- **C31, for logs without delegation and recovery.** When every message of a valid log has arrived at least once, in any
order, any number of times, interleaved with out-of-order passes in any way, then one more out-of-order pass leaves exactly the
key event logs, first-seen logs and key states of in-order delivery.

Missing from the full property: delegated logs, logs with recovery, signatures arriving in several messages, and the other
escrow passes in between. -/
theorem c31_order_partial {env : Env} {ps gs : List Id} {md : Id → Option Id} {l : Bool} {p : Id} {L : List Msg}
    (hnc : NoColl (Msg.events L)) (hv : ValidLog env (Node.start ps gs md) l p L) (h : List Inp)
    (hf : ∀ i, i ∈ h → Feeds L l i)
    (hall : ∀ m, m ∈ L → ∃ c eager, Inp.event m.e m.ss m.ws c eager l ∈ h) :
    LogsEq (inOrder env (Node.start ps gs md) l L L.length)
      ((Node.start ps gs md).run env (h ++ [.pass .outOfOrder (fun _ => false)])) := by
  obtain ⟨j, _, ho, _, hd⟩ := oinv_run hnc hv h (oinv_start L) hf
  rw [run_append]
  generalize (Node.start ps gs md).run env h = n at *
  obtain ⟨j', p1, p2, p3, p4⟩ := ho.pass hnc hv n.db.ooes (fun _ h => h) ho.sorted
  have hj' := p4 (fun i hi hle => by
    rcases hd i hi (hall _ (List.getElem_mem hi)) with h1 | h1
    · omega
    · exact h1)
  subst hj'
  exact p2.logs

namespace Demo11

/-- Rotation at 2 following `ixn1`. -/
def rot2 : Event := { Demo.icp with ilk := .rot, sn := 2, said := 42, prior := 11, keys := [102], ndigs := [603] }

/-- A log of three messages: inception, interaction, rotation. -/
def L : List Msg :=
  [⟨Demo.icp, [Demo.sig Demo.icp 101 0], []⟩, ⟨Demo.ixn1, [Demo.sig Demo.ixn1 101 0], []⟩, ⟨rot2, [Demo.sig rot2 102 0], []⟩]

theorem noColl : NoColl (Msg.events L) := by
  have h : ∀ x ∈ L, ∀ y ∈ L, x.e.said = y.e.said → x.e = y.e := by decide +kernel
  rintro x y ⟨m, hm, rfl⟩ ⟨m', hm', rfl⟩
  exact h m hm m' hm'

theorem valid : ValidLog Demo.env (Node.start [] [] fun _ => none) false 1 L := by
  have h : ∀ j < 3, (inOrder Demo.env (Node.start [] [] fun _ => none) false L (j + 1)).db.fels 1 ≠
      (inOrder Demo.env (Node.start [] [] fun _ => none) false L j).db.fels 1 := by decide +kernel
  have h1 : ∀ (j : Nat) (h : j < 3), (L[j]'h).e.sn = j ∧ (L[j]'h).e.pre = 1 ∧ (L[j]'h).e.ilk ≠ .dip ∧ (L[j]'h).e.ilk ≠ .drt := by
    decide +kernel
  exact ⟨fun j h => (h1 j h).1, fun j h => (h1 j h).2.1, fun j h => (h1 j h).2.2.1, fun j h => (h1 j h).2.2.2, h⟩

/-- Backwards delivery with a repetition and a pass in between. -/
def h : List Inp :=
  [.event rot2 [Demo.sig rot2 102 0] [] none false false, Demo.recv Demo.ixn1 101,
    .event rot2 [Demo.sig rot2 102 0] [] none false false,
   .pass .outOfOrder (fun _ => false), Demo.recv Demo.icp 101]

end Demo11

/-- The hypotheses are met by backwards delivery of three messages. -/
example : LogsEq (inOrder Demo.env (Node.start [] [] fun _ => none) false Demo11.L 3)
    ((Node.start [] [] fun _ => none).run Demo.env (Demo11.h ++ [.pass .outOfOrder (fun _ => false)])) :=
  c31_order_partial Demo11.noColl Demo11.valid Demo11.h
    (by
      intro i hi
      simp only [Demo11.h, Demo.recv, List.mem_cons, List.not_mem_nil, or_false] at hi
      rcases hi with rfl | rfl | rfl | rfl | rfl
      · exact .inr ⟨Demo11.L[2], by simp [Demo11.L], none, false, rfl⟩
      · exact .inr ⟨Demo11.L[1], by simp [Demo11.L], none, false, rfl⟩
      · exact .inr ⟨Demo11.L[2], by simp [Demo11.L], none, false, rfl⟩
      · exact .inl rfl
      · exact .inr ⟨Demo11.L[0], by simp [Demo11.L], none, false, rfl⟩)
    (by
      intro m hm
      simp only [Demo11.L, List.mem_cons, List.not_mem_nil, or_false] at hm
      rcases hm with rfl | rfl | rfl <;> exact ⟨none, false, by simp [Demo11.h, Demo.recv]⟩)

end Verif.Kel
