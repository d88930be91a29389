import Verif.Kel.SpreadStep
import Verif.Kel.PropsOrder

/-! # C31: a log delivered in any order, in pieces, over any interleaving with passes of the escrows -/

namespace Verif.Kel

open Verif.Thold (Thold)

/-- **C31 (safety), over any history at all.** Take a valid log without delegation and recovery. Whatever a node is given, as long
as all events it is given are events of that log: in whatever order and number, with whatever signatures (right or wrong, few or
many), from whatever source, with passes over any of the escrows, entries timing out or not, with receipts, approvals and changes
of the configuration in between; at every moment its logs and key states are those of a node that got the first `j` messages in
order, for some `j`.

Missing from the full property: delegated logs and logs with recovery. -/
theorem c31_any_history_partial {env : Env} {ps gs : List Id} {md : Id → Option Id} {l : Bool} {p : Id} {L : List Msg}
    (hv : ValidLog env (Node.start ps gs md) l p L) (ps' gs' : List Id) (md' : Id → Option Id) (h : List Inp)
    (hd : ∀ i, i ∈ h → ∀ e, i.delivers = some e → ∃ m, m ∈ L ∧ m.e = e) :
    ∃ j, j ≤ L.length ∧ LogsEq (inOrder env (Node.start ps gs md) l L j) ((Node.start ps' gs' md').run env h) := by
  have hu := evtU_start (Msg.events L) ps' gs' md'
  exact prefix_steps hv (run_steps env (Msg.events L) _ h hu (fun i hi e he => hd i hi e he)) hu
    ⟨0, by omega, rfl, rfl, rfl, rfl, rfl⟩

/-- A piece of a log: an event of it with some of the signatures and witness signatures of its message, one signature among them
verifying with the keys in force; or some of its witness signatures as receipts; or a pass over one of the escrows, or a retry of
one entry, in which nothing times out. -/
def Piece (env : Env) (n0 : Node) (l : Bool) (p : Id) (L : List Msg) (x : Inp) : Prop :=
  (∃ i, ∃ hi : i < L.length, ∃ ss ws c eager, x = .event L[i].e ss ws c eager l ∧ (∀ s, s ∈ ss → s ∈ L[i].ss) ∧
    (∀ s, s ∈ ws → s ∈ L[i].ws) ∧ ∃ s, s ∈ ss ∧ Verifies env (keysAt env n0 l p L i) L[i].e s) ∨
  (∃ i, ∃ hi : i < L.length, ∃ ws, x = .receipts p L[i].e.said ws ∧ ∀ s, s ∈ ws → s ∈ L[i].ws) ∨
  (∃ kind, x = .pass kind (fun _ => false)) ∨ ∃ kind y, x = .retry kind (fun _ => false) y

/-- The signature comes with some delivery of the event. -/
def SigIn (h : List Inp) (e : Event) (s : Sig) : Prop := ∃ ss ws c eager l, Inp.event e ss ws c eager l ∈ h ∧ s ∈ ss

/-- The witness signature comes with some delivery of the event, or as a receipt of it. -/
def WigIn (h : List Inp) (e : Event) (s : Sig) : Prop :=
  (∃ ss ws c eager l, Inp.event e ss ws c eager l ∈ h ∧ s ∈ ws) ∨ ∃ ws, Inp.receipts e.pre e.said ws ∈ h ∧ s ∈ ws

/-- The passes of one run of `processEscrows`, in its order. -/
def passes : List Inp :=
  [.pass .outOfOrder (fun _ => false), .pass .partialDels (fun _ => false), .pass .partialWigs (fun _ => false),
   .pass .partialSigs (fun _ => false)]

/-- They are `processEscrows`. -/
theorem run_passes (env : Env) (n : Node) : n.run env passes = n.processEscrows env (fun _ => false) := rfl

section

variable {env : Env} {ps gs : List Id} {md : Id → Option Id} {l : Bool} {p : Id} {L : List Msg}

theorem SInv.receipts {n : Node} {j : Nat} (h : SInv env ps gs md l p L n j) (hnc : NoColl (Msg.events L))
    (hv : ValidLog env (Node.start ps gs md) l p L) (i : Nat) (hi : i < L.length) (ws : List Sig)
    (hws : ∀ s, s ∈ ws → s ∈ L[i].ws) : SInv env ps gs md l p L (n.step env (.receipts p L[i].e.said ws)) j := by
  refine ⟨h.jle, h.reached.run (h' := [.receipts p L[i].e.said ws]) (fun j hj x hx => by
    simp at hj; subst hj; simp [Inp.delivers] at hx), LogsEq.trans h.logs ⟨rfl, rfl, rfl, rfl, rfl⟩, h.prefixes, h.groups,
    h.mid, h.mono, ?_, h.held, h.inesc⟩
  intro i' hi' hji'
  refine ⟨(h.sub i' hi' hji').1, ?_, (h.sub i' hi' hji').2.2⟩
  intro s hs
  by_cases hii : i' = i
  · subst hii
    simp only [Node.step, upd2, and_self, if_true, mem_ioPut] at hs
    exact hs.elim ((h.sub i' hi' hji').2.1 s) (hws s)
  · have hne : ¬ L[i'].e.said = L[i].e.said := fun hh => hii (said_inj hnc hv hi' hi hh)
    simp only [Node.step, upd2, hne, and_false, if_false] at hs
    exact (h.sub i' hi' hji').2.1 s hs

/-- One piece. -/
theorem SInv.piece (hnc : NoColl (Msg.events L)) (hv : ValidLog env (Node.start ps gs md) l p L) (hm : l = true ∨ p ∉ gs)
    {n : Node} {j : Nat} (h : SInv env ps gs md l p L n j) (x : Inp) (hx : Piece env (Node.start ps gs md) l p L x) :
    ∃ j', j ≤ j' ∧ SInv env ps gs md l p L (n.step env x) j' ∧ Stays p L n (n.step env x) j' ∧
      (∀ i (hi : i < L.length), j' ≤ i → (∃ ss ws c eager l', Inp.event L[i].e ss ws c eager l' = x) →
        InEsc p L (n.step env x) i hi) ∧
      (∀ i (hi : i < L.length) s, j' ≤ i → SigIn [x] L[i].e s →
        Verifies env (keysAt env (Node.start ps gs md) l p L i) L[i].e s → s ∈ (n.step env x).db.sigs p L[i].e.said) ∧
      (∀ i (hi : i < L.length) s, j' ≤ i → WigIn [x] L[i].e s →
        Verifies env (witsAt env (Node.start ps gs md) l p L i) L[i].e s → s ∈ (n.step env x).db.wigs p L[i].e.said) := by
  rcases hx with ⟨i, hi, ss, ws, c, eager, rfl, hss, hws, hver⟩ | ⟨i, hi, ws, rfl, hws⟩ | ⟨kind, rfl⟩ | ⟨kind, y, rfl⟩
  · have hsame : ∀ i' (hi' : i' < L.length), L[i'].e = L[i].e → i' = i := by
      intro i' hi' h'; rw [← hv.sn i' hi', ← hv.sn i hi, h']
    have hst : Steps env (Msg.events L) n (n.processEvent env L[i].e ss ws c eager l).1 :=
      (Steps.refl n).tail (.event n L[i].e ss ws c eager l ⟨L[i], List.getElem_mem hi, rfl⟩)
    obtain ⟨t1, t2⟩ := steps_sigs h.reached.evtU hst
    have hstay : ∀ j', Stays p L n (n.processEvent env L[i].e ss ws c eager l).1 j' := fun j' =>
      ⟨fun i' hi' _ ⟨kd, hkd, hin⟩ =>
        ⟨kd, hkd, (frame_entries (frame_process env n L[i].e ss ws c eager l) hkd _).1 hin⟩, t1, t2⟩
    show ∃ j', j ≤ j' ∧ SInv env ps gs md l p L (n.processEvent env L[i].e ss ws c eager l).1 j' ∧ _
    have hnone : ∀ (q : Prop) j', i < j' → ∀ i' (hi' : i' < L.length), j' ≤ i' → L[i'].e = L[i].e → q := by
      intro q j' hij i' hi' hji' heq
      have := hsame i' hi' heq
      omega
    by_cases hij : i < j
    · refine ⟨j, Nat.le_refl _, h.replay hnc hv i hi hij ss ws c eager l, hstay j, ?_, ?_, ?_⟩
      · rintro i' hi' hji' ⟨_, _, _, _, _, heq⟩
        injection heq with heq
        exact hnone _ j hij i' hi' hji' heq
      · rintro i' hi' s hji' ⟨_, _, _, _, _, heq, _⟩
        simp only [List.mem_cons, List.not_mem_nil, or_false] at heq
        injection heq with heq
        exact hnone _ j hij i' hi' hji' heq
      · rintro i' hi' s hji' (⟨_, _, _, _, _, heq, _⟩ | ⟨_, heq, _⟩)
        · simp only [List.mem_cons, List.not_mem_nil, or_false] at heq
          injection heq with heq
          exact hnone _ j hij i' hi' hji' heq
        · simp at heq
    · rcases h.proc hnc hv hm i hi (by omega) ss ws hss hws hver c eager with
        ⟨hij', hacc⟩ | ⟨hinv, _, kd0, hw0, _, hin0, hs0, hs1⟩
      · subst hij'
        refine ⟨i + 1, by omega, hacc, hstay _, ?_, ?_, ?_⟩
        · rintro i' hi' hji' ⟨_, _, _, _, _, heq⟩
          injection heq with heq
          exact hnone _ (i + 1) (by omega) i' hi' hji' heq
        · rintro i' hi' s hji' ⟨_, _, _, _, _, heq, _⟩
          simp only [List.mem_cons, List.not_mem_nil, or_false] at heq
          injection heq with heq
          exact hnone _ (i + 1) (by omega) i' hi' hji' heq
        · rintro i' hi' s hji' (⟨_, _, _, _, _, heq, _⟩ | ⟨_, heq, _⟩)
          · simp only [List.mem_cons, List.not_mem_nil, or_false] at heq
            injection heq with heq
            exact hnone _ (i + 1) (by omega) i' hi' hji' heq
          · simp at heq
      · refine ⟨j, Nat.le_refl _, hinv, hstay j, ?_, ?_, ?_⟩
        · rintro i' hi' hji' ⟨_, _, _, _, _, heq⟩
          injection heq with heq
          have := hsame i' hi' heq
          subst this
          exact ⟨kd0, hw0, hin0⟩
        · rintro i' hi' s hji' ⟨_, _, _, _, _, heq, hs⟩ hvs
          simp only [List.mem_cons, List.not_mem_nil, or_false] at heq
          injection heq with heq hss'
          have := hsame i' hi' heq
          subst this hss'
          exact hs0 s hs hvs
        · rintro i' hi' s hji' (⟨_, _, _, _, _, heq, hs⟩ | ⟨_, heq, _⟩) hvs
          · simp only [List.mem_cons, List.not_mem_nil, or_false] at heq
            injection heq with heq _ hws'
            have := hsame i' hi' heq
            subst this hws'
            exact hs1 s hs hvs
          · simp at heq
  · refine ⟨j, Nat.le_refl _, h.receipts hnc hv i hi ws hws, ⟨fun _ _ _ h => h, fun _ _ _ h => h, ?_⟩, ?_, ?_, ?_⟩
    · intro q d s hs; exact upd2_mono _ _ _ _ q d s hs
    · rintro i' hi' _ ⟨_, _, _, _, _, heq⟩; simp at heq
    · rintro i' hi' s _ ⟨_, _, _, _, _, heq, _⟩; simp at heq
    · rintro i' hi' s _ (⟨_, _, _, _, _, heq, _⟩ | ⟨ws', heq, hs⟩) _
      · simp at heq
      · simp only [List.mem_cons, List.not_mem_nil, or_false] at heq
        injection heq with _ heq hws'
        subst hws'
        rw [heq]
        simp only [Node.step, upd2, and_self, if_true, mem_ioPut]
        exact .inr hs
  · obtain ⟨j', a1, a2, a3, _, _⟩ := h.pass hnc hv hm kind (n.db.entries kind)
    refine ⟨j', a1, a2, a3, ?_, ?_, ?_⟩
    · rintro i' hi' _ ⟨_, _, _, _, _, heq⟩; simp at heq
    · rintro i' hi' s _ ⟨_, _, _, _, _, heq, _⟩; simp at heq
    · rintro i' hi' s _ (⟨_, _, _, _, _, heq, _⟩ | ⟨_, heq, _⟩) <;> simp at heq
  · obtain ⟨j', a1, a2, a3, _, _⟩ := h.step hnc hv hm kind y
    refine ⟨j', a1, a2, a3, ?_, ?_, ?_⟩
    · rintro i' hi' _ ⟨_, _, _, _, _, heq⟩; simp at heq
    · rintro i' hi' s _ ⟨_, _, _, _, _, heq, _⟩; simp at heq
    · rintro i' hi' s _ (⟨_, _, _, _, _, heq, _⟩ | ⟨_, heq, _⟩) <;> simp at heq

theorem run_cons (n : Node) (x : Inp) (h : List Inp) : n.run env (x :: h) = (n.step env x).run env h := rfl

/-- Any history of pieces. -/
theorem sinv_run (hnc : NoColl (Msg.events L)) (hv : ValidLog env (Node.start ps gs md) l p L) (hm : l = true ∨ p ∉ gs)
    (h : List Inp) : ∀ {n : Node} {j : Nat}, SInv env ps gs md l p L n j →
    (∀ x, x ∈ h → Piece env (Node.start ps gs md) l p L x) →
    ∃ j', j ≤ j' ∧ SInv env ps gs md l p L (n.run env h) j' ∧ Stays p L n (n.run env h) j' ∧
      (∀ i (hi : i < L.length), j' ≤ i → (∃ ss ws c eager l', Inp.event L[i].e ss ws c eager l' ∈ h) →
        InEsc p L (n.run env h) i hi) ∧
      (∀ i (hi : i < L.length) s, j' ≤ i → SigIn h L[i].e s →
        Verifies env (keysAt env (Node.start ps gs md) l p L i) L[i].e s → s ∈ (n.run env h).db.sigs p L[i].e.said) ∧
      (∀ i (hi : i < L.length) s, j' ≤ i → WigIn h L[i].e s →
        Verifies env (witsAt env (Node.start ps gs md) l p L i) L[i].e s → s ∈ (n.run env h).db.wigs p L[i].e.said) := by
  induction h with
  | nil =>
    intro n j ho _
    refine ⟨j, Nat.le_refl _, ho, Stays.refl _ j, ?_, ?_, ?_⟩
    · rintro i hi _ ⟨_, _, _, _, _, hx⟩; exact absurd hx (by simp)
    · rintro i hi s _ ⟨_, _, _, _, _, hx, _⟩; exact absurd hx (by simp)
    · rintro i hi s _ (⟨_, _, _, _, _, hx, _⟩ | ⟨_, hx, _⟩) <;> exact absurd hx (by simp)
  | cons x h ih =>
    intro n j ho hp
    obtain ⟨j1, a1, a2, a3, a4, a5, a6⟩ := ho.piece hnc hv hm x (hp x (by simp))
    obtain ⟨j2, b1, b2, b3, b4, b5, b6⟩ := ih a2 (fun y hy => hp y (by simp [hy]))
    rw [run_cons]
    refine ⟨j2, by omega, b2, a3.trans b3 b1, ?_, ?_, ?_⟩
    · rintro i hi hji ⟨ss, ws, c, eager, l', hx⟩
      rcases List.mem_cons.1 hx with hx | hx
      · exact b3.inesc i hi hji (a4 i hi (by omega) ⟨ss, ws, c, eager, l', hx⟩)
      · exact b4 i hi hji ⟨ss, ws, c, eager, l', hx⟩
    · rintro i hi s hji ⟨ss, ws, c, eager, l', hx, hs⟩ hvs
      rcases List.mem_cons.1 hx with hx | hx
      · exact b3.sigs _ _ s (a5 i hi s (by omega) ⟨ss, ws, c, eager, l', by rw [hx]; simp, hs⟩ hvs)
      · exact b5 i hi s hji ⟨ss, ws, c, eager, l', hx, hs⟩ hvs
    · rintro i hi s hji hw hvs
      have hsplit : WigIn [x] L[i].e s ∨ WigIn h L[i].e s := by
        rcases hw with ⟨ss, ws, c, eager, l', hx, hs⟩ | ⟨ws, hx, hs⟩
        · rcases List.mem_cons.1 hx with hx | hx
          · exact .inl (.inl ⟨ss, ws, c, eager, l', by rw [hx]; simp, hs⟩)
          · exact .inr (.inl ⟨ss, ws, c, eager, l', hx, hs⟩)
        · rcases List.mem_cons.1 hx with hx | hx
          · exact .inl (.inr ⟨ws, by rw [hx]; simp, hs⟩)
          · exact .inr (.inr ⟨ws, hx, hs⟩)
      rcases hsplit with hw | hw
      · exact b3.wigs _ _ s (a6 i hi s (by omega) hw hvs)
      · exact b6 i hi s hji hw hvs

/-- All messages not yet accepted wait, with all their verifying signatures. -/
def AllThere (env : Env) (ps gs : List Id) (md : Id → Option Id) (l : Bool) (p : Id) (L : List Msg) (n : Node) (j : Nat) : Prop :=
  ∀ i (hi : i < L.length), j ≤ i → InEsc p L n i hi ∧
    Complete env ps gs md l p L i hi (n.db.sigs p L[i].e.said) (n.db.wigs p L[i].e.said)

theorem AllThere.stays {n n' : Node} {j j' : Nat} (h : AllThere env ps gs md l p L n j) (hs : Stays p L n n' j')
    (hj : j ≤ j') : AllThere env ps gs md l p L n' j' := by
  intro i hi hji
  obtain ⟨h1, h2⟩ := h i hi (by omega)
  exact ⟨hs.inesc i hi hji h1, fun s a b => hs.sigs _ _ s (h2.1 s a b), fun s a b => hs.wigs _ _ s (h2.2 s a b)⟩

/-- A run of `processEscrows` accepts at least the next message. -/
theorem SInv.round (hnc : NoColl (Msg.events L)) (hv : ValidLog env (Node.start ps gs md) l p L) (hm : l = true ∨ p ∉ gs)
    {n : Node} {j : Nat} (h : SInv env ps gs md l p L n j) (ht : AllThere env ps gs md l p L n j) :
    ∃ j', SInv env ps gs md l p L (n.run env passes) j' ∧ AllThere env ps gs md l p L (n.run env passes) j' ∧
      j ≤ j' ∧ (j < L.length → j + 1 ≤ j') := by
  obtain ⟨j1, a1, a2, a3, a4, a5⟩ := h.pass hnc hv hm .outOfOrder (n.db.entries .outOfOrder)
  have e1 : n.run env passes = ((((n.escPass env .outOfOrder fun _ => false).escPass env .partialDels fun _ => false).escPass env
    .partialWigs fun _ => false).escPass env .partialSigs fun _ => false) := rfl
  rw [e1]
  change SInv env ps gs md l p L (n.escPass env .outOfOrder fun _ => false) j1 at a2
  change Stays p L n (n.escPass env .outOfOrder fun _ => false) j1 at a3
  change ∀ kd y, _ → _ → _ → y ∈ (n.escPass env .outOfOrder fun _ => false).db.entries kd at a4
  generalize n.escPass env .outOfOrder (fun _ => false) = n1 at *
  obtain ⟨j2, b1, b2, b3, b4, b5⟩ := a2.pass hnc hv hm .partialDels (n1.db.entries .partialDels)
  change SInv env ps gs md l p L (n1.escPass env .partialDels fun _ => false) j2 at b2
  change Stays p L n1 (n1.escPass env .partialDels fun _ => false) j2 at b3
  change ∀ kd y, _ → _ → _ → y ∈ (n1.escPass env .partialDels fun _ => false).db.entries kd at b4
  generalize n1.escPass env .partialDels (fun _ => false) = n2 at *
  obtain ⟨j3, c1, c2, c3, c4, c5⟩ := b2.pass hnc hv hm .partialWigs (n2.db.entries .partialWigs)
  change SInv env ps gs md l p L (n2.escPass env .partialWigs fun _ => false) j3 at c2
  change Stays p L n2 (n2.escPass env .partialWigs fun _ => false) j3 at c3
  change ∀ kd y, _ → _ → _ → y ∈ (n2.escPass env .partialWigs fun _ => false).db.entries kd at c4
  generalize n2.escPass env .partialWigs (fun _ => false) = n3 at *
  obtain ⟨j4, d1, d2, d3, d4, d5⟩ := c2.pass hnc hv hm .partialSigs (n3.db.entries .partialSigs)
  change SInv env ps gs md l p L (n3.escPass env .partialSigs fun _ => false) j4 at d2
  change Stays p L n3 (n3.escPass env .partialSigs fun _ => false) j4 at d3
  generalize n3.escPass env .partialSigs (fun _ => false) = n4 at *
  have hst := ((a3.trans b3 b1).trans c3 c1).trans d3 d1
  have hle : j ≤ j4 := by omega
  refine ⟨j4, d2, ht.stays hst hle, hle, ?_⟩
  intro hj
  apply Decidable.byContradiction
  intro hcon
  have : j4 = j := by omega
  have : j3 = j := by omega
  have : j2 = j := by omega
  have : j1 = j := by omega
  subst j4 j3 j2 j1
  obtain ⟨⟨kd, hkd, hin⟩, hc⟩ := ht j hj (Nat.le_refl _)
  have hc1 := (ht.stays a3 (Nat.le_refl _) j hj (Nat.le_refl _)).2
  have hc2 := (ht.stays (a3.trans b3 b1) (Nat.le_refl _) j hj (Nat.le_refl _)).2
  have hc3 := (ht.stays ((a3.trans b3 b1).trans c3 c1) (Nat.le_refl _) j hj (Nat.le_refl _)).2
  rcases hkd with rfl | rfl | rfl
  · have := a5 hj (.inl rfl) hin hin hc; omega
  · have h1 := a4 _ _ (.inr (.inl rfl)) hin (by simp)
    have h2 := b4 _ _ (.inr (.inl rfl)) h1 (by simp)
    have h3 := c4 _ _ (.inr (.inl rfl)) h2 (by simp)
    have := d5 hj (.inr (.inl rfl)) h3 h3 hc3; omega
  · have h1 := a4 _ _ (.inr (.inr rfl)) hin (by simp)
    have h2 := b4 _ _ (.inr (.inr rfl)) h1 (by simp)
    have := c5 hj (.inr (.inr rfl)) h2 h2 hc2; omega

theorem rounds_run (hnc : NoColl (Msg.events L)) (hv : ValidLog env (Node.start ps gs md) l p L) (hm : l = true ∨ p ∉ gs)
    (k : Nat) : ∀ {n : Node} {j : Nat}, SInv env ps gs md l p L n j → AllThere env ps gs md l p L n j → L.length ≤ j + k →
    SInv env ps gs md l p L (n.run env (List.replicate k passes).flatten) L.length := by
  induction k with
  | zero =>
    intro n j h _ hle
    have := h.jle
    obtain rfl : j = L.length := by omega
    exact h
  | succ k ih =>
    intro n j h ht hle
    rw [List.replicate_succ, List.flatten_cons, run_append]
    obtain ⟨j', a1, a2, a3, a4⟩ := h.round hnc hv hm ht
    refine ih a1 a2 ?_
    by_cases hj : j < L.length
    · have := a4 hj; omega
    · omega

end

/-- **C31, for logs without delegation and recovery, in pieces.** Take a valid log of an identifier (of which the node is not a
group member, or whose messages count as local). Deliver its events in any order, any number of times, each time with any part of
the signatures and witness signatures that contains a verifying signature; deliver witness signatures also as receipts; put passes
over any of the escrows and retries of single entries in between, in any way. Once every verifying signature and witness signature
has arrived in some piece, as many runs of `processEscrows` as the log has events leave exactly the key event logs, first-seen logs
and key states of in-order delivery of the whole messages.

Missing from the full property: delegated logs, logs with recovery. -/
theorem c31_pieces_partial {env : Env} {ps gs : List Id} {md : Id → Option Id} {l : Bool} {p : Id} {L : List Msg}
    (hnc : NoColl (Msg.events L)) (hv : ValidLog env (Node.start ps gs md) l p L) (hm : l = true ∨ p ∉ gs) (h : List Inp)
    (hp : ∀ x, x ∈ h → Piece env (Node.start ps gs md) l p L x)
    (hsig : ∀ i (hi : i < L.length) s, s ∈ L[i].ss → Verifies env (keysAt env (Node.start ps gs md) l p L i) L[i].e s →
      SigIn h L[i].e s)
    (hwig : ∀ i (hi : i < L.length) s, s ∈ L[i].ws → Verifies env (witsAt env (Node.start ps gs md) l p L i) L[i].e s →
      WigIn h L[i].e s) :
    LogsEq (inOrder env (Node.start ps gs md) l L L.length)
      ((Node.start ps gs md).run env (h ++ (List.replicate L.length passes).flatten)) := by
  obtain ⟨j, _, a2, _, a4, a5, a6⟩ := sinv_run hnc hv hm h (sinv_start L) hp
  rw [run_append]
  refine (rounds_run hnc hv hm L.length a2 ?_ (by omega)).logs
  intro i hi hji
  refine ⟨a4 i hi hji ?_, fun s h1 h2 => a5 i hi s hji (hsig i hi s h1 h2) h2,
    fun s h1 h2 => a6 i hi s hji (hwig i hi s h1 h2) h2⟩
  -- a verifying signature exists, so the event was delivered
  obtain ⟨k1, v, w, _, g, ha⟩ := enters_acc (inOrder_reached i).evtU.ok (hv.ent i hi)
  obtain ⟨_, _, _, _, _, hval⟩ := accepts_valid ha
  match hvs : v.sigs with
  | [] => exact absurd hvs hval.some
  | s :: r =>
    obtain ⟨h1, h2⟩ := hval.sigs s (by rw [hvs]; simp)
    have h2' : Verifies env (keysAt env (Node.start ps gs md) l p L i) L[i].e s := by rw [(at_eq hv i hi g).1]; exact h2
    obtain ⟨ss, ws, c, eager, l', hin, _⟩ := hsig i hi s h1 h2'
    exact ⟨ss, ws, c, eager, l', hin⟩

namespace Demo12

/-- Inception with two keys, both needed, and one witness. -/
def icp : Event := { Demo.icp with said := 60, keys := [101, 111], kt := .num 2, wits := [901], toad := 1 }
/-- An interaction after it. -/
def ixn : Event := { Demo.ixn1 with said := 61, prior := 60 }

/-- The log with all signatures, the interaction with a wrong one too. -/
def L : List Msg :=
  [⟨icp, [Demo.sig icp 101 0, Demo.sig icp 111 1], [Demo.sig icp 901 0]⟩,
   ⟨ixn, [Demo.sig ixn 101 0, Demo.sig ixn 111 1, Demo.sig ixn 101 1], [Demo.sig ixn 901 0]⟩]

/-- One signature at a time, backwards, the witness's separately as a receipt or with a copy. -/
def h : List Inp :=
  [.event ixn [Demo.sig ixn 101 0] [] none false false, .event icp [Demo.sig icp 111 1] [] none false false,
   .pass .partialSigs (fun _ => false), .event ixn [Demo.sig ixn 111 1] [Demo.sig ixn 901 0] none false false,
   .receipts 1 60 [Demo.sig icp 901 0], .event icp [Demo.sig icp 101 0] [] none false false]

theorem noColl : NoColl (Msg.events L) := by
  have h : ∀ x ∈ L, ∀ y ∈ L, x.e.said = y.e.said → x.e = y.e := by decide +kernel
  rintro x y ⟨m, hm, rfl⟩ ⟨m', hm', rfl⟩
  exact h m hm m' hm'

theorem valid : ValidLog Demo.env (Node.start [] [] fun _ => none) false 1 L := by
  have h : ∀ j < 2, (inOrder Demo.env (Node.start [] [] fun _ => none) false L (j + 1)).db.fels 1 ≠
      (inOrder Demo.env (Node.start [] [] fun _ => none) false L j).db.fels 1 := by decide +kernel
  have h1 : ∀ (j : Nat) (h : j < 2), (L[j]'h).e.sn = j ∧ (L[j]'h).e.pre = 1 ∧ (L[j]'h).e.ilk ≠ .dip ∧ (L[j]'h).e.ilk ≠ .drt := by
    decide +kernel
  exact ⟨fun j h => (h1 j h).1, fun j h => (h1 j h).2.1, fun j h => (h1 j h).2.2.1, fun j h => (h1 j h).2.2.2, h⟩

theorem keys0 : keysAt Demo.env (Node.start [] [] fun _ => none) false 1 L 0 = [101, 111] := by decide +kernel
theorem keys1 : keysAt Demo.env (Node.start [] [] fun _ => none) false 1 L 1 = [101, 111] := by decide +kernel

theorem ver {keys : List Id} {e : Event} {k i : Nat} (h : keys[i]? = some k) : Verifies Demo.env keys e (Demo.sig e k i) :=
  ⟨k, h, by simp [Demo.env, Demo.sig]⟩

/-- The wrong signature does not verify. -/
theorem not_ver : ¬ Verifies Demo.env [101, 111] ixn (Demo.sig ixn 101 1) := by
  rintro ⟨k, h1, h2⟩
  simp [Demo.sig] at h1
  subst h1
  exact absurd h2 (by decide +kernel)

theorem pieces : ∀ x, x ∈ h → Piece Demo.env (Node.start [] [] fun _ => none) false 1 L x := by
  intro x hx
  simp only [h, List.mem_cons, List.not_mem_nil, or_false] at hx
  rcases hx with rfl | rfl | rfl | rfl | rfl | rfl
  · exact .inl ⟨1, by decide, _, _, none, false, rfl, by simp [L], by simp, _, List.mem_cons_self, by rw [keys1]; exact ver rfl⟩
  · exact .inl ⟨0, by decide, _, _, none, false, rfl, by simp [L], by simp, _, List.mem_cons_self, by rw [keys0]; exact ver rfl⟩
  · exact .inr (.inr (.inl ⟨_, rfl⟩))
  · exact .inl ⟨1, by decide, _, _, none, false, rfl, by simp [L], by simp [L], _, List.mem_cons_self,
      by rw [keys1]; exact ver rfl⟩
  · exact .inr (.inl ⟨0, by decide, _, rfl, by simp [L]⟩)
  · exact .inl ⟨0, by decide, _, _, none, false, rfl, by simp [L], by simp, _, List.mem_cons_self, by rw [keys0]; exact ver rfl⟩

end Demo12

/-- The hypotheses are met: two signatures needed, delivered one at a time and backwards, the witness's as a receipt. -/
example : LogsEq (inOrder Demo.env (Node.start [] [] fun _ => none) false Demo12.L 2)
    ((Node.start [] [] fun _ => none).run Demo.env (Demo12.h ++ (List.replicate 2 passes).flatten)) :=
  c31_pieces_partial Demo12.noColl Demo12.valid (.inr (by simp)) Demo12.h Demo12.pieces
    (by
      intro i hi s hs hv
      have : i = 0 ∨ i = 1 := by have : i < 2 := hi; omega
      rcases this with rfl | rfl
      · simp only [Demo12.L, List.getElem_cons_zero, List.mem_cons, List.not_mem_nil, or_false] at hs
        rcases hs with rfl | rfl
        · exact ⟨[Demo.sig Demo12.icp 101 0], [], none, false, false, by simp [Demo12.h, Demo12.L], by simp⟩
        · exact ⟨[Demo.sig Demo12.icp 111 1], [], none, false, false, by simp [Demo12.h, Demo12.L], by simp⟩
      · rw [Demo12.keys1] at hv
        simp only [Demo12.L, List.getElem_cons_zero, List.getElem_cons_succ, List.mem_cons, List.not_mem_nil, or_false] at hs
        rcases hs with rfl | rfl | rfl
        · exact ⟨[Demo.sig Demo12.ixn 101 0], [], none, false, false, by simp [Demo12.h, Demo12.L], by simp⟩
        · exact ⟨[Demo.sig Demo12.ixn 111 1], [Demo.sig Demo12.ixn 901 0], none, false, false, by simp [Demo12.h, Demo12.L],
            by simp⟩
        · exact absurd hv Demo12.not_ver)
    (by
      intro i hi s hs hv
      have : i = 0 ∨ i = 1 := by have : i < 2 := hi; omega
      rcases this with rfl | rfl
      · simp only [Demo12.L, List.getElem_cons_zero, List.mem_cons, List.not_mem_nil, or_false] at hs
        subst hs
        exact .inr ⟨[Demo.sig Demo12.icp 901 0], by simp [Demo12.h, Demo12.L, Demo12.icp, Demo.icp], by simp⟩
      · simp only [Demo12.L, List.getElem_cons_zero, List.getElem_cons_succ, List.mem_cons, List.not_mem_nil, or_false] at hs
        subst hs
        exact .inl ⟨[Demo.sig Demo12.ixn 111 1], [Demo.sig Demo12.ixn 901 0], none, false, false,
          by simp [Demo12.h, Demo12.L], by simp⟩)

/-- The logs before the passes are those of nothing delivered: both messages wait. -/
example : ((Node.start [] [] fun _ => none).run Demo.env Demo12.h).db.fels 1 = [] ∧
    ((Node.start [] [] fun _ => none).run Demo.env (Demo12.h ++ (List.replicate 2 passes).flatten)).db.fels 1 = [60, 61] := by
  decide +kernel

/-- The hypothesis of the first theorem is met by any history over a log: also one with wrong signatures only. -/
example : ∃ j, j ≤ 2 ∧ LogsEq (inOrder Demo.env (Node.start [] [] fun _ => none) false Demo12.L j)
    ((Node.start [1] [] fun _ => none).run Demo.env
      [.event Demo12.ixn [Demo.sig Demo12.ixn 7 0] [] none true true, .pass .partialWigs (fun _ => true)]) :=
  c31_any_history_partial Demo12.valid [1] [] (fun _ => none) _ (by
    intro i hi e he
    simp only [List.mem_cons, List.not_mem_nil, or_false] at hi
    rcases hi with rfl | rfl
    · simp [Inp.delivers] at he; subst he; exact ⟨_, by simp [Demo12.L]; exact .inr rfl, rfl⟩
    · simp [Inp.delivers] at he)

end Verif.Kel
