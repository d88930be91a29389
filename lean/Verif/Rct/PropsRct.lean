import Verif.Rct.Lemmas
import Verif.Kel.PropsStore

/-! # Property C34: receipts are stored against the event they sign -/

namespace Verif.Rct

open Verif.Kel

/-- All events carried by a history lie in `U`. -/
def RDelivers (U : Event → Prop) (h : List RInp) : Prop := ∀ i ∈ h, ∀ e, i.delivers = some e → U e

/-- `r` is the state after some history of key events, escrow passes and receipts whose events all lie in `U`. -/
def RReached (env : Env) (U : Event → Prop) (r : RNode) : Prop :=
  ∃ prefixes groups mid h, RDelivers U h ∧ r = (RNode.start prefixes groups mid).run env h

/-- A list of witnesses an index can refer to: the one stored for an accepted establishment event of the identifier, the current
one of its key state, or the one that an event `x` waiting for witness signatures establishes. -/
inductive WitnessList (n : Node) (p : Id) (x : Event) : List Id → Prop
  | log (a : Event) (ha : Accepted n.db p a) (he : a.ilk.est = true) : WitnessList n p x (n.db.wits p a.said)
  | none : WitnessList n p x []
  | state (k : Kever) (hk : n.kevers p = some k) : WitnessList n p x k.wits
  | incepts (h : x.ilk = .icp ∨ x.ilk = .dip) : WitnessList n p x x.wits
  | rotates (k : Kever) (hk : n.kevers p = some k) (h : x.ilk = .rot ∨ x.ilk = .drt) :
      WitnessList n p x (ioPut ((oset k.wits).filter (fun w => !decide (w ∈ x.cuts))) x.adds)

/-- A witness signature stored for (p, d) is by the witness at its index, over the event stored there. -/
def GoodWig (env : Env) (n : Node) (p : Id) (d : Dig) (s : Sig) : Prop :=
  ∃ x ws, n.db.evts p d = some x ∧ WitnessList n p x ws ∧ SignedBy env ws x s

/-- A couple stored for (p, d) is by a non-transferable key, over the event stored there. -/
def GoodRct (env : Env) (n : Node) (p : Id) (d : Dig) (c : Cigar) : Prop :=
  ∃ x, n.db.evts p d = some x ∧ x.said = d ∧ env.verify c.key c.raw x = true ∧ env.transferable c.key = false

/-- A group signature stored under `k` is over `x`, by a key of the accepted establishment event of the receiptor named in `k`. -/
def ByReceiptor (env : Env) (n : Node) (k : VKey) (x : Event) (s : Sig) : Prop :=
  ∃ a, Accepted n.db k.rpre a ∧ a.said = k.rdig ∧ a.sn = k.rsn ∧ a.ilk.est = true ∧ SignedBy env a.keys x s

theorem last_accepted {U : Event → Prop} {n : Node} (hi : Inv U n) {p : Id} {sn : Nat} {d : Dig}
    (h : (n.db.kels p sn).getLast? = some d) : ∃ x, Accepted n.db p x ∧ x.said = d ∧ x.sn = sn ∧ x.pre = p := by
  obtain ⟨hf, x, hx, hs⟩ := (hi.mem p d sn).1 (List.mem_of_getLast? h)
  have hu := hi.evt _ _ _ hx
  exact ⟨x, ⟨by rw [hu.2.1]; exact hf, by rw [hu.2.1]; exact hx⟩, hu.2.1, hs, hu.1⟩

theorem fels_accepted {U : Event → Prop} {n : Node} (hi : Inv U n) {p : Id} {d : Dig} (h : d ∈ n.db.fels p) :
    ∃ x, Accepted n.db p x ∧ x.said = d := by
  obtain ⟨x, hx⟩ := hi.stored p d h
  have hu := hi.evt _ _ _ hx
  exact ⟨x, ⟨by rw [hu.2.1]; exact h, by rw [hu.2.1]; exact hx⟩, hu.2.1⟩

theorem ldigOf_accepted {U : Event → Prop} {r : RNode} (hi : Inv U r.node) {e : Event} {fn : Option Nat} {d : Dig}
    (h : ldigOf r e fn = some d) : ∃ x, Accepted r.node.db e.pre x ∧ x.said = d := by
  cases fn with
  | none => obtain ⟨x, h1, h2, _⟩ := last_accepted hi h; exact ⟨x, h1, h2⟩
  | some fn => exact fels_accepted hi (List.mem_of_getElem? h)

theorem endorsed_by {env : Env} {U : Event → Prop} {n : Node} (hi : Inv U n) {k : VKey} {e : Event} {s : Sig}
    (h : Endorsed env n k e s) : ByReceiptor env n k e s := by
  obtain ⟨sdig, se, h1, h2, h3, h4, h5⟩ := h
  obtain ⟨a, ha, hs, hn, _⟩ := last_accepted hi h1
  have : a = se := by have := ha.2; rw [hs, h2] at this; injection this with this; exact this.symm
  subst this
  exact ⟨a, ha, h3, hn, h4, h5⟩

theorem witState_list {U : Event → Prop} {n : Node} (hi : Inv U n) {p : Id} {x : Event} (l : List Dig)
    (hl : ∀ d ∈ l, d ∈ n.db.fels p) {ws : List Id} (h : witState n.db p l = .ok ws) : WitnessList n p x ws := by
  induction l with
  | nil => simp [witState] at h; subst h; exact .none
  | cons d l ih =>
    unfold witState at h
    split at h
    · exact absurd h (by simp)
    · rename_i e he
      split at h
      · rename_i hest
        injection h with h; subst h
        have hu := hi.evt _ _ _ he
        have := WitnessList.log (n := n) (p := p) (x := x) e ⟨by rw [hu.2.1]; exact hl d (by simp), by rw [hu.2.1]; exact he⟩ hest
        rw [hu.2.1] at this; exact this
      · exact ih (fun d hd => hl d (by simp [hd])) h

theorem backDigs_fels {U : Event → Prop} {n : Node} (hi : Inv U n) {p : Id} (sn : Nat) : ∀ d ∈ backDigs n.db p sn, d ∈ n.db.fels p := by
  induction sn with
  | zero => intro d hd; simp [backDigs] at hd; exact ((hi.mem _ _ _).1 hd).1
  | succ m ih =>
    intro d hd
    simp only [backDigs, List.mem_append, List.mem_reverse] at hd
    rcases hd with hd | hd
    · exact ((hi.mem _ _ _).1 hd).1
    · exact ih d hd

theorem wits_list {U : Event → Prop} {r : RNode} (hi : Inv U r.node) {p : Id} {sn : Nat} {x : Event} {ws : List Id}
    (h : r.wits p sn = .ok ws) : WitnessList r.node p x ws := by
  unfold RNode.wits at h
  split at h
  · rename_i w hw
    injection h with h; subst h
    exact witState_list hi _ (backDigs_fels hi sn) hw
  · exact absurd h (by simp)

theorem pending_list {n : Node} {p : Id} {x : Event} (hp : x.pre = p) {ws : List Id} (h : pendingWits n x = .ok (some ws)) :
    WitnessList n p x ws := by
  unfold pendingWits at h
  rw [hp] at h
  have inc : (x.ilk = .icp ∨ x.ilk = .dip) →
      (if (oset x.wits).length ≠ x.wits.length then Except.error RExn.validation else Except.ok (some x.wits)) = .ok (some ws) →
      WitnessList n p x ws := by
    intro hi h
    split at h
    · exact absurd h (by simp)
    · simp at h; subst h; exact .incepts hi
  have cur : (match n.kevers p with | none => Except.error RExn.key | some k => Except.ok (some k.wits)) = .ok (some ws) →
      WitnessList n p x ws := by
    intro h
    split at h
    · exact absurd h (by simp)
    · rename_i k hk
      simp at h; subst h; exact .state k hk
  have rot : (x.ilk = .rot ∨ x.ilk = .drt) → (match n.kevers p with
      | none => Except.ok none
      | some k =>
        if (oset x.cuts).length ≠ x.cuts.length then Except.error RExn.validation
        else if !Kel.cutsOk k.wits x.cuts then .error .validation
        else if (oset x.adds).length ≠ x.adds.length then .error .validation
        else if x.cuts.any (fun c => decide (c ∈ x.adds)) then .error .validation
        else if k.wits.any (fun w => decide (w ∈ x.adds)) then .error .validation
        else .ok (some (ioPut ((oset k.wits).filter (fun w => !decide (w ∈ x.cuts))) x.adds))) = .ok (some ws) →
      WitnessList n p x ws := by
    intro hi h
    split at h
    · exact absurd h (by simp)
    · rename_i k hk
      repeat' (split at h; exact absurd h (by simp))
      simp at h; subst h; exact .rotates k hk hi
  split at h
  · rename_i hi; exact inc (.inl hi) h
  · rename_i hi; exact inc (.inr hi) h
  · rename_i hi; exact rot (.inl hi) h
  · rename_i hi; exact rot (.inr hi) h
  · exact cur h

/-- What a receipt input stores is in order; a group signature of a receipt message may be filed under another event. -/
theorem step_rel {env : Env} {U : Event → Prop} (hnc : NoColl U) (r : RNode) (hi : Inv U r.node) (i : RInp)
    (hd : ∀ e, i.delivers = some e → U e) (hk : ∀ j, i ≠ .kel j) :
    Rel env (GoodWig env r.node)
      (fun p d c => ∃ x, r.node.db.evts p d = some x ∧ x.said = d ∧
        env.verify c.key c.raw x = true ∧ (env.transferable c.key = false ∨ ∃ y ∈ r.store.ures, y.mat = c))
      (fun k s => ∃ x y, r.node.db.evts k.pre x.said = some x ∧ ByReceiptor env r.node k x s ∧ Accepted r.node.db k.pre y ∧
        y.said = k.dig ∧ (x = y ∨ ∃ l b t cs ws ts gs, i = .receipt l b t cs ws ts gs ∧ t.pre = k.pre ∧ t.said = x.said ∧
          (r.node.db.kels t.pre t.sn).getLast? = some k.dig))
      (UeR env) r (r.step env i) := by
  have weaken : ∀ {wg wg' : Id → Dig → Sig → Prop} {rc rc' : Id → Dig → Cigar → Prop} {vr vr' : VKey → Sig → Prop}
      {ue : Entry Cigar → Prop} {a b : RNode}, Rel env wg rc vr ue a b → (∀ p d s, wg p d s → wg' p d s) →
      (∀ p d c, rc p d c → rc' p d c) → (∀ k s, vr k s → vr' k s) → Rel env wg' rc' vr' ue a b := by
    intro wg wg' rc rc' vr vr' ue a b h h1 h2 h3
    obtain ⟨l, g1, g2⟩ := h.node
    refine ⟨⟨l, fun i hi => ?_, g2⟩, fun p d c hc => ?_, h.rkeep, fun k s hs => ?_, h.vkeep, h.ures⟩
    · obtain ⟨p, d, s, hw, e⟩ := g1 i hi; exact ⟨p, d, s, h1 _ _ _ hw, e⟩
    · rcases h.rcts p d c hc with hc | hc
      · exact .inl hc
      · exact .inr (h2 _ _ _ hc)
    · rcases h.vrcs k s hs with hs | hs
      · exact .inl hs
      · exact .inr (h3 _ _ hs)
  have wgE : ∀ (sn : Nat) (p : Id) (d : Dig) (s : Sig), WgE env r.node sn p d s → GoodWig env r.node p d s := by
    rintro sn p d s ⟨e, w, ws, h1, h2, h3, h4⟩
    refine ⟨e, ws, h1, ?_, w, h2, h3⟩
    rcases h4 with ⟨_, h4⟩ | ⟨_, k, hk, rfl⟩
    · exact pending_list (hi.evt _ _ _ h1).1 h4
    · exact .state k hk
  cases i with
  | kel j => exact absurd rfl (hk j)
  | receipt lax l x cs ws ts gs =>
    refine weaken (rel_receipt (env := env) lax l r x cs ws ts gs) ?_ ?_ ?_
    · rintro p d s ⟨rfl, rfl, e, w, wl, h1, h2, h3, h4, _⟩
      exact ⟨e, wl, h1, wits_list hi h2, w, h3, h4⟩
    · rintro p d c ⟨rfl, rfl, _, e, wl, h1, _, _, h4, h5, _⟩
      exact ⟨e, h1, (hi.evt _ _ _ h1).2.1, h4, .inl h5⟩
    · rintro k s ⟨h1, h2, _, e, h3, h4⟩
      obtain ⟨y, hy, hys, _⟩ := last_accepted hi h2
      have hu := hi.evt _ _ _ h3
      refine ⟨e, y, by rw [h1, hu.2.1]; exact h3, endorsed_by hi h4, by rw [h1]; exact hy, hys, .inr ⟨lax, l, x, cs, ws, ts, gs, rfl, h1.symm, hu.2.1.symm, h2⟩⟩
  | couples lax l e fn cs =>
    refine weaken (rel_couples (env := env) lax l r e fn cs (GoodWig env r.node) (fun _ _ => False)) (fun _ _ _ h => h) ?_ (fun _ _ h => h.elim)
    rintro p d c ⟨rfl, rfl, h1, h2, h3, _⟩
    obtain ⟨x, hx, hs⟩ := ldigOf_accepted hi h1
    have : x = e := hnc _ _ (hi.evt _ _ _ hx.2).2.2 (hd e rfl) hs
    subst this
    exact ⟨x, hx.2, rfl, h2, .inl h3⟩
  | groups lax l e fn gs =>
    refine weaken (rel_groups (env := env) lax l r e fn gs (GoodWig env r.node) (fun _ _ _ => False) (UeR env)) (fun _ _ _ h => h)
      (fun _ _ _ h => h.elim) ?_
    rintro k s ⟨h1, h2, h3, _, h5⟩
    obtain ⟨x, hx, hs⟩ := ldigOf_accepted hi h3
    have : x = e := hnc _ _ (hi.evt _ _ _ hx.2).2.2 (hd e rfl) (hs.trans h2)
    subst this
    exact ⟨x, x, by rw [h1]; exact hx.2, endorsed_by hi h5, by rw [h1]; exact hx, h2.symm, .inl rfl⟩
  | stepU b x =>
    unfold RNode.step
    dsimp only
    split
    · rename_i hx
      refine weaken (rel_stepU (env := env) b r hi.evt.ok x (fun _ _ => False) (UeR env)) ?_ ?_ (fun _ _ h => h.elim)
      · rintro p d s ⟨_, _, h⟩; exact wgE _ _ _ _ h
      · rintro p d c ⟨_, _, rfl, h1, e, k, h2, h3, _⟩
        exact ⟨e, h2, (hi.evt _ _ _ h2).2.1, h3, .inr ⟨x, hx, rfl⟩⟩
    · exact .rfl' _
  | stepW b x =>
    unfold RNode.step
    dsimp only
    split
    · refine weaken (rel_stepW (env := env) b r x (fun _ _ _ => False) (fun _ _ => False) (UeR env)) ?_ (fun _ _ _ h => h.elim) (fun _ _ h => h.elim)
      rintro p d s ⟨_, _, h⟩; exact wgE _ _ _ _ h
    · exact .rfl' _
  | stepV b x =>
    unfold RNode.step
    dsimp only
    split
    · refine weaken (rel_stepV (env := env) b r hi.evt.ok x (GoodWig env r.node) (fun _ _ _ => False) (UeR env)) (fun _ _ _ h => h) (fun _ _ _ h => h.elim) ?_
      rintro k s ⟨_, _, h1, e, h2, h3⟩
      obtain ⟨y, hy, hys, _⟩ := last_accepted hi h1
      have : y = e := by have := hy.2; rw [hys, h2] at this; injection this with this; exact this.symm
      subst this
      exact ⟨y, y, hy.2, endorsed_by hi h3, hy, hys, .inl rfl⟩
    · exact .rfl' _

/-- **Receipts and key event logs.** The key event side of a node that also handles receipts is in a state reached by a history of
key event inputs and arriving witness signatures: everything proved about such histories holds for it. -/
theorem c34_key_events {env : Env} {U : Event → Prop} (hnc : NoColl U) {r : RNode} (h : RReached env U r) : Reached env U r.node := by
  obtain ⟨p, g, m, h, hd, rfl⟩ := h
  have main : ∀ (h : List RInp) (r : RNode), Reached env U r.node → RDelivers U h → Reached env U (r.run env h).node := by
    intro h
    induction h with
    | nil => intro r hr _; exact hr
    | cons i h ih =>
      intro r hr hd
      refine ih _ ?_ (fun j hj => hd j (by simp [hj]))
      have hdi := hd i (by simp)
      by_cases hk : ∃ j, i = .kel j
      · obtain ⟨j, rfl⟩ := hk
        exact hr.run (h' := [j]) (fun x hx e he => by simp at hx; subst hx; exact hdi e he)
      · obtain ⟨l, h1, h2⟩ := (step_rel (env := env) hnc r (hr.inv hnc) i hdi (fun j hj => hk ⟨j, hj⟩)).node
        rw [h2]
        refine hr.run (fun x hx e he => ?_)
        obtain ⟨p, d, s, _, rfl⟩ := h1 x hx
        exact absurd he (by simp [Inp.delivers])
  exact main h (RNode.start p g m) ⟨p, g, m, [], by intro i hi; simp at hi, rfl⟩ hd

theorem RReached.step {env : Env} {U : Event → Prop} {r : RNode} (h : RReached env U r) {i : RInp}
    (hi : ∀ e, i.delivers = some e → U e) : RReached env U (r.step env i) := by
  obtain ⟨p, g, m, h, hd, rfl⟩ := h
  refine ⟨p, g, m, h ++ [i], ?_, by simp [RNode.run]⟩
  intro j hj e he
  simp at hj
  rcases hj with hj | rfl
  · exact hd j hj e he
  · exact hi e he

/-- Induction over histories. -/
theorem rreached_ind {env : Env} {U : Event → Prop} {P : RNode → Prop} (h0 : ∀ p g m, P (RNode.start p g m))
    (hs : ∀ r i, RReached env U r → P r → (∀ e, i.delivers = some e → U e) → P (r.step env i)) {r : RNode}
    (h : RReached env U r) : P r := by
  obtain ⟨p, g, m, h, hd, rfl⟩ := h
  have main : ∀ (h : List RInp) (r : RNode), RReached env U r → P r → RDelivers U h → P (r.run env h) := by
    intro h
    induction h with
    | nil => intro r _ hp _; exact hp
    | cons i h ih =>
      intro r hr hp hd
      exact ih _ (hr.step (hd i (by simp))) (hs r i hr hp (hd i (by simp))) (fun j hj => hd j (by simp [hj]))
  exact main h _ ⟨p, g, m, [], by intro i hi; simp at hi, rfl⟩ (h0 p g m) hd

/-- One step keeps stored event bodies and accepted events. -/
theorem step_keep {env : Env} {U : Event → Prop} (hnc : NoColl U) {r : RNode} (h : RReached env U r) {i : RInp}
    (hd : ∀ e, i.delivers = some e → U e) :
    (∀ p d x, r.node.db.evts p d = some x → (r.step env i).node.db.evts p d = some x) ∧
    (∀ p x, Accepted r.node.db p x → Accepted (r.step env i).node.db p x) := by
  have hr := c34_key_events hnc h
  have evts_steps : ∀ {a b : Node}, Steps env U a b → EvtU U a → ∀ p d x, a.db.evts p d = some x → b.db.evts p d = some x := by
    intro a b g hu
    induction g with
    | refl => exact fun _ _ _ h => h
    | tail hs g ih =>
      intro p d x hx
      have := ih p d x hx
      cases g with
      | core g => rw [g.evts]; exact this
      | event e ss ws c eager isLocal he =>
        rcases processEvent_cases env _ e ss ws c eager isLocal (hu.steps hs).ok with g | ⟨_, _, _, _, _, g, _⟩
        · exact g.db.mono _ _ _ this
        · exact g.db.mono _ _ _ this
  by_cases hk : ∃ j, i = .kel j
  · obtain ⟨j, rfl⟩ := hk
    have hst : Steps env U r.node (r.node.step env j) := step_steps env U r.node j hr.evtU hd
    exact ⟨evts_steps hst hr.evtU, fun p x hx => accepted_steps hr.evtU hst hx⟩
  · have hc := (step_rel (env := env) hnc r (hr.inv hnc) i hd (fun j hj => hk ⟨j, hj⟩)).core
    refine ⟨fun p d x hx => by rw [hc.evts]; exact hx, fun p x hx => ⟨by rw [hc.fels]; exact hx.1, by rw [hc.evts]; exact hx.2⟩⟩

/-- **C34, couples.** After any history of key events, escrow passes and receipts, every receipt couple stored for an event is by a
non-transferable key and verifies over exactly the event stored under that identifier and digest. -/
theorem c34_couples {env : Env} {U : Event → Prop} (hnc : NoColl U) {r : RNode} (h : RReached env U r) (p : Id) (d : Dig) (c : Cigar)
    (hc : c ∈ r.store.rcts p d) : GoodRct env r.node p d c := by
  have main : (∀ p d c, c ∈ r.store.rcts p d → GoodRct env r.node p d c) ∧ (∀ x ∈ r.store.ures, UeR env x) := by
    refine rreached_ind (env := env) (U := U) (P := fun r => (∀ p d c, c ∈ r.store.rcts p d → GoodRct env r.node p d c) ∧
      (∀ x ∈ r.store.ures, UeR env x)) ?_ ?_ h
    · intro p g m
      exact ⟨by intro p d c hc; simp [RNode.start] at hc, by intro x hx; simp [RNode.start] at hx⟩
    · intro r i hr ⟨hp, hu⟩ hd
      have hk := step_keep hnc hr hd
      have lift : ∀ p d c, GoodRct env r.node p d c → GoodRct env (r.step env i).node p d c := by
        rintro p d c ⟨x, h1, h2⟩
        exact ⟨x, hk.1 _ _ _ h1, h2⟩
      by_cases hkel : ∃ j, i = .kel j
      · obtain ⟨j, rfl⟩ := hkel
        exact ⟨fun p d c hc => lift p d c (hp p d c hc), hu⟩
      · have hrel := step_rel (env := env) hnc r ((c34_key_events hnc hr).inv hnc) i hd (fun j hj => hkel ⟨j, hj⟩)
        constructor
        · intro p d c hc
          rcases hrel.rcts p d c hc with hc | ⟨x, h1, h2, h3, h4⟩
          · exact lift p d c (hp p d c hc)
          · refine lift p d c ⟨x, h1, h2, h3, ?_⟩
            rcases h4 with h4 | ⟨y, hy, rfl⟩
            · exact h4
            · exact hu y hy
        · intro x hx
          rcases hrel.ures x hx with hx | hx
          · exact hu x hx
          · exact hx
  exact main.1 p d c hc

/-- **C34, witness signatures.** A witness signature that a receipt or an escrow pass over receipts adds to an event is by the witness
at its index in some witness list of the identifier, and verifies over exactly the event stored there. -/
theorem c34_witness_signatures {env : Env} {U : Event → Prop} (hnc : NoColl U) {r : RNode} (h : RReached env U r) (i : RInp)
    (hd : ∀ e, i.delivers = some e → U e) (hk : ∀ j, i ≠ .kel j) (p : Id) (d : Dig) (s : Sig)
    (hs : s ∈ (r.step env i).node.db.wigs p d) (hn : s ∉ r.node.db.wigs p d) : GoodWig env r.node p d s := by
  rcases (step_rel (env := env) hnc r ((c34_key_events hnc h).inv hnc) i hd hk).wigs p d s hs with h | h
  · exact absurd h hn
  · exact h

/-- **C34, signatures of transferable receiptors, every history.** Every stored group signature is by a key of an accepted
establishment event of its receiptor and verifies over some stored event of the receipted identifier. -/
theorem c34_groups_some {env : Env} {U : Event → Prop} (hnc : NoColl U) {r : RNode} (h : RReached env U r) (k : VKey) (s : Sig)
    (hs : s ∈ r.store.vrcs k) : ∃ x y, r.node.db.evts k.pre x.said = some x ∧ ByReceiptor env r.node k x s ∧
      Accepted r.node.db k.pre y ∧ y.said = k.dig := by
  refine rreached_ind (env := env) (U := U) (P := fun r => ∀ k s, s ∈ r.store.vrcs k → ∃ x y, r.node.db.evts k.pre x.said = some x ∧
    ByReceiptor env r.node k x s ∧ Accepted r.node.db k.pre y ∧ y.said = k.dig) ?_ ?_ h k s hs
  · intro p g m k s hs; simp [RNode.start] at hs
  · intro r i hr hp hd k s hs
    have hk := step_keep hnc hr hd
    have lift : (∃ x y, r.node.db.evts k.pre x.said = some x ∧ ByReceiptor env r.node k x s ∧
        Accepted r.node.db k.pre y ∧ y.said = k.dig) → ∃ x y, (r.step env i).node.db.evts k.pre x.said = some x ∧
        ByReceiptor env (r.step env i).node k x s ∧ Accepted (r.step env i).node.db k.pre y ∧ y.said = k.dig := by
      rintro ⟨x, y, h1, ⟨a, ha, hb⟩, h3, h4⟩
      exact ⟨x, y, hk.1 _ _ _ h1, ⟨a, hk.2 _ _ ha, hb⟩, hk.2 _ _ h3, h4⟩
    by_cases hkel : ∃ j, i = .kel j
    · obtain ⟨j, rfl⟩ := hkel
      exact lift (hp k s hs)
    · have hrel := step_rel (env := env) hnc r ((c34_key_events hnc hr).inv hnc) i hd (fun j hj => hkel ⟨j, hj⟩)
      rcases hrel.vrcs k s hs with hs | ⟨x, y, h1, h2, h3, h4, _⟩
      · exact lift (hp k s hs)
      · exact lift ⟨x, y, h1, h2, h3, h4⟩

/-- Every receipt message of the history names, when it arrives, the last event logged at its number (or no event is logged there
yet). -/
def Current (env : Env) : RNode → List RInp → Prop
  | _, [] => True
  | r, i :: h => (∀ lax l x cs ws ts gs, i = .receipt lax l x cs ws ts gs →
      ∀ d, (r.node.db.kels x.pre x.sn).getLast? = some d → d = x.said) ∧ Current env (r.step env i) h

/-- **C34, signatures of transferable receiptors, receipts of last events.** When receipt messages name the last event at their number,
every stored group signature verifies over exactly the event it is stored for, which is an accepted one, by a key of an accepted
establishment event of its receiptor. Missing: receipts naming another stored event of the identifier (`c34_misfiled`). -/
theorem c34_groups_partial {env : Env} {U : Event → Prop} (hnc : NoColl U) (ps gs : List Id) (m : Id → Option Id) (h : List RInp)
    (hd : RDelivers U h) (hcur : Current env (RNode.start ps gs m) h) (k : VKey) (s : Sig)
    (hs : s ∈ ((RNode.start ps gs m).run env h).store.vrcs k) :
    ∃ x, Accepted ((RNode.start ps gs m).run env h).node.db k.pre x ∧ x.said = k.dig ∧
      ByReceiptor env ((RNode.start ps gs m).run env h).node k x s := by
  let Q : RNode → Prop := fun r => ∀ k s, s ∈ r.store.vrcs k → ∃ x, Accepted r.node.db k.pre x ∧ x.said = k.dig ∧ ByReceiptor env r.node k x s
  have main : ∀ (h : List RInp) (r : RNode), RReached env U r → Q r → RDelivers U h → Current env r h → Q (r.run env h) := by
    intro h
    induction h with
    | nil => intro r _ hp _ _; exact hp
    | cons i h ih =>
      intro r hr hp hd hc
      refine ih _ (hr.step (hd i (by simp))) ?_ (fun j hj => hd j (by simp [hj])) hc.2
      intro k s hs
      have hdi := hd i (by simp)
      have hk := step_keep hnc hr hdi
      have lift : (∃ x, Accepted r.node.db k.pre x ∧ x.said = k.dig ∧ ByReceiptor env r.node k x s) →
          ∃ x, Accepted (r.step env i).node.db k.pre x ∧ x.said = k.dig ∧ ByReceiptor env (r.step env i).node k x s := by
        rintro ⟨x, h1, h2, a, ha, hb⟩
        exact ⟨x, hk.2 _ _ h1, h2, a, hk.2 _ _ ha, hb⟩
      by_cases hkel : ∃ j, i = .kel j
      · obtain ⟨j, rfl⟩ := hkel
        exact lift (hp k s hs)
      · have hi := (c34_key_events hnc hr).inv hnc
        have hrel := step_rel (env := env) hnc r hi i hdi (fun j hj => hkel ⟨j, hj⟩)
        rcases hrel.vrcs k s hs with hs | ⟨x, y, h1, h2, h3, h4, h5⟩
        · exact lift (hp k s hs)
        · refine lift ?_
          have : x = y := by
            rcases h5 with h5 | ⟨l, b, t, cs, ws, ts, gs, e, hp, ht, hl⟩
            · exact h5
            · have := hc.1 _ _ _ _ _ _ _ e _ hl
              exact hnc _ _ (hi.evt _ _ _ h1).2.2 (hi.evt _ _ _ h3.2).2.2 (by rw [h4, this, ht])
          subst this
          exact ⟨x, h3, h4, h2⟩
  exact main h _ ⟨ps, gs, m, [], by intro i hi; simp at hi, rfl⟩ (by intro k s hs; simp [RNode.start, RNode.run] at hs) hd hcur k s hs

/-- **C34, last events only.** What an escrow pass, an attachment to an event without first-seen ordinal, or a receipt message naming the
last event at its number adds, is for the last event logged at some number. Missing: receipt messages naming another event, of which
the witness signatures and couples are stored for that event (`c34_superseded`), attachments in replays by first-seen ordinal (where
superseded events are expected) and witness signatures of events still waiting for them. -/
theorem c34_last_partial {env : Env} {U : Event → Prop} (hnc : NoColl U) {r : RNode} (h : RReached env U r) (i : RInp)
    (hd : ∀ e, i.delivers = some e → U e) (hk : ∀ j, i ≠ .kel j) (hcur : Current env r [i])
    (hfn : ∀ lax l e fn cs, i = .couples lax l e fn cs → fn = none) (hfn' : ∀ lax l e fn gs, i = .groups lax l e fn gs → fn = none) :
    (∀ p d c, c ∈ (r.step env i).store.rcts p d → c ∉ r.store.rcts p d → ∃ sn, (r.node.db.kels p sn).getLast? = some d) ∧
    (∀ k s, s ∈ (r.step env i).store.vrcs k → s ∉ r.store.vrcs k → ∃ sn, (r.node.db.kels k.pre sn).getLast? = some k.dig) := by
  have hok := (c34_key_events hnc h).evtU.ok
  have triv : ∀ {r' : RNode} {wg : Id → Dig → Sig → Prop} {rc : Id → Dig → Cigar → Prop} {vr : VKey → Sig → Prop}
      {ue : Entry Cigar → Prop}, Rel env wg rc vr ue r r' → (∀ p d c, rc p d c → ∃ sn, (r.node.db.kels p sn).getLast? = some d) →
      (∀ k s, vr k s → ∃ sn, (r.node.db.kels k.pre sn).getLast? = some k.dig) →
      (∀ p d c, c ∈ r'.store.rcts p d → c ∉ r.store.rcts p d → ∃ sn, (r.node.db.kels p sn).getLast? = some d) ∧
      (∀ k s, s ∈ r'.store.vrcs k → s ∉ r.store.vrcs k → ∃ sn, (r.node.db.kels k.pre sn).getLast? = some k.dig) := by
    intro r' wg rc vr ue hr h1 h2
    exact ⟨fun p d c hc hn => (hr.rcts p d c hc).elim (fun h => absurd h hn) (h1 p d c),
      fun k s hs hn => (hr.vrcs k s hs).elim (fun h => absurd h hn) (h2 k s)⟩
  cases i with
  | kel j => exact absurd rfl (hk j)
  | receipt lax l x cs ws ts gs =>
    refine triv (rel_receipt (env := env) lax l r x cs ws ts gs) ?_ ?_
    · rintro p d c ⟨rfl, rfl, ⟨ldig, hl⟩, _⟩
      exact ⟨x.sn, by rw [hl, hcur.1 _ _ _ _ _ _ _ rfl _ hl]⟩
    · rintro k s ⟨h1, h2, _⟩
      exact ⟨x.sn, by rw [h1]; exact h2⟩
  | couples lax l e fn cs =>
    have := hfn _ _ _ _ _ rfl
    subst this
    refine triv (rel_couples (env := env) lax l r e none cs (fun _ _ _ => False) (fun _ _ => False)) ?_ (fun _ _ h => h.elim)
    rintro p d c ⟨rfl, rfl, h1, _⟩
    exact ⟨e.sn, h1⟩
  | groups lax l e fn gs =>
    have := hfn' _ _ _ _ _ rfl
    subst this
    refine triv (rel_groups (env := env) lax l r e none gs (fun _ _ _ => False) (fun _ _ _ => False) (UeR env)) (fun _ _ _ h => h.elim) ?_
    rintro k s ⟨h1, h2, h3, _⟩
    exact ⟨e.sn, by rw [h1]; exact h3⟩
  | stepU b x =>
    unfold RNode.step
    dsimp only
    split
    · refine triv (rel_stepU (env := env) b r hok x (fun _ _ => False) (UeR env)) ?_ (fun _ _ h => h.elim)
      rintro p d c ⟨_, _, _, h1, _⟩
      exact ⟨_, h1⟩
    · exact triv (wg := fun _ _ _ => False) (rc := fun _ _ _ => False) (vr := fun _ _ => False) (ue := fun _ => False) (.rfl' _)
        (fun _ _ _ h => h.elim) (fun _ _ h => h.elim)
  | stepW b x =>
    unfold RNode.step
    dsimp only
    split
    · exact triv (rel_stepW (env := env) b r x (fun _ _ _ => False) (fun _ _ => False) (UeR env)) (fun _ _ _ h => h.elim) (fun _ _ h => h.elim)
    · exact triv (wg := fun _ _ _ => False) (rc := fun _ _ _ => False) (vr := fun _ _ => False) (ue := fun _ => False) (.rfl' _)
        (fun _ _ _ h => h.elim) (fun _ _ h => h.elim)
  | stepV b x =>
    unfold RNode.step
    dsimp only
    split
    · refine triv (rel_stepV (env := env) b r hok x (fun _ _ _ => False) (fun _ _ _ => False) (UeR env)) (fun _ _ _ h => h.elim) ?_
      rintro k s ⟨_, _, h1, _⟩
      exact ⟨_, h1⟩
    · exact triv (wg := fun _ _ _ => False) (rc := fun _ _ _ => False) (vr := fun _ _ => False) (ue := fun _ => False) (.rfl' _)
        (fun _ _ _ h => h.elim) (fun _ _ h => h.elim)

/-- **C34, nothing is lost.** No input removes a stored receipt. -/
theorem c34_kept {env : Env} {U : Event → Prop} (hnc : NoColl U) {r : RNode} (h : RReached env U r) (i : RInp)
    (hd : ∀ e, i.delivers = some e → U e) :
    (∀ p d c, c ∈ r.store.rcts p d → c ∈ (r.step env i).store.rcts p d) ∧
    (∀ k s, s ∈ r.store.vrcs k → s ∈ (r.step env i).store.vrcs k) := by
  by_cases hkel : ∃ j, i = .kel j
  · obtain ⟨j, rfl⟩ := hkel
    exact ⟨fun _ _ _ h => h, fun _ _ h => h⟩
  · have hrel := step_rel (env := env) hnc r ((c34_key_events hnc h).inv hnc) i hd (fun j hj => hkel ⟨j, hj⟩)
    exact ⟨hrel.rkeep, hrel.vkeep⟩

end Verif.Rct
