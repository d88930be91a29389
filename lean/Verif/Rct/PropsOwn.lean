import Verif.Rct.PropsRct

/-! # Properties C53 (own receipts) and C54 (receipts that arrive early) -/

namespace Verif.Rct

open Verif.Kel

/-- The input as it arrives: how the receipts are delivered, lax mode, locality of the source. -/
inductive Arrives : RInp → Bool → Bool → Prop
  | receipt (lax l : Bool) (x : Rct) (cs : List Cigar) (ws : List Sig) (ts gs : List Group) :
      Arrives (.receipt lax l x cs ws ts gs) lax l
  | couples (lax l : Bool) (e : Event) (fn : Option Nat) (cs : List Cigar) : Arrives (.couples lax l e fn cs) lax l
  | groups (lax l : Bool) (e : Event) (fn : Option Nat) (gs : List Group) : Arrives (.groups lax l e fn gs) lax l

theorem ownBad_false {lax l : Bool} {n : Node} {a b : Id} (hl : lax = false) (h : ownBad lax l n a b = false) (ha : a ∈ n.prefixes) :
    b ∉ n.prefixes ∧ l = true := by
  subst hl
  simp [ownBad, ha] at h
  exact h

/-- **C53, receipts as they arrive.** When a receipt message or attachment is processed by a node not in lax mode, whatever it stores in
the name of an own identifier comes from a local source and is for an event of somebody else. Missing: receipts that wait in escrow,
for which the test is not made (`c53_through_escrow`). -/
theorem c53_own_receipts_partial {env : Env} {r : RNode} (i : RInp) (l : Bool) (ha : Arrives i false l) :
    (∀ p d c, c ∈ (r.step env i).store.rcts p d → c ∉ r.store.rcts p d → c.key ∈ r.node.prefixes → p ∉ r.node.prefixes ∧ l = true) ∧
    (∀ k s, s ∈ (r.step env i).store.vrcs k → s ∉ r.store.vrcs k → k.rpre ∈ r.node.prefixes → k.pre ∉ r.node.prefixes ∧ l = true) ∧
    (∀ p d s, s ∈ (r.step env i).node.db.wigs p d → s ∉ r.node.db.wigs p d → ∃ e w, r.node.db.evts p d = some e ∧
      env.verify w s.raw e = true ∧ (w ∈ r.node.prefixes → p ∉ r.node.prefixes ∧ l = true)) := by
  generalize hlax : false = lax at ha
  have hlax := hlax.symm
  cases ha with
  | receipt _ _ x cs ws ts gs =>
    have h := rel_receipt (env := env) lax l r x cs ws ts gs
    refine ⟨fun p d c hc hn ho => ?_, fun k s hs hn ho => ?_, fun p d s hs hn => ?_⟩
    · rcases h.rcts p d c hc with h | ⟨rfl, rfl, _, _, _, _, _, _, _, _, h⟩
      · exact absurd h hn
      · exact ownBad_false hlax h ho
    · rcases h.vrcs k s hs with h | ⟨h1, _, h, _⟩
      · exact absurd h hn
      · rw [h1]; exact ownBad_false hlax h ho
    · rcases h.wigs p d s hs with h | ⟨rfl, rfl, e, w, _, he, _, _, hv, _, h⟩
      · exact absurd h hn
      · exact ⟨e, w, he, hv, fun ho => ownBad_false hlax h ho⟩
  | couples _ _ e fn cs =>
    have h := rel_couples (env := env) lax l r e fn cs (fun _ _ _ => False) (fun _ _ => False)
    refine ⟨fun p d c hc hn ho => ?_, fun k s hs hn ho => ?_, fun p d s hs hn => ?_⟩
    · rcases h.rcts p d c hc with h | ⟨rfl, rfl, _, _, _, h⟩
      · exact absurd h hn
      · exact ownBad_false hlax h ho
    · exact (h.vrcs k s hs).elim (fun h => absurd h hn) False.elim
    · exact (h.wigs p d s hs).elim (fun h => absurd h hn) False.elim
  | groups _ _ e fn gs =>
    have h := rel_groups (env := env) lax l r e fn gs (fun _ _ _ => False) (fun _ _ _ => False) (fun _ => True)
    refine ⟨fun p d c hc hn ho => ?_, fun k s hs hn ho => ?_, fun p d s hs hn => ?_⟩
    · exact (h.rcts p d c hc).elim (fun h => absurd h hn) False.elim
    · rcases h.vrcs k s hs with h | ⟨h1, _, _, h, _⟩
      · exact absurd h hn
      · rw [h1]; exact ownBad_false hlax h ho
    · exact (h.wigs p d s hs).elim (fun h => absurd h hn) False.elim

/-! ## Early receipts -/

theorem mem_ioAdd_self {α : Type} [DecidableEq α] (l : List α) (v : α) : v ∈ ioAdd l v := (mem_ioAdd l v v).2 (.inr rfl)

/-- **C54, early receipts wait.** A receipt message for a number at which no event is logged yet is answered with an error that says so;
its couples by non-transferable keys, its witness signatures and its group signatures are entered in escrow, and what waited there before
stays. -/
theorem c54_waits {env : Env} (r : RNode) (lax l : Bool) (x : Rct) (cs : List Cigar) (ws : List Sig) (ts gs : List Group)
    (h : r.node.db.kels x.pre x.sn = []) :
    (r.receipt env lax l x cs ws ts gs).2 = .error .unverifiedReceipt ∧
    (∀ c ∈ cs, env.transferable c.key = false → ⟨x.pre, x.sn, x.said, c⟩ ∈ (r.receipt env lax l x cs ws ts gs).1.store.ures) ∧
    (∀ s ∈ ws, ⟨x.pre, x.sn, x.said, s⟩ ∈ (r.receipt env lax l x cs ws ts gs).1.store.uwes) ∧
    (∀ g ∈ ts, ∀ s ∈ g.sigs, ⟨x.pre, x.sn, x.said, ⟨g.pre, g.sn, g.said, s⟩⟩ ∈ (r.receipt env lax l x cs ws ts gs).1.store.vres) ∧
    (∀ y ∈ r.store.ures, y ∈ (r.receipt env lax l x cs ws ts gs).1.store.ures) ∧
    (∀ y ∈ r.store.uwes, y ∈ (r.receipt env lax l x cs ws ts gs).1.store.uwes) ∧
    (∀ y ∈ r.store.vres, y ∈ (r.receipt env lax l x cs ws ts gs).1.store.vres) := by
  have e : r.receipt env lax l x cs ws ts gs = ((((r.escrowU env x cs).escrowTs x ts).escrowUW x ws), .error .unverifiedReceipt) := by
    unfold RNode.receipt; rw [h]; rfl
  have hts : ∀ (ts : List Group) (r : RNode), (r.escrowTs x ts).store.ures = r.store.ures ∧ (r.escrowTs x ts).store.uwes = r.store.uwes ∧
      (∀ y ∈ r.store.vres, y ∈ (r.escrowTs x ts).store.vres) ∧
      (∀ g ∈ ts, ∀ s ∈ g.sigs, ⟨x.pre, x.sn, x.said, ⟨g.pre, g.sn, g.said, s⟩⟩ ∈ (r.escrowTs x ts).store.vres) := by
    intro ts
    induction ts with
    | nil => intro r; exact ⟨rfl, rfl, fun _ h => h, by simp⟩
    | cons g ts ih =>
      intro r
      obtain ⟨h1, h2, h3, h4⟩ := ih (r.escrowT x g)
      have e : r.escrowTs x (g :: ts) = (r.escrowT x g).escrowTs x ts := rfl
      rw [e]
      refine ⟨h1, h2, fun y hy => h3 y ?_, ?_⟩
      · exact (mem_entAdds (fun s => (⟨x.pre, x.sn, x.said, ⟨g.pre, g.sn, g.said, s⟩⟩ : Entry Chit)) _ _ _).2 (.inl hy)
      · intro g' hg s hs
        rcases List.mem_cons.1 hg with rfl | hg
        · exact h3 _ ((mem_entAdds (fun s => (⟨x.pre, x.sn, x.said, ⟨g'.pre, g'.sn, g'.said, s⟩⟩ : Entry Chit)) _ _ _).2 (.inr ⟨s, hs, rfl⟩))
        · exact h4 g' hg s hs
  obtain ⟨h1, h2, h3, h4⟩ := hts ts (r.escrowU env x cs)
  rw [e]
  refine ⟨rfl, ?_, ?_, ?_, ?_, ?_, ?_⟩
  · intro c hc ht
    show _ ∈ ((r.escrowU env x cs).escrowTs x ts).store.ures
    rw [h1]
    exact (mem_entAdds (fun c => (⟨x.pre, x.sn, x.said, c⟩ : Entry Cigar)) _ _ _).2 (.inr ⟨c, by simp [hc, ht], rfl⟩)
  · intro s hs
    exact (mem_entAdds (fun s => (⟨x.pre, x.sn, x.said, s⟩ : Entry Sig)) _ _ _).2 (.inr ⟨s, hs, rfl⟩)
  · exact h4
  · intro y hy
    show _ ∈ ((r.escrowU env x cs).escrowTs x ts).store.ures
    rw [h1]
    exact (mem_entAdds (fun c => (⟨x.pre, x.sn, x.said, c⟩ : Entry Cigar)) _ _ _).2 (.inl hy)
  · intro y hy
    refine (mem_entAdds (fun s => (⟨x.pre, x.sn, x.said, s⟩ : Entry Sig)) _ _ _).2 (.inl ?_)
    rw [h2]; exact hy
  · exact h3

/-- **C54, couples.** Once the receipted event is the last one logged at its number (and no longer waits for witness signatures) the next
pass takes the couple out of escrow and stores it: as a signature of that witness when the key is a current witness of the identifier,
else as a receipt couple. -/
theorem c54_couple_stored {env : Env} (r : RNode) (x : Entry Cigar) (hx : x ∈ r.store.ures) (e : Event) (k : Kever)
    (hp : (x.pre, x.sn, x.said) ∉ r.node.db.pwes) (hl : (r.node.db.kels x.pre x.sn).getLast? = some x.said)
    (he : r.node.db.evts x.pre x.said = some e) (hpre : e.pre = x.pre) (hsaid : e.said = x.said)
    (hk : r.node.kevers x.pre = some k) (hw : k.wits.length ≤ 64) (hv : env.verify x.mat.key x.mat.raw e = true) :
    x ∉ (r.step env (.stepU false x)).store.ures ∧
    ((x.mat.key ∉ k.wits ∧ x.mat ∈ (r.step env (.stepU false x)).store.rcts x.pre x.said) ∨
     (∃ s ∈ (r.step env (.stepU false x)).node.db.wigs x.pre x.said, s.raw = x.mat.raw ∧ k.wits[s.index]? = some x.mat.key)) := by
  have hf : findUnver env r.node x.pre x.sn x.said (.inl x.mat) = .ok none := by unfold findUnver; rw [if_neg hp]
  have hs : r.step env (.stepU false x) = r.stepU env false x := by unfold RNode.step; simp only; rw [if_pos hx]
  rw [hs]
  have rem : ∀ r' : RNode, x ∉ (r'.remU x).store.ures := fun r' h => ((mem_entRem _ _ _).1 h).2 rfl
  by_cases hm : x.mat.key ∈ k.wits
  · have hidx : k.wits.idxOf x.mat.key < 64 := Nat.lt_of_lt_of_le (List.idxOf_lt_length_of_mem hm) hw
    have ha : actU env r.node false x = .wig ⟨0, k.wits.idxOf x.mat.key, some (k.wits.idxOf x.mat.key), x.mat.raw⟩ := by
      unfold actU
      simp [hf, hl, he, hsaid, hpre, hk, hv, hm, mkWig, hidx]
    unfold RNode.stepU
    rw [ha]
    refine ⟨rem _, .inr ⟨⟨0, k.wits.idxOf x.mat.key, some (k.wits.idxOf x.mat.key), x.mat.raw⟩, ?_, rfl, getElem_idxOf hm⟩⟩
    show _ ∈ upd2 r.node.db.wigs x.pre x.said _ x.pre x.said
    simp only [upd2, and_self, if_true]
    exact mem_ioAdd_self _ _
  · have ha : actU env r.node false x = .rct := by
      unfold actU
      simp [hf, hl, he, hsaid, hpre, hk, hv, hm]
    unfold RNode.stepU
    rw [ha]
    refine ⟨rem _, .inl ⟨hm, ?_⟩⟩
    show _ ∈ upd2 r.store.rcts x.pre x.said _ x.pre x.said
    simp only [upd2, and_self, if_true]
    exact mem_ioAdd_self _ _

/-- **C54, transferable receiptors.** Once the receipted event and the establishment event of the receiptor are the last ones logged at their
numbers the next pass takes the signature out of escrow and stores it for that event. -/
theorem c54_group_stored {env : Env} (r : RNode) (x : Entry Chit) (hx : x ∈ r.store.vres) (e a : Event) (v : Id)
    (hl : (r.node.db.kels x.pre x.sn).getLast? = some x.said) (he : r.node.db.evts x.pre x.said = some e) (hsaid : e.said = x.said)
    (hr : (r.node.db.kels x.mat.rpre x.mat.rsn).getLast? = some x.mat.rdig) (ha : r.node.db.evts x.mat.rpre x.mat.rdig = some a)
    (hasaid : a.said = x.mat.rdig) (hest : a.ilk.est = true) (hkey : a.keys[x.mat.sig.index]? = some v)
    (hv : env.verify v x.mat.sig.raw e = true) :
    x ∉ (r.step env (.stepV false x)).store.vres ∧
    x.mat.sig ∈ (r.step env (.stepV false x)).store.vrcs ⟨x.pre, x.said, x.mat.rpre, x.mat.rsn, x.mat.rdig⟩ := by
  have hs : r.step env (.stepV false x) = r.stepV env false x := by unfold RNode.step; simp only; rw [if_pos hx]
  rw [hs]
  have hact : actV env r.node false x = .vrc := by
    unfold actV
    simp [hl, he, hsaid, hr, ha, hasaid, verfers, hest, hkey, hv]
  unfold RNode.stepV
  rw [hact]
  refine ⟨fun h => ((mem_entRem _ _ _).1 h).2 rfl, ?_⟩
  show _ ∈ upd r.store.vrcs _ _ _
  simp only [upd, if_true]
  exact mem_ioAdd_self _ _

/-- **C54, nothing good is dropped.** As long as an entry has not timed out and no event is logged at its number (nor waits there for witness
signatures), or for a group no event at the number of the receiptor's establishment event, a pass leaves it in escrow. -/
theorem c54_patient {env : Env} (r : RNode) (x : Entry Cigar) (y : Entry Sig) (z : Entry Chit)
    (hx : r.node.db.kels x.pre x.sn = []) (hxp : (x.pre, x.sn, x.said) ∉ r.node.db.pwes) (hyp : (y.pre, y.sn, y.said) ∉ r.node.db.pwes)
    (hz : r.node.db.kels z.pre z.sn = [] ∨
      ((r.node.db.kels z.pre z.sn).getLast? = some z.said ∧ (∃ e, r.node.db.evts z.pre z.said = some e ∧ e.said = z.said) ∧
       r.node.db.kels z.mat.rpre z.mat.rsn = [])) :
    r.step env (.stepU false x) = r ∧ r.step env (.stepW false y) = r ∧ r.step env (.stepV false z) = r := by
  refine ⟨?_, ?_, ?_⟩
  · have : actU env r.node false x = .keep := by unfold actU findUnver; simp [hx, hxp]
    simp [RNode.step, RNode.stepU, this]
  · have : actW env r.node false y = .keep := by unfold actW findUnver; simp [hyp]
    simp [RNode.step, RNode.stepW, this]
  · have : actV env r.node false z = .keep := by
      rcases hz with hz | ⟨h1, ⟨e, h2, h3⟩, h4⟩
      · unfold actV; simp [hz]
      · unfold actV; simp [h1, h2, h3, h4]
    simp [RNode.step, RNode.stepV, this]

/-- **C54, indexed witness signatures, pending events.** A witness signature waiting for an event that itself waits for witness signatures is
stored by the next pass when it is by the witness at its index. Missing: events that are accepted at once, see
`c54_witness_never_stored`. -/
theorem c54_witness_stored_partial {env : Env} (r : RNode) (x : Entry Sig) (hx : x ∈ r.store.uwes) (e : Event)
    (hp : (x.pre, x.sn, x.said) ∈ r.node.db.pwes) (he : r.node.db.evts x.pre x.said = some e) (hi : e.ilk = .icp ∨ e.ilk = .dip)
    (hn : (oset e.wits).length = e.wits.length) (w : Id) (hw : e.wits[x.mat.index]? = some w) (hok : env.okKey w = true)
    (hv : env.verify w x.mat.raw e = true) :
    x ∉ (r.step env (.stepW false x)).store.uwes ∧ x.mat ∈ (r.step env (.stepW false x)).node.db.wigs x.pre x.said := by
  have hs : r.step env (.stepW false x) = r.stepW env false x := by unfold RNode.step; simp only; rw [if_pos hx]
  rw [hs]
  have hpw : pendingWits r.node e = .ok (some e.wits) := by
    unfold pendingWits
    rcases hi with hi | hi <;> simp [hi, hn]
  have hact : actW env r.node false x = .wig x.mat := by
    unfold actW findUnver
    simp [hp, he, hpw, hw, hok, hv]
  unfold RNode.stepW
  rw [hact]
  refine ⟨fun h => ((mem_entRem _ _ _).1 h).2 rfl, ?_⟩
  show _ ∈ upd2 r.node.db.wigs x.pre x.said _ x.pre x.said
  simp only [upd2, and_self, if_true]
  exact mem_ioAdd_self _ _

/-- **C54, indexed witness signatures, accepted events.** A waiting indexed witness signature of an event that does not wait for witness
signatures, in particular of one accepted at once, is never stored by a pass: it stays until it times out. -/
theorem c54_witness_never_stored {env : Env} (r : RNode) (x : Entry Sig) (hp : (x.pre, x.sn, x.said) ∉ r.node.db.pwes) (b : Bool) :
    (r.step env (.stepW b x)).node = r.node := by
  unfold RNode.step RNode.stepW actW findUnver
  simp only [hp, if_false]
  split
  · split
    · rfl
    · rename_i h; split at h <;> simp at h
    · rfl
  · rfl

end Verif.Rct
