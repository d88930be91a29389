import Verif.Kel.SigStore

/-! # Property C33: stored signatures -/

namespace Verif.Kel

open Verif.Thold (Thold)

theorem accepted_micro {env : Env} {U : Event → Prop} {a b : Node} (hu : EvtU U a) (g : Micro env U a b) {p : Id} {y : Event}
    (hy : Accepted a.db p y) : Accepted b.db p y := by
  cases g with
  | core g => exact ⟨by rw [g.fels]; exact hy.1, by rw [g.evts]; exact hy.2⟩
  | event e ss ws c eager isLocal he =>
    rcases processEvent_cases env a e ss ws c eager isLocal hu.ok with g | ⟨_, k1, v, w, hk1, g, ha⟩
    · exact ⟨by rw [g.db.fels]; exact hy.1, g.db.mono _ _ _ hy.2⟩
    · refine ⟨?_, g.db.mono _ _ _ hy.2⟩
      rw [g.db.fels]; unfold upd; split
      · rename_i hp; subst hp; exact List.mem_append_left _ hy.1
      · exact hy.1

theorem accepted_steps {env : Env} {U : Event → Prop} {a b : Node} (hu : EvtU U a) (g : Steps env U a b) {p : Id} {y : Event}
    (hy : Accepted a.db p y) : Accepted b.db p y := by
  induction g with
  | refl => exact hy
  | tail hs g ih => exact accepted_micro (hu.steps hs) g ih

/-- No delivery of an event in the history ends with OutOfOrderError, or with the AttributeError by which the attempt to escrow
a likely duplicitous event ends. -/
def Quiet (env : Env) : Node → List Inp → Prop
  | _, [] => True
  | n, i :: h => (∀ e ss ws c eager isLocal, i = .event e ss ws c eager isLocal →
      (n.processEvent env e ss ws c eager isLocal).2 ≠ .error .outOfOrder ∧
      (n.processEvent env e ss ws c eager isLocal).2 ≠ .error .attribute) ∧ Quiet env (n.step env i) h

/-- Every stored signature verifies under authoritative keys. -/
def GoodSigs (env : Env) (U : Event → Prop) (n : Node) : Prop :=
  ∀ p d s, s ∈ n.db.sigs p d → ∃ x, U x ∧ x.said = d ∧ ∃ a, Authority n.db p x a ∧ SignedBy env a.keys x s

theorem escStep_sigs {env : Env} {U : Event → Prop} (hnc : NoColl U) {n : Node} (hi : Inv U n) (hK : KeyInv n) (hL : LiveAll n)
    (kind : Esc) (stale : Dig → Bool) (x : Id × Nat × Dig) (p : Id) (d : Dig) (s : Sig)
    (hs : s ∈ (n.escStep env kind stale x).db.sigs p d) : s ∈ n.db.sigs p d := by
  obtain ⟨pre, sn, d'⟩ := x
  have hd : ∀ (m : Node) (ok : Bool),
      (Esc.cleanUde (m.db.remEntry (pre, sn, d') kind) pre d' ok kind).sigs = m.db.sigs :=
    fun m ok => (coreEq_rem m (pre, sn, d') kind pre d' ok).sigs
  unfold Node.escStep at hs
  simp only at hs
  split at hs
  · rw [hd n false] at hs; exact hs
  · split at hs
    · rw [hd n false] at hs; exact hs
    · split at hs
      · rw [hd n false] at hs; exact hs
      · rename_i isLocal _ _ _ e he
        split at hs
        · rw [hd n false] at hs; exact hs
        · split at hs
          · exact hs
          · have hu := hi.evt _ _ _ he
            obtain ⟨l, h1, h2, _⟩ := sn_process (env := env) hnc hi hK hL e hu.2.2 (n.db.sigs pre d') (n.db.wigs pre d')
              (Esc.couple n.db pre d' kind).1 (Esc.couple n.db pre d' kind).2 isLocal
            have key : ∀ s, s ∈ (n.processEvent env e (n.db.sigs pre d') (n.db.wigs pre d')
              (Esc.couple n.db pre d' kind).1 (Esc.couple n.db pre d' kind).2 isLocal).1.db.sigs p d → s ∈ n.db.sigs p d := by
              intro s hs
              rcases h1.new p d s hs with h | ⟨rfl, rfl, h⟩
              · exact h
              · rw [hu.1, hu.2.1]; exact h2 s h
            split at hs
            · rename_i n' h
              rw [hd n' true] at hs
              rw [h] at key; exact key s hs
            · rename_i n' y h
              rw [h] at key
              split at hs
              · exact key s hs
              · rw [hd n' false] at hs; exact key s hs

/-- **C33, histories without out-of-order and duplicitous deliveries and without delegated rotations.** Every signature stored
for an accepted event verifies under the key at its position in the establishment event authoritative for that event. Missing:
signatures delivered with an out-of-order or likely duplicitous event, which are stored unchecked (`c33_unverified_kept`). -/
theorem c33_stored_verify_partial {env : Env} {U : Event → Prop} (hnc : NoColl U) (hnd : NoDrt U) (ps gs : List Id)
    (mid : Id → Option Id) (h : List Inp) (hd : Delivers U h) (hq : Quiet env (Node.start ps gs mid) h) (p : Id) (x : Event)
    (hx : Accepted ((Node.start ps gs mid).run env h).db p x) (s : Sig)
    (hs : s ∈ ((Node.start ps gs mid).run env h).db.sigs p x.said) :
    ∃ a, Authority ((Node.start ps gs mid).run env h).db p x a ∧ SignedBy env a.keys x s := by
  have lift : ∀ {n n' : Node}, Steps env U n n' → EvtU U n → ∀ {p x a}, Authority n.db p x a → Authority n'.db p x a :=
    fun g hu _ _ _ ha => ha.mono (fun y hy => accepted_steps hu g hy)
  have main : ∀ (h : List Inp) (n : Node), Reached env U n → Delivers U h → Quiet env n h → GoodSigs env U n →
      GoodSigs env U (n.run env h) := by
    intro h
    induction h with
    | nil => intro n _ _ _ hg; exact hg
    | cons i h ih =>
      intro n hn hdl hq hg
      have hdi : Delivers U [i] := fun j hj e he => hdl j (by simp at hj; simp [hj]) e he
      have hstep : Steps env U n (n.step env i) := run_steps env U n [i] hn.evtU hdi
      refine ih (n.step env i) (hn.run hdi) (fun j hj => hdl j (by simp [hj])) hq.2 ?_
      have old : ∀ p d s, s ∈ n.db.sigs p d →
          ∃ x, U x ∧ x.said = d ∧ ∃ a, Authority (n.step env i).db p x a ∧ SignedBy env a.keys x s := by
        intro p d s hs
        obtain ⟨x, h1, h2, a, h3, h4⟩ := hg p d s hs
        exact ⟨x, h1, h2, a, lift hstep hn.evtU h3, h4⟩
      have smalls : ∀ (l : List (Id × Nat × Dig)) (kind : Esc) (stale : Dig → Bool) (m : Node), Reached env U m → ∀ p d s,
          s ∈ (l.foldl (fun n x => n.escStep env kind stale x) m).db.sigs p d → s ∈ m.db.sigs p d := by
        intro l kind stale
        induction l with
        | nil => intro m _ p d s hs; exact hs
        | cons x l ih =>
          intro m hm p d s hs
          have hm1 : Reached env U (m.escStep env kind stale x) := hm.run (h' := [.retry kind stale x])
            (by intro j hj e he; simp at hj; subst hj; exact absurd he (by simp [Inp.delivers]))
          exact escStep_sigs hnc (hm.inv hnc) (hm.keys hnc) (hm.live hnc hnd) kind stale x p d s (ih _ hm1 p d s hs)
      cases i with
      | event e ss ws c eager isLocal =>
        intro p d s hs
        obtain ⟨q1, q2⟩ := hq.1 e ss ws c eager isLocal rfl
        have he : U e := hdl (.event e ss ws c eager isLocal) (by simp) e rfl
        obtain ⟨l, h1, _, h3⟩ := sn_process (env := env) hnc (hn.inv hnc) (hn.keys hnc) (hn.live hnc hnd) e he ss ws c eager isLocal
        rcases h1.new p d s hs with hs' | ⟨rfl, rfl, hs'⟩
        · exact old p d s hs'
        · obtain ⟨a, ha, hsg⟩ := h3 q1 q2 s hs'
          exact ⟨e, he, rfl, a, lift hstep hn.evtU ha, hsg⟩
      | pass kind stale => intro p d s hs; exact old p d s (smalls _ kind stale n hn p d s hs)
      | retry kind stale x => intro p d s hs; exact old p d s (smalls [x] kind stale n hn p d s hs)
      | config ps gs mid => exact old
      | receipts p d ws => exact old
      | approve p d c => exact old
  have h0 : Reached env U (Node.start ps gs mid) := ⟨ps, gs, mid, [], by intro i hi; simp at hi, rfl⟩
  obtain ⟨y, h1, h2, a, h3, h4⟩ := main h _ h0 hd hq (by intro p d s hs; exact absurd hs (by simp [Node.start, Db.empty])) p _ s hs
  have hr : Reached env U ((Node.start ps gs mid).run env h) := h0.run hd
  have : y = x := hnc _ _ h1 (hr.evtU _ _ _ hx.2).2.2 h2
  subst this
  exact ⟨a, h3, h4⟩

/-- The hypotheses are met by a history with two interactions and a recovery. -/
example : Quiet Demo.env Demo.node
    [Demo.recv Demo.icp 101, Demo.recv Demo.ixn1 101, Demo.recv Demo.ixn2 101, Demo.recv Demo.rot1 102] := by
  have q : ∀ (n : Node) (e : Event) (k : Nat) (h : List Inp),
      (n.processEvent Demo.env e [Demo.sig e k 0] [] none false false).2 = .ok () →
      Quiet Demo.env (n.step Demo.env (Demo.recv e k)) h → Quiet Demo.env n (Demo.recv e k :: h) := by
    intro n e k h h1 h2
    refine ⟨?_, h2⟩
    intro e' ss ws c eager isLocal he
    simp only [Demo.recv, Inp.event.injEq] at he
    obtain ⟨rfl, rfl, rfl, rfl, rfl, rfl⟩ := he
    rw [h1]; exact ⟨by simp, by simp⟩
  exact q _ _ _ _ (by decide +kernel) (q _ _ _ _ (by decide +kernel) (q _ _ _ _ (by decide +kernel)
    (q _ _ _ _ (by decide +kernel) trivial)))

namespace Demo9

/-- A forged signature. -/
def junk : Sig := { code := 0, index := 0, ondex := some 0, raw := 7 }

/-- The first interaction arrives early with a good and a forged signature; then the inception and an escrow pass. -/
def hist : List Inp :=
  [.event Demo.ixn1 [Demo.sig Demo.ixn1 101 0, junk] [] none false false, Demo.recv Demo.icp 101,
   .pass .outOfOrder (fun _ => false)]

theorem result : (Demo.node.run Demo.env hist).db.fels 1 = [10, 11] ∧
    (Demo.node.run Demo.env hist).db.evts 1 11 = some Demo.ixn1 ∧ (Demo.node.run Demo.env hist).db.evts 1 10 = some Demo.icp ∧
    junk ∈ (Demo.node.run Demo.env hist).db.sigs 1 11 := by decide +kernel

end Demo9

/-- **C33 fails in general**: a forged signature that came with an out-of-order event stays stored for the event after it is
accepted. -/
theorem c33_unverified_kept : ∃ (env : Env) (U : Event → Prop) (n : Node) (p : Id) (x a : Event) (s : Sig), NoColl U ∧ NoDrt U ∧
    Reached env U n ∧ Accepted n.db p x ∧ s ∈ n.db.sigs p x.said ∧ Authority n.db p x a ∧ ¬ SignedBy env a.keys x s := by
  obtain ⟨r1, r2, r3, r4⟩ := Demo9.result
  refine ⟨Demo.env, Demo.U, Demo.node.run Demo.env Demo9.hist, 1, Demo.ixn1, Demo.icp, Demo9.junk, Demo.noColl, Demo.noDrt,
    ⟨[], [], fun _ => none, Demo9.hist, ?_, rfl⟩, ⟨?_, r2⟩, r4,
    .ixn (y := Demo.icp) rfl rfl rfl ⟨?_, r3⟩ (.est rfl), ?_⟩
  · intro i hi e he
    simp only [Demo9.hist, Demo.recv, List.mem_cons, List.not_mem_nil, or_false] at hi
    rcases hi with rfl | rfl | rfl <;> simp [Inp.delivers] at he <;> subst he <;> simp [Demo.U]
  · show 11 ∈ _; rw [r1]; simp
  · show 10 ∈ _; rw [r1]; simp
  · rintro ⟨key, h1, h2⟩
    simp [Demo.icp, Demo9.junk] at h1
    subst h1
    exact absurd h2 (by decide)

end Verif.Kel
