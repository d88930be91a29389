import Verif.Kel.PropsLog

/-! # Properties C19, C20, C21, C22, C49: signatures, pre-rotation, witnesses -/

namespace Verif.Kel

open Verif.Thold (Thold)

/-! ## C19 -/

/-- Signing of accepted events. -/
def SigInv (env : Env) (n : Node) : Prop := ∀ p x, Accepted n.db p x → ∃ a vs, Authority n.db p x a ∧ Accepted n.db p a ∧
  vs ≠ [] ∧ vs.Nodup ∧ (∀ s, s ∈ vs → s ∈ n.db.sigs p x.said ∧ SignedBy env a.keys x s) ∧
  Thold.satisfy a.kt (vs.map Sig.index) = true ∧ Thold.size a.kt ≤ a.keys.length

theorem accepted_back {U : Event → Prop} {n n' : Node} (hi : Inv U n) (p : Id)
    (hf : n'.db.fels p = n.db.fels p) (hm : ∀ p d x, n.db.evts p d = some x → n'.db.evts p d = some x) {y : Event}
    (h : Accepted n'.db p y) : Accepted n.db p y := by
  have h1 := h.1
  rw [hf] at h1
  obtain ⟨z, hz⟩ := hi.stored _ _ h1
  have := hm _ _ _ hz
  rw [h.2] at this; injection this with this; subst this; exact ⟨h1, hz⟩

theorem SigInv.micro {env : Env} {U : Event → Prop} (hnc : NoColl U) {a b : Node} (h : SigInv env a) (hi : Inv U a)
    (hK : KeyInv a) (g : Micro env U a b) : SigInv env b := by
  -- events accepted before keep their signatures
  have keep : ∀ (p : Id), (∀ y, Accepted a.db p y → Accepted b.db p y) →
      (∀ d s, s ∈ a.db.sigs p d → s ∈ b.db.sigs p d) → ∀ x, Accepted a.db p x →
      ∃ au vs, Authority b.db p x au ∧ Accepted b.db p au ∧ vs ≠ [] ∧ vs.Nodup ∧
        (∀ s, s ∈ vs → s ∈ b.db.sigs p x.said ∧ SignedBy env au.keys x s) ∧
        Thold.satisfy au.kt (vs.map Sig.index) = true ∧ Thold.size au.kt ≤ au.keys.length := by
    intro p hacc hsig x hx
    obtain ⟨au, vs, h1, h2, h3, h4, h5, h6⟩ := h p x hx
    exact ⟨au, vs, h1.mono hacc, hacc _ h2, h3, h4, fun s hs => ⟨hsig _ _ (h5 s hs).1, (h5 s hs).2⟩, h6⟩
  cases g with
  | core g =>
    intro p x hx
    refine keep p (fun y hy => ⟨by rw [g.fels]; exact hy.1, by rw [g.evts]; exact hy.2⟩)
      (fun d s hs => by rw [g.sigs]; exact hs) x ⟨by rw [← g.fels]; exact hx.1, by rw [← g.evts]; exact hx.2⟩
  | event e ss ws c eager isLocal he =>
    rcases processEvent_cases env a e ss ws c eager isLocal hi.evt.ok with g | ⟨_, k1, v, w, hk1, g, ha⟩
    · intro p x hx
      exact keep p (fun y hy => ⟨by rw [g.db.fels]; exact hy.1, g.db.mono _ _ _ hy.2⟩)
        (fun d s hs => g.db.sigs _ _ _ hs) x (accepted_back hi p (by rw [g.db.fels]) g.db.mono hx)
    · intro p x hx
      by_cases hp : p = e.pre
      · subst hp
        have hev := acc_evt hnc hi.evt he g
        have hfels : (a.processEvent env e ss ws c eager isLocal).1.db.fels e.pre = a.db.fels e.pre ++ [e.said] := by
          rw [g.db.fels]; simp [upd]
        have hx1 := hx.1
        rw [hfels, List.mem_append, List.mem_singleton] at hx1
        rcases hx1 with hx1 | hx1
        · refine keep e.pre (fun y hy => ⟨by rw [hfels]; exact List.mem_append_left _ hy.1, g.db.mono _ _ _ hy.2⟩)
            (fun d s hs => g.db.sigs _ _ _ hs) x ?_
          obtain ⟨z, hz⟩ := hi.stored _ _ hx1
          have := g.db.mono _ _ _ hz
          rw [hx.2] at this; injection this with this; subst this; exact ⟨hx1, hz⟩
        · have hxe : x = e := by
            have := hx.2
            rw [hx1, hev] at this; injection this with this; exact this.symm
          subst hxe
          have hK1 := KeyOk.acc' hnc hi he hk1 (fun k hk => hK _ k hk) g ha
          obtain ⟨au, b1, b2, b3, b4, b5, b6, b7, b8, b9, b10⟩ := hK1.est
          have hser : k1.serder = x := by
            rcases ha with ⟨ha, _⟩ | ⟨k, ha⟩ | ⟨k, ha, _⟩
            · obtain ⟨k, hk, _, _, h⟩ := ha.inc
              obtain ⟨_, _, _, _, _, h'⟩ := incept_eq env x k hk
              rw [h, h']
            · obtain ⟨_, _, _, _, _, h⟩ := ha.rot; rw [h]; rfl
            · obtain ⟨_, _, h⟩ := ha.val; rw [h]; rfl
          rw [hser] at b10
          obtain ⟨k, c', _, _, _, hv⟩ := accepts_valid ha
          refine ⟨au, v.sigs, b10, b1, hv.some, hv.nodup, ?_, by rw [← b6]; exact hv.thold, by rw [← b5, ← b6]; exact hK1.size⟩
          intro s hs
          refine ⟨g.db.sigsIn s hs, ?_⟩
          rw [← b5]; exact (hv.sigs s hs).2
      · have hf : (a.processEvent env e ss ws c eager isLocal).1.db.fels p = a.db.fels p := by
          rw [g.db.fels]; simp [upd, hp]
        exact keep p (fun y hy => ⟨by rw [hf]; exact hy.1, g.db.mono _ _ _ hy.2⟩)
          (fun d s hs => g.db.sigs _ _ _ hs) x (accepted_back hi p hf g.db.mono hx)

theorem SigInv.steps {env : Env} {U : Event → Prop} (hnc : NoColl U) {a b : Node} (h : SigInv env a) (hi : Inv U a)
    (hK : KeyInv a) (g : Steps env U a b) : SigInv env b := by
  induction g with
  | refl => exact h
  | tail hs g ih => exact ih.micro hnc (hi.steps hnc hs) (hK.steps hnc hi hs) g

/-- **C19.** For every accepted event there are stored signatures, made over that event by the keys of the establishment event
authoritative for it, whose positions satisfy the signing threshold of that establishment event. -/
theorem c19_signing_threshold {env : Env} {U : Event → Prop} (hnc : NoColl U) {n : Node} (h : Reached env U n) (p : Id)
    (x : Event) (hx : Accepted n.db p x) :
    ∃ a vs, Authority n.db p x a ∧ Accepted n.db p a ∧ vs ≠ [] ∧ vs.Nodup ∧
      (∀ s, s ∈ vs → s ∈ n.db.sigs p x.said ∧ SignedBy env a.keys x s) ∧
      Thold.satisfy a.kt (vs.map Sig.index) = true := by
  obtain ⟨pp, g, m, hs⟩ := h.steps
  have h0 : SigInv env (Node.start pp g m) := fun p x hx => absurd hx.1 (by simp [Node.start, Db.empty])
  obtain ⟨a, vs, h1, h2, h3, h4, h5, h6, _⟩ :=
    h0.steps hnc (inv_start U pp g m) (keyInv_start pp g m) hs p x hx
  exact ⟨a, vs, h1, h2, h3, h4, h5, h6⟩

example : Accepted (Demo.node.run Demo.env Demo.hist).db 1 Demo.ixn2b := by
  refine ⟨?_, by decide +kernel⟩
  show 22 ∈ (Demo.node.run Demo.env Demo.hist).db.fels 1; rw [Demo.result.1]; simp

/-! ## C49: distinct keys -/

/-- **C49 for numeric thresholds**: if the stored signatures of an accepted event have pairwise different positions and the
threshold is the number `m`, at least `m` different positions of the key list signed it. Missing: stored signatures with equal
positions (`c49_one_key_counts_twice`). -/
theorem c49_distinct_positions_partial {env : Env} {U : Event → Prop} (hnc : NoColl U) {n : Node} (h : Reached env U n)
    (p : Id) (x a : Event) (hx : Accepted n.db p x) (ha : Authority n.db p x a) (m : Nat) (hm : a.kt = .num m)
    (hd : ∀ s t, s ∈ n.db.sigs p x.said → t ∈ n.db.sigs p x.said → s.index = t.index → s = t) :
    ∃ is : List Nat, is.Nodup ∧ m ≤ is.length ∧
      ∀ i, i ∈ is → ∃ key s, a.keys[i]? = some key ∧ s ∈ n.db.sigs p x.said ∧ env.verify key s.raw x = true := by
  obtain ⟨a', vs, h1, h2, h3, h4, h5, h6⟩ := c19_signing_threshold hnc h p x hx
  have := authority_unique h1 ha
  subst this
  refine ⟨vs.map Sig.index, ?_, ?_, ?_⟩
  · have key : ∀ l : List Sig, l.Nodup → (∀ s, s ∈ l → s ∈ n.db.sigs p x.said) → (l.map Sig.index).Nodup := by
      intro l
      induction l with
      | nil => intro _ _; simp
      | cons s l ih =>
        intro hl hs
        rw [List.nodup_cons] at hl
        rw [List.map_cons, List.nodup_cons]
        refine ⟨?_, ih hl.2 (fun t ht => hs t (by simp [ht]))⟩
        intro hc
        obtain ⟨t, ht, hte⟩ := List.mem_map.1 hc
        have := hd t s (hs t (by simp [ht])) (hs s (by simp)) hte
        subst this; exact hl.1 ht
    exact key vs h4 (fun s hs => (h5 s hs).1)
  · rw [hm] at h6
    simp [Thold.satisfy, Thold.satisfyNum] at h6
    simp; omega
  · intro i hi
    obtain ⟨s, hs, rfl⟩ := List.mem_map.1 hi
    obtain ⟨key, hk, hv⟩ := (h5 s hs).2
    exact ⟨key, s, hk, (h5 s hs).1, hv⟩

namespace Demo3

/-- Inception with two keys and threshold 2. -/
def icp : Event := { Demo.icp with keys := [101, 102], kt := .num 2, ndigs := [603], said := 40 }

/-- The first key signs once; its signature is attached under two codes. -/
def sigs : List Sig := [⟨0, 0, some 0, 101040⟩, ⟨1, 0, none, 101040⟩]

theorem result : (Demo.node.processEvent Demo.env icp sigs [] none false false).1.db.fels 1 = [40] ∧
    (Demo.node.processEvent Demo.env icp sigs [] none false false).1.db.evts 1 40 = some icp ∧
    (Demo.node.processEvent Demo.env icp sigs [] none false false).1.db.sigs 1 40 = sigs := by decide +kernel

end Demo3

/-- **C49 fails in general**: an event of an identifier with threshold 2 is accepted though all signatures stored for it are by
the first of its two keys. -/
theorem c49_one_key_counts_twice : ∃ (env : Env) (U : Event → Prop) (n : Node) (p : Id) (x : Event), NoColl U ∧
    Reached env U n ∧ Accepted n.db p x ∧ x.kt = .num 2 ∧ x.keys.length = 2 ∧ x.keys.Nodup ∧ x.ilk = .icp ∧
    ∀ s, s ∈ n.db.sigs p x.said → s.index = 0 := by
  obtain ⟨r1, r2, r3⟩ := Demo3.result
  refine ⟨Demo.env, (· = Demo3.icp), (Demo.node.processEvent Demo.env Demo3.icp Demo3.sigs [] none false false).1, 1,
    Demo3.icp, ?_, ?_, ?_, rfl, rfl, by decide, rfl, ?_⟩
  · rintro x y rfl rfl _; rfl
  · refine ⟨[], [], fun _ => none, [.event Demo3.icp Demo3.sigs [] none false false], ?_, rfl⟩
    intro i hi e he
    simp at hi; subst hi; simp [Inp.delivers] at he; exact he.symm
  · exact ⟨by show 40 ∈ _; rw [r1]; simp, r2⟩
  · intro s hs
    rw [show Demo3.icp.said = 40 from rfl, r3] at hs
    simp [Demo3.sigs] at hs
    rcases hs with rfl | rfl <;> rfl

/-! ## C20 -/

/-- `x` is signed by keys committed by `a`: positions `os` of the commitment list of `a` are exposed by verified signatures. -/
def Exposes (env : Env) (sigs : List Sig) (a x : Event) (os : List Nat) : Prop :=
  ∀ o, o ∈ os → ∃ s key d, s ∈ sigs ∧ s.ondex = some o ∧ x.keys[s.index]? = some key ∧ a.ndigs[o]? = some d ∧
    env.commits key d = true ∧ env.verify key s.raw x = true

/-- The chain from the last establishment event on consists of interactions, so that event is the authority. -/
theorem chain_authority {U : Event → Prop} {n : Node} {p : Id} {k : Kever} {a : Event} (hi : Inv U n) (hc : Chain n.db p k)
    (ha : Accepted n.db p a) (had : a.said = k.lastD) : ∀ j, k.lastS + j ≤ k.sn → ∀ x, LinkAt n.db p k (k.lastS + j) x →
    Authority n.db p x a := by
  intro j
  induction j with
  | zero =>
    intro hj x gx
    have := gx.est (by omega)
    have hxa : x = a := by
      have h1 := gx.evt
      rw [this.2, ← had, ha.2] at h1; injection h1 with h1; exact h1.symm
    subst hxa
    exact .est this.1
  | succ j ih =>
    intro hj x gx
    obtain ⟨y, gy⟩ := hc.all (k.lastS + j) (by omega)
    have hl := (gx.link (k.lastS + j) (by omega)).2
    have hp : y.said = x.prior := by
      have h1 := gy.last
      rw [hl] at h1; injection h1 with h1; exact h1.symm
    refine .ixn (gx.ixn (by omega)) hp (by have := gx.sn; have := gy.sn; omega) ⟨?_, gy.evt⟩ (ih (by omega) y gy)
    exact ((hi.mem _ _ _).1 (List.mem_of_getLast? gy.last)).1

/-- **C20, at acceptance, all histories.** A rotation is accepted only if it exposes keys committed in the key state in force
when it arrives, whose positions satisfy the committed next threshold. -/
theorem c20_current_state {env : Env} {U : Event → Prop} {n n' : Node}
    (h : Reached env U n) {e : Event} {ss ws : List Sig} {couple : Option Couple} {eager isLocal : Bool}
    (hen : Enters env n e ss ws couple eager isLocal n') (hr : e.ilk = .rot ∨ e.ilk = .drt) :
    ∃ k os, n.kevers e.pre = some k ∧ Thold.satisfy k.nt os = true ∧
      ∀ o, o ∈ os → ∃ s key d, s ∈ n'.db.sigs e.pre e.said ∧ s.ondex = some o ∧ e.keys[s.index]? = some key ∧
        k.ndigs[o]? = some d ∧ env.commits key d = true ∧ env.verify key s.raw e = true := by
  obtain ⟨k1, v, w, hk1, g, ha⟩ := enters_acc h.evtU.ok hen
  rcases ha with ⟨ha, _⟩ | ⟨k, ha⟩ | ⟨k, ha, _⟩
  · rcases ha.ilk with h | h <;> rw [h] at hr <;> exact absurd hr (by simp)
  · obtain ⟨cuts, adds, hrot, db, hv, hk⟩ := ha.rot
    have hv := val_ok hv
    refine ⟨k, _, ha.known, hv.next hr, ?_⟩
    intro o ho
    obtain ⟨s, h1, h2, key, d, h3, h4, h5⟩ := mem_exposeds ho
    obtain ⟨_, key', h6, h7⟩ := hv.sigs s h1
    rw [h3] at h6; injection h6 with h6; subst h6
    exact ⟨s, key, d, g.db.sigsIn s h1, h2, h3, h4, h5, h7⟩
  · rw [ha.ilk] at hr; exact absurd hr (by simp)

/-- Pre-rotation of accepted rotations. -/
def RotInv (env : Env) (n : Node) : Prop := ∀ p x, Accepted n.db p x → x.ilk = .rot → ∃ y a os, Accepted n.db p y ∧
  y.said = x.prior ∧ y.sn + 1 = x.sn ∧ Authority n.db p y a ∧ Thold.satisfy a.nt os = true ∧
  Exposes env (n.db.sigs p x.said) a x os

theorem RotInv.micro {env : Env} {U : Event → Prop} (hnc : NoColl U) {a b : Node} (h : RotInv env a)
    (hi : Inv U a) (hK : KeyInv a) (hL : LiveAll a) (g : Micro env U a b) : RotInv env b := by
  have keep : ∀ (p : Id), (∀ y, Accepted a.db p y → Accepted b.db p y) →
      (∀ d s, s ∈ a.db.sigs p d → s ∈ b.db.sigs p d) → ∀ x, Accepted a.db p x → x.ilk = .rot →
      ∃ y au os, Accepted b.db p y ∧ y.said = x.prior ∧ y.sn + 1 = x.sn ∧ Authority b.db p y au ∧
        Thold.satisfy au.nt os = true ∧ Exposes env (b.db.sigs p x.said) au x os := by
    intro p hacc hsig x hx hr
    obtain ⟨y, au, os, h1, h2, h3, h4, h5, h6⟩ := h p x hx hr
    refine ⟨y, au, os, hacc _ h1, h2, h3, h4.mono hacc, h5, ?_⟩
    intro o ho
    obtain ⟨s, key, d, h7, h8⟩ := h6 o ho
    exact ⟨s, key, d, hsig _ _ h7, h8⟩
  cases g with
  | core g =>
    intro p x hx
    refine keep p (fun y hy => ⟨by rw [g.fels]; exact hy.1, by rw [g.evts]; exact hy.2⟩)
      (fun d s hs => by rw [g.sigs]; exact hs) x ⟨by rw [← g.fels]; exact hx.1, by rw [← g.evts]; exact hx.2⟩
  | event e ss ws c eager isLocal he =>
    rcases processEvent_cases env a e ss ws c eager isLocal hi.evt.ok with g | ⟨_, k1, v, w, hk1, g, ha⟩
    · intro p x hx
      exact keep p (fun y hy => ⟨by rw [g.db.fels]; exact hy.1, g.db.mono _ _ _ hy.2⟩)
        (fun d s hs => g.db.sigs _ _ _ hs) x (accepted_back hi p (by rw [g.db.fels]) g.db.mono hx)
    · intro p x hx
      by_cases hp : p = e.pre
      · subst hp
        have hev := acc_evt hnc hi.evt he g
        have hfels : (a.processEvent env e ss ws c eager isLocal).1.db.fels e.pre = a.db.fels e.pre ++ [e.said] := by
          rw [g.db.fels]; simp [upd]
        have hacc : ∀ y, Accepted a.db e.pre y → Accepted (a.processEvent env e ss ws c eager isLocal).1.db e.pre y :=
          fun y hy => ⟨by rw [hfels]; exact List.mem_append_left _ hy.1, g.db.mono _ _ _ hy.2⟩
        have hx1 := hx.1
        rw [hfels, List.mem_append, List.mem_singleton] at hx1
        rcases hx1 with hx1 | hx1
        · refine keep e.pre hacc (fun d s hs => g.db.sigs _ _ _ hs) x ?_
          obtain ⟨z, hz⟩ := hi.stored _ _ hx1
          have := g.db.mono _ _ _ hz
          rw [hx.2] at this; injection this with this; subst this; exact ⟨hx1, hz⟩
        · intro hr
          have hxe : x = e := by
            have := hx.2
            rw [hx1, hev] at this; injection this with this; exact this.symm
          subst hxe
          rcases ha with ⟨ha, _⟩ | ⟨k, ha⟩ | ⟨k, ha, _⟩
          · rcases ha.ilk with h | h <;> rw [h] at hr <;> exact absurd hr (by simp)
          · have hLk := hL x.pre k ha.known
            obtain ⟨hs, hne, hprior, _, _, hlt, _⟩ := accepts_prior hi.evt.ok hLk.chain (.inl ha)
            have hlt := hlt (by rw [hr]; simp)
            obtain ⟨y, gy⟩ := hLk.chain.all (x.sn - 1) (by omega)
            have hyp : y.said = x.prior := by
              have h1 := gy.last
              rw [hprior] at h1; injection h1 with h1; exact h1.symm
            have hys : y.sn + 1 = x.sn := by have := gy.sn; omega
            obtain ⟨au, b1, b2, b3, b4, b5, b6, b7, b8, b9, b10⟩ := (hK x.pre k ha.known).est
            have hau := chain_authority hi hLk.chain b1 b2 (x.sn - 1 - k.lastS) (by omega) y
              (by rw [show k.lastS + (x.sn - 1 - k.lastS) = x.sn - 1 by omega]; exact gy)
            have hya : Accepted a.db x.pre y := ⟨((hi.mem _ _ _).1 (List.mem_of_getLast? gy.last)).1, gy.evt⟩
            obtain ⟨cuts, adds, hrot, db, hv, hk⟩ := ha.rot
            have hv := val_ok hv
            refine ⟨y, au, exposeds env k.ndigs x.keys v.sigs, hacc _ hya, hyp, hys, hau.mono hacc, ?_, ?_⟩
            · rw [← b8]; exact hv.next (.inl hr)
            · intro o ho
              obtain ⟨s, h1, h2, key, d, h3, h4, h5⟩ := mem_exposeds ho
              obtain ⟨_, key', h6, h7⟩ := hv.sigs s h1
              rw [h3] at h6; injection h6 with h6; subst h6
              exact ⟨s, key, d, g.db.sigsIn s h1, h2, h3, by rw [← b7]; exact h4, h5, h7⟩
          · rw [ha.ilk] at hr; exact absurd hr (by simp)
      · have hf : (a.processEvent env e ss ws c eager isLocal).1.db.fels p = a.db.fels p := by
          rw [g.db.fels]; simp [upd, hp]
        exact keep p (fun y hy => ⟨by rw [hf]; exact hy.1, g.db.mono _ _ _ hy.2⟩)
          (fun d s hs => g.db.sigs _ _ _ hs) x (accepted_back hi p hf g.db.mono hx)

/-- **C20, histories without delegated rotations.** Every accepted rotation, recoveries included, carries stored signatures by
keys whose digests the establishment event in force before it committed to, at positions satisfying its next threshold.
Missing: `drt` events that replace a `drt` event (`c20_superseding_drt`). -/
theorem c20_prerotation_partial {env : Env} {U : Event → Prop} (hnc : NoColl U) (hnd : NoDrt U) {n : Node}
    (h : Reached env U n) (p : Id) (x : Event) (hx : Accepted n.db p x) (hr : x.ilk = .rot) :
    ∃ y a os, Accepted n.db p y ∧ y.said = x.prior ∧ y.sn + 1 = x.sn ∧ Authority n.db p y a ∧
      Thold.satisfy a.nt os = true ∧ Exposes env (n.db.sigs p x.said) a x os := by
  obtain ⟨pp, g, m, hs⟩ := h.steps
  have h0 : RotInv env (Node.start pp g m) := fun p x hx => absurd hx.1 (by simp [Node.start, Db.empty])
  have : RotInv env n := by
    clear hx hr h
    induction hs with
    | refl => exact h0
    | tail hs g' ih =>
      exact ih.micro hnc ((inv_start U pp g m).steps hnc hs) ((keyInv_start pp g m).steps hnc (inv_start U pp g m) hs)
        ((liveAll_start pp g m).steps hnc hnd (inv_start U pp g m) hs) g'
  exact this p x hx hr

example : ∃ n', Enters Demo.env (Demo.node.run Demo.env [Demo.recv Demo.icp 101, Demo.recv Demo.ixn1 101]) Demo.rot1
    [Demo.sig Demo.rot1 102 0] [] none false false n' ∧ Demo.rot1.ilk = .rot := by
  refine ⟨_, ⟨rfl, ?_⟩, rfl⟩
  decide +kernel

example : Accepted (Demo.node.run Demo.env Demo.hist).db 1 Demo.rot1 ∧ Demo.rot1.ilk = .rot := by
  refine ⟨⟨?_, by decide +kernel⟩, rfl⟩
  show 21 ∈ (Demo.node.run Demo.env Demo.hist).db.fels 1; rw [Demo.result.1]; simp

namespace Demo4

/-- A `drt` event committing to key 105, and another at the same number, on the same prior event, signed by key 105. -/
def drtA : Event := { Demo.icp with ilk := .drt, sn := 1, said := 31, prior := 10, keys := [102], ndigs := [605] }
def drtB : Event := { Demo.icp with ilk := .drt, sn := 1, said := 32, prior := 10, keys := [105], ndigs := [] }

def hist : List Inp := [Demo.recv Demo.icp 101, Demo.recv drtA 102, Demo.recv drtB 105]

def U : Event → Prop := fun e => e ∈ [Demo.icp, drtA, drtB]

theorem noColl : NoColl U := by
  have h : ∀ x ∈ [Demo.icp, drtA, drtB], ∀ y ∈ [Demo.icp, drtA, drtB], x.said = y.said → x = y := by decide +kernel
  exact fun x y hx hy => h x hx y hy

theorem delivers : Delivers U hist := by
  intro i hi e he
  simp only [hist, Demo.recv, List.mem_cons, List.not_mem_nil, or_false] at hi
  rcases hi with rfl | rfl | rfl <;> simp [Inp.delivers] at he <;> subst he <;> simp [U]

theorem reached : Reached Demo.env U (Demo.node.run Demo.env hist) := ⟨[], [], fun _ => none, hist, delivers, rfl⟩

theorem result : (Demo.node.run Demo.env hist).db.fels 1 = [10, 31, 32] ∧
    (Demo.node.run Demo.env hist).db.evts 1 32 = some drtB ∧
    (Demo.node.run Demo.env hist).db.evts 1 10 = some Demo.icp := by decide +kernel

end Demo4

/-- **C20 fails in general**: an accepted `drt` event none of whose keys was committed to by the event before it in its chain
(which is an inception with one commitment and threshold 1). -/
theorem c20_superseding_drt : ∃ (env : Env) (U : Event → Prop) (n : Node) (p : Id) (x y : Event), NoColl U ∧
    Reached env U n ∧ Accepted n.db p x ∧ x.ilk = .drt ∧ Accepted n.db p y ∧ y.said = x.prior ∧ y.sn + 1 = x.sn ∧
    y.ilk = .icp ∧ y.nt = .num 1 ∧ ∀ key d, key ∈ x.keys → d ∈ y.ndigs → env.commits key d = false := by
  obtain ⟨r1, r2, r3⟩ := Demo4.result
  refine ⟨Demo.env, Demo4.U, _, 1, Demo4.drtB, Demo.icp, Demo4.noColl, Demo4.reached, ⟨?_, r2⟩, rfl, ⟨?_, r3⟩, rfl, rfl, rfl,
    rfl, ?_⟩
  · show 32 ∈ _; rw [r1]; simp
  · show 10 ∈ _; rw [r1]; simp
  · intro key d hk hd
    simp [Demo4.drtB] at hk; simp [Demo.icp] at hd; subst hk hd; decide

/-! ## C21 -/

/-- The host has no part in `p`: `p` is not among its identifiers or groups, and none of its identifiers is in the witness lists
before and after the event. -/
def Foreign (n n' : Node) (p : Id) : Prop :=
  p ∉ n.prefixes ∧ p ∉ n.groups ∧
  (∀ k w, n.kevers p = some k ∨ n'.kevers p = some k → w ∈ k.wits → w ∉ n.prefixes)

theorem foreign_false {env : Env} {n n' : Node} {e : Event} {ss ws : List Sig} {couple : Option Couple} {eager isLocal : Bool}
    {k1 k : Kever} {v : Verified} {w : List Id} (g : AccN e k1 v w n n')
    (hkp : k.pre = e.pre) (hk : n.kevers e.pre = some k ∨ (n.kevers e.pre = none ∧ incept env e = .ok k))
    (ha : Accepts env n e ss ws couple eager isLocal k1 v w) (hf : Foreign n n' e.pre) :
    n.owned k.pre = false ∧ n.membered k.pre = false ∧ n.witnessed k k1.wits = false := by
  have hn' : n'.kevers e.pre = some k1 := by rw [g.kevers]; simp [upd]
  obtain ⟨f1, f2, f3⟩ := hf
  refine ⟨?_, ?_, ?_⟩
  · simp [Node.owned, hkp, f1]
  · simp [Node.membered, hkp, f2]
  · unfold Node.witnessed
    rw [List.any_eq_false]
    intro x hx
    simp only [decide_eq_true_eq]
    split at hx
    · rcases hk with hk | ⟨_, hk⟩
      · exact f3 k x (.inl hk) hx
      · rename_i hempty hnone
        have : k.wits = k1.wits := by
          rcases ha with ⟨ha, _⟩ | ⟨k', ha⟩ | ⟨k', ha, _⟩
          · obtain ⟨k'', hk'', _, _, h⟩ := ha.inc
            rw [hk] at hk''; injection hk'' with hk''; subst hk''
            rw [h]
          · exact absurd ha.known (by rw [hnone]; simp)
          · exact absurd ha.known (by rw [hnone]; simp)
        rw [this, hempty] at hx; exact absurd hx (by simp)
    · exact f3 k1 x (.inr hn') hx

/-- **C21, at acceptance.** An event of an identifier in which the host has no part enters the log only with stored receipts over
that event by the witnesses in force, as many (counted as different signatures) as the witness threshold in force, and that
threshold lies between 1 and the number of witnesses. Missing: receipts counted are different signatures but not always of
different witnesses (`c21_one_witness_counts_twice`). -/
theorem c21_witness_threshold_partial {env : Env} {U : Event → Prop} (hnc : NoColl U) {n n' : Node}
    (h : Reached env U n) {e : Event} (he : U e) {ss ws : List Sig} {couple : Option Couple} {eager isLocal : Bool}
    (hen : Enters env n e ss ws couple eager isLocal n') (hf : Foreign n n' e.pre) :
    ∃ (k : Kever) (a : Event) (vs : List Sig), n'.kevers e.pre = some k ∧ Authority n'.db e.pre e a ∧ k.toad = a.toad ∧ vs.Nodup ∧
      (∀ s, s ∈ vs → s ∈ n'.db.wigs e.pre e.said ∧ SignedBy env k.wits e s) ∧ a.toad ≤ vs.length ∧
      (k.wits ≠ [] → 1 ≤ a.toad ∧ a.toad ≤ k.wits.length) := by
  obtain ⟨k1, v, w, hk1, g, ha⟩ := enters_acc h.evtU.ok hen
  obtain ⟨k, c', hkp, hk, _, hv⟩ := accepts_valid ha
  have hff := foreign_false g hkp hk ha hf
  have hK1 := KeyOk.acc' hnc (h.inv hnc) he hk1 (fun k hk => h.keys hnc _ k hk) g ha
  obtain ⟨au, b1, b2, b3, b4, b5, b6, b7, b8, b9, b10⟩ := hK1.est
  have hser : k1.serder = e := by
    rcases ha with ⟨ha, _⟩ | ⟨k, ha⟩ | ⟨k, ha, _⟩
    · obtain ⟨k, hk, _, _, h⟩ := ha.inc
      obtain ⟨_, _, _, _, _, h'⟩ := incept_eq env e k hk
      rw [h, h']
    · obtain ⟨_, _, _, _, _, h⟩ := ha.rot; rw [h]; rfl
    · obtain ⟨_, _, h⟩ := ha.val; rw [h]; rfl
  rw [hser] at b10
  refine ⟨k1, au, v.wigs, by rw [g.kevers]; simp [upd], b10, b9, by rw [hv.wigs]; exact nodup_verifySigs .., ?_, ?_, ?_⟩
  · intro s hs
    refine ⟨g.db.wigsIn s hs, ?_⟩
    rw [hv.wigs] at hs
    exact (mem_verifySigs hs).2
  · by_cases hw : k1.wits = []
    · rw [← b9, hv.nowit hw]; exact Nat.zero_le _
    · have := hv.wit hw (by simp [hff])
      omega
  · intro hw
    have := hv.wit hw (by simp [hff])
    omega

/-- **C21 with distinct witnesses**, when the stored receipts of the event have pairwise different positions. -/
theorem c21_distinct_witnesses_partial {env : Env} {U : Event → Prop} (hnc : NoColl U) {n n' : Node}
    (h : Reached env U n) {e : Event} (he : U e) {ss ws : List Sig} {couple : Option Couple} {eager isLocal : Bool}
    (hen : Enters env n e ss ws couple eager isLocal n') (hf : Foreign n n' e.pre)
    (hd : ∀ s t, s ∈ n'.db.wigs e.pre e.said → t ∈ n'.db.wigs e.pre e.said → s.index = t.index → s = t) :
    ∃ k, n'.kevers e.pre = some k ∧ ∃ wits : List Id, wits.Nodup ∧ k.toad ≤ wits.length ∧
      ∀ w, w ∈ wits → w ∈ k.wits ∧ ∃ s, s ∈ n'.db.wigs e.pre e.said ∧ env.verify w s.raw e = true := by
  obtain ⟨k, a, vs, h1, h2, h3, h4, h5, h6, h7⟩ := c21_witness_threshold_partial hnc h he hen hf
  have hwn : k.wits.Nodup := by
    obtain ⟨k1, v, w, hk1, g, ha⟩ := enters_acc h.evtU.ok hen
    have hK1 := KeyOk.acc' hnc (h.inv hnc) he hk1 (fun k hk => h.keys hnc _ k hk) g ha
    have : n'.kevers e.pre = some k1 := by rw [g.kevers]; simp [upd]
    rw [h1] at this; injection this with this; subst this
    exact hK1.wits
  refine ⟨k, h1, ?_⟩
  have key : ∀ l : List Sig, l.Nodup → (∀ s, s ∈ l → s ∈ n'.db.wigs e.pre e.said ∧ SignedBy env k.wits e s) →
      ∃ wits : List Id, wits.Nodup ∧ wits.length = l.length ∧
        (∀ w, w ∈ wits → ∃ s, s ∈ l ∧ k.wits[s.index]? = some w) ∧
        ∀ w, w ∈ wits → w ∈ k.wits ∧ ∃ s, s ∈ n'.db.wigs e.pre e.said ∧ env.verify w s.raw e = true := by
    intro l
    induction l with
    | nil => intro _ _; exact ⟨[], by simp, rfl, by simp, by simp⟩
    | cons s l ih =>
      intro hl hs
      rw [List.nodup_cons] at hl
      obtain ⟨wits, w1, w2, w3, w4⟩ := ih hl.2 (fun t ht => hs t (by simp [ht]))
      obtain ⟨hsw, w, hw, hv⟩ := hs s (by simp)
      refine ⟨w :: wits, ?_, by simp [w2], ?_, ?_⟩
      · rw [List.nodup_cons]
        refine ⟨?_, w1⟩
        intro hc
        obtain ⟨t, ht, htw⟩ := w3 w hc
        have hidx : s.index = t.index := by
          obtain ⟨i1, e1⟩ := List.getElem?_eq_some_iff.1 hw
          obtain ⟨i2, e2⟩ := List.getElem?_eq_some_iff.1 htw
          exact (List.getElem_inj hwn).1 (e1.trans e2.symm)
        have := hd s t hsw (hs t (by simp [ht])).1 hidx
        subst this; exact hl.1 ht
      · intro x hx
        rcases List.mem_cons.1 hx with rfl | hx
        · exact ⟨s, by simp, hw⟩
        · obtain ⟨t, ht, h⟩ := w3 x hx; exact ⟨t, by simp [ht], h⟩
      · intro x hx
        rcases List.mem_cons.1 hx with rfl | hx
        · exact ⟨List.mem_of_getElem? hw, s, hsw, hv⟩
        · exact w4 x hx
  obtain ⟨wits, w1, w2, _, w4⟩ := key vs h4 h5
  exact ⟨wits, w1, by omega, w4⟩

namespace Demo5

/-- Inception with two witnesses and witness threshold 2. -/
def icp : Event := { Demo.icp with wits := [901, 902], toad := 2, said := 50 }

/-- One receipt of the first witness, attached under two codes. -/
def wigs1 : List Sig := [⟨0, 0, some 0, 901050⟩, ⟨1, 0, none, 901050⟩]
/-- Receipts of both witnesses. -/
def wigs2 : List Sig := [Demo.sig icp 901 0, Demo.sig icp 902 1]

theorem result :
    (Demo.node.processEvent Demo.env icp [Demo.sig icp 101 0] wigs1 none false false).1.db.fels 1 = [50] ∧
    (Demo.node.processEvent Demo.env icp [Demo.sig icp 101 0] wigs1 none false false).1.db.wigs 1 50 = wigs1 ∧
    (Demo.node.processEvent Demo.env icp [Demo.sig icp 101 0] wigs2 none false false).1.db.fels 1 = [50] ∧
    (Demo.node.processEvent Demo.env icp [Demo.sig icp 101 0] [Demo.sig icp 901 0] none false false).2 =
      .error .missingWitness ∧
    ((Demo.node.processEvent Demo.env icp [Demo.sig icp 101 0] wigs1 none false false).1.kevers 1).map
      (fun k => (k.toad, k.wits)) = some (2, [901, 902]) ∧
    ((Demo.node.processEvent Demo.env icp [Demo.sig icp 101 0] wigs2 none false false).1.kevers 1).map
      (fun k => (k.toad, k.wits)) = some (2, [901, 902]) := by
  decide +kernel

theorem reached : Reached Demo.env (· = icp) Demo.node := ⟨[], [], fun _ => none, [], by intro i hi; simp at hi, rfl⟩

end Demo5

/-- The hypotheses of both partial theorems are met by an inception receipted by its two witnesses. -/
example : ∃ n', Enters Demo.env Demo.node Demo5.icp [Demo.sig Demo5.icp 101 0] Demo5.wigs2 none false false n' ∧
    Foreign Demo.node n' Demo5.icp.pre ∧ ∀ s t, s ∈ n'.db.wigs Demo5.icp.pre Demo5.icp.said →
      t ∈ n'.db.wigs Demo5.icp.pre Demo5.icp.said → s.index = t.index → s = t := by
  obtain ⟨_, _, r3, _, _, r6⟩ := Demo5.result
  refine ⟨_, ⟨rfl, ?_⟩, ⟨by simp [Demo.node, Node.start], by simp [Demo.node, Node.start], by simp [Demo.node, Node.start]⟩, ?_⟩
  · rw [show Demo5.icp.pre = 1 from rfl, r3]; simp [Demo.node, Node.start, Db.empty]
  · have h : ∀ s ∈ (Demo.node.processEvent Demo.env Demo5.icp [Demo.sig Demo5.icp 101 0] Demo5.wigs2 none false
        false).1.db.wigs Demo5.icp.pre Demo5.icp.said, ∀ t ∈ (Demo.node.processEvent Demo.env Demo5.icp
        [Demo.sig Demo5.icp 101 0] Demo5.wigs2 none false false).1.db.wigs Demo5.icp.pre Demo5.icp.said,
        s.index = t.index → s = t := by decide +kernel
    exact fun s t hs ht => h s hs t ht

/-- **C21 fails for distinct witnesses**: an event with witness threshold 2 is accepted by a host without identifiers of its own
though every stored receipt is by the first witness. -/
theorem c21_one_witness_counts_twice : ∃ (env : Env) (U : Event → Prop) (n n' : Node) (e : Event) (ss ws : List Sig)
    (k : Kever), NoColl U ∧ Reached env U n ∧ U e ∧ Enters env n e ss ws none false false n' ∧ Foreign n n' e.pre ∧
    n'.kevers e.pre = some k ∧ k.toad = 2 ∧ k.wits = [901, 902] ∧ ∀ s, s ∈ n'.db.wigs e.pre e.said → s.index = 0 := by
  obtain ⟨r1, r2, _, _, r5, _⟩ := Demo5.result
  match hk : (Demo.node.processEvent Demo.env Demo5.icp [Demo.sig Demo5.icp 101 0] Demo5.wigs1 none false false).1.kevers 1 with
  | none => rw [hk] at r5; simp at r5
  | some k =>
    rw [hk] at r5; simp at r5
    refine ⟨Demo.env, (· = Demo5.icp), Demo.node, _, Demo5.icp, [Demo.sig Demo5.icp 101 0], Demo5.wigs1, k, ?_, Demo5.reached,
      rfl, ⟨rfl, ?_⟩, ⟨by simp [Demo.node, Node.start], by simp [Demo.node, Node.start], by simp [Demo.node, Node.start]⟩, hk,
      r5.1, r5.2, ?_⟩
    · rintro x y rfl rfl _; rfl
    · rw [show Demo5.icp.pre = 1 from rfl, r1]; simp [Demo.node, Node.start, Db.empty]
    · intro s hs
      rw [show Demo5.icp.said = 50 from rfl, show Demo5.icp.pre = 1 from rfl, r2] at hs
      simp [Demo5.wigs1] at hs
      rcases hs with rfl | rfl <;> rfl

/-! ## C22 -/

/-- **C22.** Witness lists never have duplicates, and the witness threshold always fits the list. -/
theorem c22_nodup {env : Env} {U : Event → Prop} (hnc : NoColl U) {n : Node} (h : Reached env U n) (p : Id) (k : Kever)
    (hk : n.kevers p = some k) : k.wits.Nodup ∧ (k.wits = [] → k.toad = 0) ∧
      (k.wits ≠ [] → 1 ≤ k.toad ∧ k.toad ≤ k.wits.length) := by
  have hK := h.keys hnc p k hk
  have := hK.toad
  refine ⟨hK.wits, ?_, ?_⟩
  · intro hw; simpa [toadOk, hw] using this
  · intro hw; simpa [toadOk, hw] using this

/-- **C22, rotations that extend the log.** The new witness list is the old one without the cuts, followed by the adds; such a
rotation is accepted only with duplicate-free cuts taken from the list and duplicate-free adds that are neither cut nor in the
list. Missing: recoveries, whose cuts and adds are ignored (`c22_recovery_ignores_cuts`). -/
theorem c22_rotation_partial {env : Env} {U : Event → Prop} (hnc : NoColl U) {n n' : Node}
    (h : Reached env U n) {e : Event} {ss ws : List Sig} {couple : Option Couple} {eager isLocal : Bool}
    (hen : Enters env n e ss ws couple eager isLocal n') (hr : e.ilk = .rot ∨ e.ilk = .drt) (k : Kever)
    (hk : n.kevers e.pre = some k) (hs : e.sn = k.sn + 1) :
    ∃ k1, n'.kevers e.pre = some k1 ∧ k1.wits = k.wits.filter (fun x => decide (x ∉ e.cuts)) ++ e.adds ∧
      e.cuts.Nodup ∧ e.adds.Nodup ∧ (∀ x, x ∈ e.cuts → x ∈ k.wits ∧ x ∉ e.adds) ∧ ∀ x, x ∈ k.wits → x ∉ e.adds := by
  obtain ⟨k1, v, w, hk1, g, ha⟩ := enters_acc h.evtU.ok hen
  refine ⟨k1, by rw [g.kevers]; simp [upd], ?_⟩
  rcases ha with ⟨ha, _⟩ | ⟨k', ha⟩ | ⟨k', ha, _⟩
  · rw [ha.fresh] at hk; exact absurd hk (by simp)
  · have := ha.known; rw [hk] at this; injection this with this; subst this
    obtain ⟨cuts, adds, hrot, db, hv, hk1⟩ := ha.rot
    obtain ⟨_, _, _, hd, _⟩ := rotate_ok hrot
    rcases deriveBacks_ok (h.keys hnc _ _ hk).wits hd with hd | hd
    · rcases hd.1 with hc | hc
      · rcases hr with h | h
        · exact absurd h hc.1
        · exact absurd h hc.2
      · omega
    · rw [hk1]
      exact ⟨hd.2.2.1, hd.2.2.2.1, hd.2.2.2.2.1, hd.2.2.2.2.2.1, hd.2.2.2.2.2.2.1⟩
  · rw [ha.ilk] at hr; exact absurd hr (by simp)

/-- A rotation that cuts one of three witnesses and adds another. -/
example : ((Demo.node.run Demo.env [.event { Demo.icp with wits := [901, 902, 903], toad := 1 } [Demo.sig Demo.icp 101 0]
      [⟨0, 0, some 0, 901010⟩] none false false,
    .event { Demo.rot1 with cuts := [902], adds := [904], toad := 1 } [Demo.sig Demo.rot1 102 0] [⟨0, 0, some 0, 901021⟩] none
      false false]).kevers 1).map Kever.wits = some [901, 903, 904] := by decide +kernel

/-- **C51 fails** for rotations whose cuts do not have the order that these witnesses have in the list: none of them enters. -/
theorem c51_cuts_in_order {env : Env} {U : Event → Prop} (hnc : NoColl U) {n n' : Node}
    (h : Reached env U n) {e : Event} {ss ws : List Sig} {couple : Option Couple} {eager isLocal : Bool}
    (hen : Enters env n e ss ws couple eager isLocal n') (hr : e.ilk = .rot ∨ e.ilk = .drt) (k : Kever)
    (hk : n.kevers e.pre = some k) (hs : e.sn = k.sn + 1) : e.cuts.Sublist k.wits := by
  obtain ⟨k1, v, w, hk1, g, ha⟩ := enters_acc h.evtU.ok hen
  rcases ha with ⟨ha, _⟩ | ⟨k', ha⟩ | ⟨k', ha, _⟩
  · rw [ha.fresh] at hk; exact absurd hk (by simp)
  · have := ha.known; rw [hk] at this; injection this with this; subst this
    obtain ⟨cuts, adds, hrot, db, hv, hk1⟩ := ha.rot
    obtain ⟨_, _, _, hd, _⟩ := rotate_ok hrot
    rcases deriveBacks_ok (h.keys hnc _ _ hk).wits hd with hd | hd
    · rcases hd.1 with hc | hc
      · rcases hr with h | h
        · exact absurd h hc.1
        · exact absurd h hc.2
      · omega
    · exact hd.2.2.2.2.2.2.2.2
  · rw [ha.ilk] at hr; exact absurd hr (by simp)

/-- A rotation with all signatures and receipts that cuts two of three witnesses: accepted when they are named in the order of the list, refused in the other. -/
theorem c51_cuts_refused :
    ((Demo.node.run Demo.env [.event { Demo.icp with wits := [901, 902, 903], toad := 1 } [Demo.sig Demo.icp 101 0] [⟨0, 0, some 0, 901010⟩] none false false,
      .event { Demo.rot1 with cuts := [901, 903], toad := 1 } [Demo.sig Demo.rot1 102 0] [⟨0, 0, some 0, 902021⟩] none false false]).kevers 1).map
        (fun k => (k.sn, k.wits)) = some (1, [902]) ∧
    ((Demo.node.run Demo.env [.event { Demo.icp with wits := [901, 902, 903], toad := 1 } [Demo.sig Demo.icp 101 0] [⟨0, 0, some 0, 901010⟩] none false false,
      .event { Demo.rot1 with cuts := [903, 901], toad := 1 } [Demo.sig Demo.rot1 102 0] [⟨0, 0, some 0, 902021⟩] none false false]).kevers 1).map
        (fun k => (k.sn, k.wits)) = some (0, [901, 902, 903]) := by
  decide +kernel

/-- **C22, inceptions and interactions.** An inception starts with its own list, an interaction leaves the list alone. -/
theorem c22_other {env : Env} {U : Event → Prop} {n n' : Node}
    (h : Reached env U n) {e : Event} {ss ws : List Sig} {couple : Option Couple} {eager isLocal : Bool}
    (hen : Enters env n e ss ws couple eager isLocal n') :
    (n.kevers e.pre = none → ∃ k1, n'.kevers e.pre = some k1 ∧ k1.wits = e.wits) ∧
    (∀ k, n.kevers e.pre = some k → e.ilk = .ixn → ∃ k1, n'.kevers e.pre = some k1 ∧ k1.wits = k.wits) := by
  obtain ⟨k1, v, w, hk1, g, ha⟩ := enters_acc h.evtU.ok hen
  have hn' : n'.kevers e.pre = some k1 := by rw [g.kevers]; simp [upd]
  refine ⟨fun hk => ⟨k1, hn', ?_⟩, fun k hk hi => ⟨k1, hn', ?_⟩⟩
  · rcases ha with ⟨ha, _⟩ | ⟨k', ha⟩ | ⟨k', ha, _⟩
    · obtain ⟨k, hk, _, _, h⟩ := ha.inc
      obtain ⟨_, _, _, _, _, h'⟩ := incept_eq env e k hk
      rw [h, h']
    · rw [ha.known] at hk; exact absurd hk (by simp)
    · rw [ha.known] at hk; exact absurd hk (by simp)
  · rcases ha with ⟨ha, _⟩ | ⟨k', ha⟩ | ⟨k', ha, _⟩
    · rw [ha.fresh] at hk; exact absurd hk (by simp)
    · rcases ha.ilk with h | h <;> rw [h] at hi <;> exact absurd hi (by simp)
    · have := ha.known; rw [hk] at this; injection this with this; subst this
      obtain ⟨_, _, h⟩ := ha.val; rw [h]; rfl

namespace Demo6

/-- A recovery rotation that adds a witness and sets no witness threshold. -/
def rot : Event := { Demo.rot1 with adds := [901] }

theorem result :
    ((Demo.node.run Demo.env [Demo.recv Demo.icp 101, Demo.recv Demo.ixn1 101]).kevers 1).map (fun k => (k.sn, k.wits)) =
      some (1, []) ∧
    (Demo.node.run Demo.env [Demo.recv Demo.icp 101, Demo.recv Demo.ixn1 101]).db.fels 1 = [10, 11] ∧
    ((Demo.node.run Demo.env [Demo.recv Demo.icp 101, Demo.recv Demo.ixn1 101]).processEvent Demo.env rot
      [Demo.sig rot 102 0] [] none false false).1.db.fels 1 = [10, 11, 21] ∧
    (((Demo.node.run Demo.env [Demo.recv Demo.icp 101, Demo.recv Demo.ixn1 101]).processEvent Demo.env rot
      [Demo.sig rot 102 0] [] none false false).1.kevers 1).map (fun k => k.wits) = some [] := by decide +kernel

theorem reached : Reached Demo.env (fun e => e ∈ [Demo.icp, Demo.ixn1, rot])
    (Demo.node.run Demo.env [Demo.recv Demo.icp 101, Demo.recv Demo.ixn1 101]) := by
  refine ⟨[], [], fun _ => none, _, ?_, rfl⟩
  intro i hi e he
  simp only [Demo.recv, List.mem_cons, List.not_mem_nil, or_false] at hi
  rcases hi with rfl | rfl <;> simp [Inp.delivers] at he <;> subst he <;> simp

theorem noColl : NoColl (fun e => e ∈ [Demo.icp, Demo.ixn1, rot]) := by
  have h : ∀ x ∈ [Demo.icp, Demo.ixn1, rot], ∀ y ∈ [Demo.icp, Demo.ixn1, rot], x.said = y.said → x = y := by decide +kernel
  exact fun x y hx hy => h x hx y hy

end Demo6

/-- **C22 fails for recoveries**: an accepted rotation with an added witness leaves the witness list empty. -/
theorem c22_recovery_ignores_cuts : ∃ (env : Env) (U : Event → Prop) (n n' : Node) (e : Event) (ss : List Sig)
    (k k1 : Kever), NoColl U ∧ Reached env U n ∧ U e ∧ Enters env n e ss [] none false false n' ∧ e.ilk = .rot ∧
    n.kevers e.pre = some k ∧ n'.kevers e.pre = some k1 ∧ k.wits = [] ∧ e.adds = [901] ∧ k1.wits = [] := by
  obtain ⟨r1, r2, r3, r4⟩ := Demo6.result
  match hk : (Demo.node.run Demo.env [Demo.recv Demo.icp 101, Demo.recv Demo.ixn1 101]).kevers 1,
      hk1 : ((Demo.node.run Demo.env [Demo.recv Demo.icp 101, Demo.recv Demo.ixn1 101]).processEvent Demo.env Demo6.rot
      [Demo.sig Demo6.rot 102 0] [] none false false).1.kevers 1 with
  | none, _ => rw [hk] at r1; simp at r1
  | some k, none => rw [hk1] at r4; simp at r4
  | some k, some k1 =>
    rw [hk] at r1; rw [hk1] at r4; simp at r1 r4
    refine ⟨Demo.env, _, _, _, Demo6.rot, [Demo.sig Demo6.rot 102 0], k, k1, Demo6.noColl, Demo6.reached, by simp, ⟨rfl, ?_⟩,
      rfl, hk, hk1, r1.2, rfl, r4⟩
    rw [show Demo6.rot.pre = 1 from rfl, r2, r3]; simp

end Verif.Kel
