import Verif.Kel.Val

/-! # Key state and the log: invariants -/

namespace Verif.Kel

open Verif.Thold (Thold)

theorem Authority.mono {db db' : Db} {p : Id} {x a : Event} (h : Authority db p x a)
    (ha : ∀ y, Accepted db p y → Accepted db' p y) : Authority db' p x a := by
  induction h with
  | est h => exact .est h
  | ixn h hp hs hy _ ih => exact .ixn h hp hs (ha _ hy) ih

/-- Key state against log. -/
structure KeyOk (db : Db) (p : Id) (k : Kever) : Prop where
  pre : k.pre = p
  acc : Accepted db p k.serder
  sn : k.serder.sn = k.sn
  ilk : k.serder.ilk = k.ilk
  est : ∃ a, Accepted db p a ∧ a.said = k.lastD ∧ a.sn = k.lastS ∧ a.ilk.est = true ∧ k.keys = a.keys ∧ k.kt = a.kt ∧
    k.ndigs = a.ndigs ∧ k.nt = a.nt ∧ k.toad = a.toad ∧ Authority db p k.serder a
  wits : k.wits.Nodup
  toad : toadOk k.toad k.wits = true
  fn : (db.fels p)[k.fn]? = some k.serder.said ∧ k.fn + 1 = (db.fels p).length
  inc : ∃ x rest, db.fels p = x.said :: rest ∧ db.evts p x.said = some x ∧ (x.ilk = .icp ∨ x.ilk = .dip) ∧
    x.estOnly = k.estOnly ∧ x.doNotDelegate = k.doNotDelegate ∧ k.delpre = if x.ilk = .dip then x.delpre else none
  estOnly : k.estOnly = true → ∀ x, Accepted db p x → x.ilk.est = true
  size : Thold.size k.kt ≤ k.keys.length

theorem KeyOk.mono {db db' : Db} {p : Id} {k : Kever} (h : KeyOk db p k) (hf : db'.fels p = db.fels p)
    (he : ∀ d x, db.evts p d = some x → db'.evts p d = some x)
    (hst : ∀ d, d ∈ db.fels p → ∃ x, db.evts p d = some x) : KeyOk db' p k := by
  have ha : ∀ y, Accepted db p y → Accepted db' p y := fun y hy => ⟨by rw [hf]; exact hy.1, he _ _ hy.2⟩
  obtain ⟨a, h1, h2, h3, h4, h5, h6, h7, h8, h9, h10⟩ := h.est
  obtain ⟨x, rest, i1, i2, i3⟩ := h.inc
  refine ⟨h.pre, ha _ h.acc, h.sn, h.ilk, ⟨a, ha _ h1, h2, h3, h4, h5, h6, h7, h8, h9, h10.mono ha⟩, h.wits, h.toad, ?_,
    ⟨x, rest, by rw [hf]; exact i1, he _ _ i2, i3⟩, ?_, h.size⟩
  · rw [hf]; exact h.fn
  · intro heo x hx
    refine h.estOnly heo x ⟨by rw [← hf]; exact hx.1, ?_⟩
    obtain ⟨y, hy⟩ := hst _ (by rw [← hf]; exact hx.1)
    have := he _ _ hy
    rw [hx.2] at this; injection this with this; subst this; exact hy

theorem KeyOk.acc' {env : Env} {U : Event → Prop} (hnc : NoColl U) {n n' : Node} {e : Event} {ss ws : List Sig}
    {couple : Option Couple} {eager isLocal : Bool} {k1 : Kever} {v : Verified} {w : List Id} (hi : Inv U n) (he : U e)
    (hk1 : k1.pre = e.pre) (hc : ∀ k, n.kevers e.pre = some k → KeyOk n.db e.pre k) (g : AccN e k1 v w n n')
    (ha : Accepts env n e ss ws couple eager isLocal k1 v w) : KeyOk n'.db e.pre k1 := by
  have hev := acc_evt hnc hi.evt he g
  have hfels : n'.db.fels e.pre = n.db.fels e.pre ++ [e.said] := by rw [g.db.fels]; simp [upd]
  have hacc : ∀ y, Accepted n.db e.pre y → Accepted n'.db e.pre y := fun y hy =>
    ⟨by rw [hfels]; exact List.mem_append_left _ hy.1, g.db.mono _ _ _ hy.2⟩
  have hback : ∀ y, Accepted n'.db e.pre y → Accepted n.db e.pre y ∨ y = e := by
    intro y hy
    have h1 := hy.1
    rw [hfels, List.mem_append, List.mem_singleton] at h1
    rcases h1 with h1 | h1
    · left
      obtain ⟨z, hz⟩ := hi.stored _ _ h1
      have := g.db.mono _ _ _ hz
      rw [hy.2] at this; injection this with this; subst this; exact ⟨h1, hz⟩
    · right
      have := hy.2
      rw [h1, hev] at this; injection this with this; exact this.symm
  have hself : Accepted n'.db e.pre e := ⟨by rw [hfels]; simp, hev⟩
  rcases ha with ⟨ha, hw⟩ | ⟨k, ha⟩ | ⟨k, ha, hw⟩
  · obtain ⟨k, hk, db, hv, hk1⟩ := ha.inc
    obtain ⟨h0, hsz, hnd, htd, _, hkeq⟩ := incept_eq env e k hk
    have hest : e.ilk.est = true := by rcases ha.ilk with h | h <;> rw [h] <;> rfl
    have hemp := (hi.fresh _ ha.fresh).2
    subst hkeq
    subst hk1
    refine ⟨rfl, hself, rfl, rfl, ⟨e, hself, rfl, rfl, hest, rfl, rfl, rfl, rfl, rfl, .est hest⟩, oset_full _ hnd, htd, ?_,
      ⟨e, [], by rw [hfels, hemp]; rfl, hev, ha.ilk, rfl, rfl, rfl⟩, ?_, hsz⟩
    · rw [hfels]; simp
    · intro _ x hx
      rcases hback x hx with h | h
      · have := h.1; rw [hemp] at this; exact absurd this (by simp)
      · rw [h]; exact hest
  · obtain ⟨cuts, adds, hr, db, hv, hk1⟩ := ha.rot
    have hK := hc k ha.known
    obtain ⟨_, _, hsz, hdb, htd⟩ := rotate_ok hr
    have hest : e.ilk.est = true := by rcases ha.ilk with h | h <;> rw [h] <;> rfl
    subst hk1
    refine ⟨ha.pre.symm, hself, rfl, rfl, ⟨e, hself, rfl, rfl, hest, rfl, rfl, rfl, rfl, rfl, .est hest⟩, ?_, htd, ?_,
      ?_, ?_, hsz⟩
    · rcases deriveBacks_ok hK.wits hdb with h | h
      · show w.Nodup; rw [h.2.1]; exact hK.wits
      · exact h.2.2.2.2.2.2.2.1
    · rw [hfels]; simp [Kever.rotated]
    · obtain ⟨x, rest, i1, i2, i3⟩ := hK.inc
      exact ⟨x, rest ++ [e.said], by rw [hfels, i1]; simp, g.db.mono _ _ _ i2, i3⟩
    · intro heo x hx
      rcases hback x hx with h | h
      · exact hK.estOnly heo x h
      · rw [h]; exact hest
  · obtain ⟨db, hv, hk1⟩ := ha.val
    have hK := hc k ha.known
    subst hk1
    obtain ⟨a, h1, h2, h3, h4, h5, h6, h7, h8, h9, h10⟩ := hK.est
    refine ⟨ha.pre.symm, hself, rfl, rfl, ⟨a, hacc _ h1, h2, h3, h4, h5, h6, h7, h8, h9, ?_⟩, hK.wits, hK.toad, ?_,
      ?_, ?_, hK.size⟩
    · exact .ixn ha.ilk ha.prior (by have := hK.sn; have := ha.seq; show k.serder.sn + 1 = e.sn; omega) (hacc _ hK.acc) (h10.mono hacc)
    · rw [hfels]; simp [Kever.interacted]
    · obtain ⟨x, rest, i1, i2, i3⟩ := hK.inc
      exact ⟨x, rest ++ [e.said], by rw [hfels, i1]; simp, g.db.mono _ _ _ i2, i3⟩
    · intro heo
      exact absurd heo (by simp [Kever.interacted, ha.estOnly])

/-- Every identifier's key state fits its log. -/
def KeyInv (n : Node) : Prop := ∀ p k, n.kevers p = some k → KeyOk n.db p k

theorem KeyInv.micro {env : Env} {U : Event → Prop} (hnc : NoColl U) {a b : Node} (h : KeyInv a) (hi : Inv U a)
    (g : Micro env U a b) : KeyInv b := by
  cases g with
  | core g =>
    intro p k hk
    rw [g.kevers] at hk
    exact (h p k hk).mono (by rw [g.fels]) (fun d x hx => by rw [g.evts]; exact hx) (hi.stored p)
  | event e ss ws c eager isLocal he =>
    rcases processEvent_cases env a e ss ws c eager isLocal hi.evt.ok with g | ⟨_, k1, v, w, hk1, g, ha⟩
    · intro p k hk
      rw [g.kevers] at hk
      exact (h p k hk).mono (by rw [g.db.fels]) (fun d x hx => g.db.mono _ _ _ hx) (hi.stored p)
    · intro p k hk
      rw [g.kevers] at hk
      unfold upd at hk
      by_cases hp : p = e.pre
      · subst hp
        rw [if_pos rfl] at hk
        injection hk with hk; subst hk
        exact KeyOk.acc' hnc hi he hk1 (fun k hk => h _ k hk) g ha
      · rw [if_neg hp] at hk
        refine (h p k hk).mono ?_ (fun d x hx => g.db.mono _ _ _ hx) (hi.stored p)
        rw [g.db.fels]; simp [upd, hp]

theorem keyInv_start (p g : List Id) (m : Id → Option Id) : KeyInv (Node.start p g m) := by
  intro p k hk; exact absurd hk (by simp [Node.start])

theorem KeyInv.steps {env : Env} {U : Event → Prop} (hnc : NoColl U) {a b : Node} (h : KeyInv a) (hi : Inv U a)
    (g : Steps env U a b) : KeyInv b := by
  induction g with
  | refl => exact h
  | tail hs g ih => exact ih.micro hnc (hi.steps hnc hs) g

/-! ## Reached states -/

theorem Reached.steps {env : Env} {U : Event → Prop} {n : Node} (h : Reached env U n) :
    ∃ p g m, Steps env U (Node.start p g m) n := by
  obtain ⟨p, g, m, h, hd, rfl⟩ := h
  exact ⟨p, g, m, run_steps env U _ h (evtU_start U p g m) hd⟩

theorem Reached.evtU {env : Env} {U : Event → Prop} {n : Node} (h : Reached env U n) : EvtU U n := by
  obtain ⟨p, g, m, h⟩ := h.steps
  exact (evtU_start U p g m).steps h

theorem Reached.inv {env : Env} {U : Event → Prop} (hnc : NoColl U) {n : Node} (h : Reached env U n) : Inv U n := by
  obtain ⟨p, g, m, h⟩ := h.steps
  exact (inv_start U p g m).steps hnc h

theorem Reached.chain {env : Env} {U : Event → Prop} (hnc : NoColl U) {n : Node} (h : Reached env U n) : ChainInv n := by
  obtain ⟨p, g, m, h⟩ := h.steps
  exact (chainInv_start p g m).steps hnc (inv_start U p g m) h

theorem Reached.live {env : Env} {U : Event → Prop} (hnc : NoColl U) (hnd : NoDrt U) {n : Node} (h : Reached env U n) :
    LiveAll n := by
  obtain ⟨p, g, m, h⟩ := h.steps
  exact (liveAll_start p g m).steps hnc hnd (inv_start U p g m) h

theorem Reached.keys {env : Env} {U : Event → Prop} (hnc : NoColl U) {n : Node} (h : Reached env U n) : KeyInv n := by
  obtain ⟨p, g, m, h⟩ := h.steps
  exact (keyInv_start p g m).steps hnc (inv_start U p g m) h

theorem run_append (env : Env) (n : Node) (h h' : List Inp) : n.run env (h ++ h') = (n.run env h).run env h' := by
  simp [Node.run]

theorem Reached.run {env : Env} {U : Event → Prop} {n : Node} (h : Reached env U n) {h' : List Inp} (hd : Delivers U h') :
    Reached env U (n.run env h') := by
  obtain ⟨p, g, m, h, hh, rfl⟩ := h
  refine ⟨p, g, m, h ++ h', ?_, (run_append ..).symm⟩
  intro i hi e he
  rcases List.mem_append.1 hi with hi | hi
  · exact hh i hi e he
  · exact hd i hi e he

/-- Acceptance seen from the outside. -/
theorem enters_acc {env : Env} {n n' : Node} {e : Event} {ss ws : List Sig} {couple : Option Couple} {eager isLocal : Bool}
    (hok : EvtOk n.db) (h : Enters env n e ss ws couple eager isLocal n') :
    ∃ k1 v w, k1.pre = e.pre ∧ AccN e k1 v w n n' ∧ Accepts env n e ss ws couple eager isLocal k1 v w := by
  obtain ⟨rfl, h⟩ := h
  rcases processEvent_cases env n e ss ws couple eager isLocal hok with g | ⟨_, g⟩
  · exact absurd (by rw [g.db.fels]) h
  · exact g

/-- What was validated for an accepted event: keys, threshold, witness threshold and witnesses are those of the new state. -/
theorem accepts_valid {env : Env} {n : Node} {e : Event} {ss ws : List Sig} {couple : Option Couple} {eager isLocal : Bool}
    {k1 : Kever} {v : Verified} {w : List Id} (ha : Accepts env n e ss ws couple eager isLocal k1 v w) :
    ∃ k c, k.pre = e.pre ∧ (n.kevers e.pre = some k ∨ (n.kevers e.pre = none ∧ incept env e = .ok k)) ∧
      (e.ilk ≠ .ixn → c = couple) ∧
      Valid env n k e ss ws k1.keys k1.kt k1.toad k1.wits c eager isLocal v := by
  rcases ha with ⟨ha, hw⟩ | ⟨k, ha⟩ | ⟨k, ha, hw⟩
  · obtain ⟨k, hk, db, hv, hk1⟩ := ha.inc
    obtain ⟨_, _, _, _, _, hkeq⟩ := incept_eq env e k hk
    refine ⟨k, couple, by rw [hkeq], .inr ⟨ha.fresh, hk⟩, fun _ => rfl, ?_⟩
    have := val_ok hv
    rw [hk1, hkeq]; rw [hkeq] at this; exact this
  · obtain ⟨cuts, adds, hr, db, hv, hk1⟩ := ha.rot
    refine ⟨k, couple, ha.pre.symm, .inl ha.known, fun _ => rfl, ?_⟩
    rw [hk1]; exact val_ok hv
  · obtain ⟨db, hv, hk1⟩ := ha.val
    refine ⟨k, none, ha.pre.symm, .inl ha.known, fun h => absurd ha.ilk h, ?_⟩
    rw [hk1]; exact val_ok hv

/-! ## Every entry of a first-seen log was put there by processing its event -/

/-- Passes as retries. -/
theorem escPass_run (env : Env) (n : Node) (kind : Esc) (stale : Dig → Bool) :
    n.escPass env kind stale = n.run env ((n.db.entries kind).map (Inp.retry kind stale)) := by
  unfold Node.escPass Node.run
  rw [List.foldl_map]; rfl

/-- Effect of a small input on the first-seen logs. -/
theorem escStep_fels {env : Env} {U : Event → Prop} {n : Node} (hu : EvtU U n) (kind : Esc) (stale : Dig → Bool)
    (x : Id × Nat × Dig) :
    (n.escStep env kind stale x).db.fels = n.db.fels ∨
    ∃ e ss ws c eager isLocal n', U e ∧ n' = (n.processEvent env e ss ws c eager isLocal).1 ∧
      (n.escStep env kind stale x).db.fels = n'.db.fels := by
  obtain ⟨pre, sn, d⟩ := x
  have hd : ∀ (m : Node) (ok : Bool),
      (Esc.cleanUde (m.db.remEntry (pre, sn, d) kind) pre d ok kind).fels = m.db.fels :=
    fun m ok => (coreEq_rem m (pre, sn, d) kind pre d ok).fels
  unfold Node.escStep
  simp only
  split
  · left; exact hd n false
  · split
    · left; exact hd n false
    · split
      · left; exact hd n false
      · rename_i isLocal _ _ _ e he
        split
        · left; exact hd n false
        · split
          · left; rfl
          · right
            refine ⟨e, n.db.sigs pre d, n.db.wigs pre d, (Esc.couple n.db pre d kind).1, (Esc.couple n.db pre d kind).2, isLocal,
              _, (hu _ _ _ he).2.2, rfl, ?_⟩
            split
            · rename_i n' h; rw [h]; exact hd n' true
            · rename_i n' y h
              rw [h]
              split
              · rfl
              · exact hd n' false

/-- Where a first-seen entry comes from. -/
theorem origin {env : Env} {U : Event → Prop} {n : Node} (h : Reached env U n) (p : Id) (d : Dig) (hd : d ∈ n.db.fels p) :
    ∃ m e ss ws c eager isLocal m', Reached env U m ∧ U e ∧ e.pre = p ∧ e.said = d ∧
      Enters env m e ss ws c eager isLocal m' ∧ ∃ l, n.db.fels p = m'.db.fels p ++ l := by
  obtain ⟨pp, gg, mm, h, hdel, rfl⟩ := h
  -- the claim for continuing a run by small inputs
  have key : ∀ (h : List Inp) (m : Node), Reached env U m → Delivers U h →
      ∃ l, (m.run env h).db.fels p = m.db.fels p ++ l ∧
      (d ∈ l → ∃ m2 e ss ws c eager isLocal m', Reached env U m2 ∧ U e ∧ e.pre = p ∧ e.said = d ∧
        Enters env m2 e ss ws c eager isLocal m' ∧ ∃ l, (m.run env h).db.fels p = m'.db.fels p ++ l) := by
    have ev : ∀ (m : Node) (e : Event) (ss ws : List Sig) (c : Option Couple) (eager isLocal : Bool), Reached env U m → U e →
        ∃ l, (m.processEvent env e ss ws c eager isLocal).1.db.fels p = m.db.fels p ++ l ∧
        (d ∈ l → ∃ m2 e ss ws c eager isLocal m', Reached env U m2 ∧ U e ∧ e.pre = p ∧ e.said = d ∧
          Enters env m2 e ss ws c eager isLocal m' ∧ m'.db.fels p = m.db.fels p ++ l) := by
      intro m e ss ws c eager isLocal hm he
      rcases processEvent_cases env m e ss ws c eager isLocal hm.evtU.ok with g | ⟨_, k1, v, w, hk1, g, ha⟩
      · exact ⟨[], by rw [g.db.fels]; simp, fun h => absurd h (by simp)⟩
      · by_cases hp : p = e.pre
        · subst hp
          have hf : (m.processEvent env e ss ws c eager isLocal).1.db.fels e.pre = m.db.fels e.pre ++ [e.said] := by
            rw [g.db.fels]; simp [upd]
          refine ⟨[e.said], hf, fun h => ?_⟩
          simp at h; subst h
          refine ⟨m, e, ss, ws, c, eager, isLocal, _, hm, he, rfl, rfl, ⟨rfl, ?_⟩, hf⟩
          rw [hf]; intro hc
          have := congrArg List.length hc
          simp at this
        · exact ⟨[], by rw [g.db.fels]; simp [upd, hp], fun h => absurd h (by simp)⟩
    -- one small input
    have small : ∀ (i : Inp) (m : Node), Reached env U m → (∀ e, i.delivers = some e → U e) →
        (∀ kind stale, i ≠ .pass kind stale) →
        ∃ l, (m.step env i).db.fels p = m.db.fels p ++ l ∧
        (d ∈ l → ∃ m2 e ss ws c eager isLocal m', Reached env U m2 ∧ U e ∧ e.pre = p ∧ e.said = d ∧
          Enters env m2 e ss ws c eager isLocal m' ∧ m'.db.fels p = m.db.fels p ++ l) := by
      intro i m hm hi hnp
      cases i with
      | event e ss ws c eager isLocal => exact ev m e ss ws c eager isLocal hm (hi e rfl)
      | pass kind stale => exact absurd rfl (hnp kind stale)
      | retry kind stale x =>
        rcases escStep_fels (env := env) hm.evtU kind stale x with h | ⟨e, ss, ws, c, eager, isLocal, n', he, hn', h⟩
        · exact ⟨[], by show (m.escStep env kind stale x).db.fels p = _; rw [h]; simp, fun h => absurd h (by simp)⟩
        · obtain ⟨l, h1, h2⟩ := ev m e ss ws c eager isLocal hm he
          exact ⟨l, by show (m.escStep env kind stale x).db.fels p = _; rw [h, hn']; exact h1, h2⟩
      | config p g mm => exact ⟨[], by simp [Node.step], fun h => absurd h (by simp)⟩
      | receipts p d ws => exact ⟨[], by simp [Node.step], fun h => absurd h (by simp)⟩
      | approve p d c => exact ⟨[], by simp [Node.step], fun h => absurd h (by simp)⟩
    have smalls : ∀ (h : List Inp) (m : Node), Reached env U m → Delivers U h →
        (∀ i ∈ h, ∀ kind stale, i ≠ .pass kind stale) →
        ∃ l, (m.run env h).db.fels p = m.db.fels p ++ l ∧
        (d ∈ l → ∃ m2 e ss ws c eager isLocal m', Reached env U m2 ∧ U e ∧ e.pre = p ∧ e.said = d ∧
          Enters env m2 e ss ws c eager isLocal m' ∧ ∃ l, (m.run env h).db.fels p = m'.db.fels p ++ l) := by
      intro h
      induction h with
      | nil => intro m _ _ _; exact ⟨[], by simp [Node.run], fun h => absurd h (by simp)⟩
      | cons i h ih =>
        intro m hm hdl hnp
        have hi : ∀ e, i.delivers = some e → U e := fun e he => hdl i (by simp) e he
        obtain ⟨l1, h1, h2⟩ := small i m hm hi (hnp i (by simp))
        have hm1 : Reached env U (m.step env i) := by
          have := hm.run (h' := [i]) (by intro j hj e he; simp at hj; subst hj; exact hi e he)
          simpa [Node.run] using this
        obtain ⟨l2, h3, h4⟩ := ih (m.step env i) hm1 (fun j hj => hdl j (by simp [hj])) (fun j hj => hnp j (by simp [hj]))
        have hrun : m.run env (i :: h) = (m.step env i).run env h := rfl
        refine ⟨l1 ++ l2, by rw [hrun, h3, h1]; simp, fun hm => ?_⟩
        rcases List.mem_append.1 hm with hm | hm
        · obtain ⟨m2, e, ss, ws, c, eager, isLocal, m', a1, a2, a3, a4, a5, a6⟩ := h2 hm
          exact ⟨m2, e, ss, ws, c, eager, isLocal, m', a1, a2, a3, a4, a5, l2, by rw [hrun, h3, h1, a6]⟩
        · obtain ⟨m2, e, ss, ws, c, eager, isLocal, m', a1, a2, a3, a4, a5, l, a6⟩ := h4 hm
          exact ⟨m2, e, ss, ws, c, eager, isLocal, m', a1, a2, a3, a4, a5, l, by rw [hrun, a6]⟩
    intro h
    induction h with
    | nil => intro m _ _; exact ⟨[], by simp [Node.run], fun h => absurd h (by simp)⟩
    | cons i h ih =>
      intro m hm hdl
      have hi : ∀ e, i.delivers = some e → U e := fun e he => hdl i (by simp) e he
      have hm1 : Reached env U (m.step env i) := by
        have := hm.run (h' := [i]) (by intro j hj e he; simp at hj; subst hj; exact hi e he)
        simpa [Node.run] using this
      have one : ∃ l, (m.step env i).db.fels p = m.db.fels p ++ l ∧
          (d ∈ l → ∃ m2 e ss ws c eager isLocal m', Reached env U m2 ∧ U e ∧ e.pre = p ∧ e.said = d ∧
            Enters env m2 e ss ws c eager isLocal m' ∧ ∃ l, (m.step env i).db.fels p = m'.db.fels p ++ l) := by
        by_cases hp : ∃ kind stale, i = .pass kind stale
        · obtain ⟨kind, stale, rfl⟩ := hp
          show ∃ l, (m.escPass env kind stale).db.fels p = _ ∧ _
          have := smalls ((m.db.entries kind).map (Inp.retry kind stale)) m hm ?_ ?_
          · rw [← escPass_run] at this; exact this
          · intro j hj e he
            obtain ⟨x, _, rfl⟩ := List.mem_map.1 hj
            exact absurd he (by simp [Inp.delivers])
          · intro j hj kind' stale' hc
            obtain ⟨x, _, rfl⟩ := List.mem_map.1 hj
            exact absurd hc (by simp)
        · have := smalls [i] m hm (by intro j hj e he; simp at hj; subst hj; exact hi e he)
            (by intro j hj kind stale hc; simp at hj; subst hj; exact hp ⟨kind, stale, hc⟩)
          exact this
      obtain ⟨l1, h1, h2⟩ := one
      obtain ⟨l2, h3, h4⟩ := ih (m.step env i) hm1 (fun j hj => hdl j (by simp [hj]))
      have hrun : m.run env (i :: h) = (m.step env i).run env h := rfl
      refine ⟨l1 ++ l2, by rw [hrun, h3, h1]; simp, fun hm => ?_⟩
      rcases List.mem_append.1 hm with hm | hm
      · obtain ⟨m2, e, ss, ws, c, eager, isLocal, m', a1, a2, a3, a4, a5, l, a6⟩ := h2 hm
        exact ⟨m2, e, ss, ws, c, eager, isLocal, m', a1, a2, a3, a4, a5, l ++ l2, by rw [hrun, h3, a6]; simp⟩
      · obtain ⟨m2, e, ss, ws, c, eager, isLocal, m', a1, a2, a3, a4, a5, l, a6⟩ := h4 hm
        exact ⟨m2, e, ss, ws, c, eager, isLocal, m', a1, a2, a3, a4, a5, l, by rw [hrun, a6]⟩
  obtain ⟨l, h1, h2⟩ := key h (Node.start pp gg mm) ⟨pp, gg, mm, [], by intro i hi; simp at hi, rfl⟩ hdel
  have h0 : (Node.start pp gg mm).db.fels p = [] := rfl
  rw [h0, List.nil_append] at h1
  rw [h1] at hd
  exact h2 hd

end Verif.Kel
