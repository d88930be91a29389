import Verif.Kel.Keys
import Verif.Kel.Demo

/-! # Properties C16, C17, C18, C23, C24, C27, C28, C48: the logs -/

namespace Verif.Kel

open Verif.Thold (Thold)

/-- `log` is the current key event log of `p`: at each number the last event stored there, the first an inception, each later
one a rotation or interaction naming the digest of the one before it. -/
structure IsLog (db : Db) (p : Id) (log : List Event) : Prop where
  at' : ∀ i x, log[i]? = some x → (db.kels p i).getLast? = some x.said ∧ db.evts p x.said = some x ∧ x.pre = p ∧ x.sn = i
  first : ∃ x, log[0]? = some x ∧ (x.ilk = .icp ∨ x.ilk = .dip)
  link : ∀ i x y, log[i]? = some x → log[i + 1]? = some y →
    y.prior = x.said ∧ (y.ilk = .rot ∨ y.ilk = .drt ∨ y.ilk = .ixn)

theorem chain_list {db : Db} {p : Id} {k : Kever} (hc : Chain db p k) :
    ∀ m, m ≤ k.sn → ∃ log : List Event, log.length = m + 1 ∧ ∀ i x, log[i]? = some x → LinkAt db p k i x := by
  intro m
  induction m with
  | zero =>
    intro h
    obtain ⟨x, hx⟩ := hc.all 0 h
    refine ⟨[x], rfl, ?_⟩
    intro i y hy
    match i with
    | 0 => simp at hy; subst hy; exact hx
    | i + 1 => simp at hy
  | succ m ih =>
    intro h
    obtain ⟨log, h1, h2⟩ := ih (by omega)
    obtain ⟨x, hx⟩ := hc.all (m + 1) h
    refine ⟨log ++ [x], by simp [h1], ?_⟩
    intro i y hy
    by_cases hi : i < log.length
    · rw [List.getElem?_append_left hi] at hy; exact h2 i y hy
    · rw [List.getElem?_append_right (by omega)] at hy
      have : i - log.length = 0 := by
        match hz : i - log.length with
        | 0 => rfl
        | j + 1 => rw [hz] at hy; simp at hy
      rw [this] at hy
      simp at hy; subst hy
      rw [show i = m + 1 by omega]; exact hx

theorem chain_isLog {U : Event → Prop} {n : Node} {p : Id} {k : Kever} (hu : EvtU U n) (hc : Chain n.db p k) :
    ∃ log, IsLog n.db p log ∧ log.length = k.sn + 1 ∧ log.getLast? = some k.serder := by
  obtain ⟨log, h1, h2⟩ := chain_list hc k.sn (Nat.le_refl _)
  refine ⟨log, ⟨?_, ?_, ?_⟩, h1, ?_⟩
  · intro i x hx
    have := h2 i x hx
    exact ⟨this.last, this.evt, (hu _ _ _ this.evt).1, this.sn⟩
  · have : log[0]? = some (log[0]'(by omega)) := List.getElem?_eq_getElem _
    exact ⟨_, this, (h2 _ _ this).zero rfl⟩
  · intro i x y hx hy
    have h3 := (h2 _ _ hy).link i rfl
    have h4 := (h2 _ _ hx).last
    rw [h3.2] at h4; injection h4 with h4
    exact ⟨h4, h3.1⟩
  · have hl : log[k.sn]? = some (log[k.sn]'(by omega)) := List.getElem?_eq_getElem _
    rw [List.getLast?_eq_getElem?, h1, show k.sn + 1 - 1 = k.sn by omega, hl, (h2 _ _ hl).tip rfl]

/-- **C16, histories without delegated rotations.** The current log of every identifier is a digest-linked chain ending in the
event of its key state. -/
theorem c16_chain_nondelegated {env : Env} {U : Event → Prop} (hnc : NoColl U) (hnd : NoDrt U) {n : Node}
    (h : Reached env U n) (p : Id) (k : Kever) (hk : n.kevers p = some k) :
    ∃ log, IsLog n.db p log ∧ log.length = k.sn + 1 ∧ log.getLast? = some k.serder :=
  chain_isLog h.evtU (h.live hnc hnd p k hk).chain

/-- **C16, all histories**, for identifiers none of whose events was first seen twice. Missing: identifiers whose first-seen log
has a repetition, for which the statement fails (`c16_chain_broken`). -/
theorem c16_chain_partial {env : Env} {U : Event → Prop} (hnc : NoColl U) {n : Node}
    (h : Reached env U n) (p : Id) (k : Kever) (hk : n.kevers p = some k) (hn : (n.db.fels p).Nodup) :
    ∃ log, IsLog n.db p log ∧ log.length = k.sn + 1 ∧ log.getLast? = some k.serder :=
  chain_isLog h.evtU (h.chain hnc p k hk hn)

example : ∃ log, IsLog (Demo.node.run Demo.env Demo.hist).db 1 log ∧ log.length = 3 := by
  have hk : ∃ k, (Demo.node.run Demo.env Demo.hist).kevers 1 = some k ∧ k.sn = 2 := by
    have := Demo.result.2.2.2.2
    match hk : (Demo.node.run Demo.env Demo.hist).kevers 1 with
    | none => rw [hk] at this; simp at this
    | some k => rw [hk] at this; simp at this; exact ⟨k, rfl, this.1⟩
  obtain ⟨k, hk, hs⟩ := hk
  obtain ⟨log, h1, h2, _⟩ := c16_chain_nondelegated Demo.noColl Demo.noDrt Demo.reached 1 k hk
  exact ⟨log, h1, by omega⟩

/-! ## Delegated rotations on a non-delegated identifier -/

namespace Demo2

/-- Two different `drt` events at number 1, both signed by the next key 102 and both committing to it again. -/
def drtA : Event := { Demo.icp with ilk := .drt, sn := 1, said := 31, prior := 10, keys := [102], ndigs := [602] }
def drtB : Event := { Demo.icp with ilk := .drt, sn := 1, said := 32, prior := 10, keys := [102], ndigs := [602] }
/-- Interaction after the first of them. -/
def ixnC : Event := { Demo.icp with ilk := .ixn, sn := 2, said := 33, prior := 31, keys := [], ndigs := [] }

def hist : List Inp :=
  [Demo.recv Demo.icp 101, Demo.recv drtA 102, Demo.recv drtB 102, Demo.recv drtA 102, Demo.recv ixnC 102]

def U : Event → Prop := fun e => e ∈ [Demo.icp, drtA, drtB, ixnC]

theorem noColl : NoColl U := by
  have h : ∀ x ∈ [Demo.icp, drtA, drtB, ixnC], ∀ y ∈ [Demo.icp, drtA, drtB, ixnC], x.said = y.said → x = y := by
    decide +kernel
  exact fun x y hx hy => h x hx y hy

theorem delivers : Delivers U hist := by
  intro i hi e he
  simp only [hist, Demo.recv, List.mem_cons, List.not_mem_nil, or_false] at hi
  rcases hi with rfl | rfl | rfl | rfl | rfl <;> simp [Inp.delivers] at he <;> subst he <;> simp [U]

theorem reached : Reached Demo.env U (Demo.node.run Demo.env hist) := ⟨[], [], fun _ => none, hist, delivers, rfl⟩

theorem result :
    (Demo.node.run Demo.env hist).db.fels 1 = [10, 31, 32, 31, 33] ∧
    (Demo.node.run Demo.env hist).db.kels 1 1 = [31, 32] ∧ (Demo.node.run Demo.env hist).db.kels 1 2 = [33] ∧
    (Demo.node.run Demo.env hist).db.evts 1 33 = some ixnC ∧
    ((Demo.node.run Demo.env hist).kevers 1).map (fun k => k.sn) = some 2 := by decide +kernel

end Demo2

/-- **C16 fails in general**: a history of remote messages of one non-delegated identifier after which its log is not a chain. -/
theorem c16_chain_broken : ∃ (env : Env) (U : Event → Prop) (n : Node) (p : Id) (k : Kever), NoColl U ∧ Reached env U n ∧
    n.kevers p = some k ∧ ¬ ∃ log, IsLog n.db p log ∧ log.length = k.sn + 1 := by
  obtain ⟨_, r1, r2, r3, r4⟩ := Demo2.result
  match hk : (Demo.node.run Demo.env Demo2.hist).kevers 1 with
  | none => rw [hk] at r4; simp at r4
  | some k =>
    refine ⟨Demo.env, Demo2.U, _, 1, k, Demo2.noColl, Demo2.reached, hk, ?_⟩
    rintro ⟨log, h, hl⟩
    have hs : k.sn = 2 := by rw [hk] at r4; simpa using r4
    have e1 : log[1]? = some (log[1]'(by omega)) := List.getElem?_eq_getElem _
    have e2 : log[2]? = some (log[2]'(by omega)) := List.getElem?_eq_getElem _
    have a1 := (h.at' _ _ e1).1
    have a2 := h.at' _ _ e2
    have a3 := (h.link _ _ _ e1 e2).1
    rw [r1] at a1; simp at a1
    have a4 := a2.1
    rw [r2] at a4; simp at a4
    have a5 := a2.2.1
    rw [← a4, r3] at a5; injection a5 with a5
    rw [← a5, ← a1] at a3
    exact absurd a3 (by decide)

/-! ## C17 -/

/-- **C17.** Processing one message changes no first-seen log except that of the event's identifier, to which it appends at
most the event's digest. -/
theorem c17_one_step {env : Env} {U : Event → Prop} {n : Node} (h : Reached env U n) (e : Event) (ss ws : List Sig)
    (couple : Option Couple) (eager isLocal : Bool) :
    (∀ p, p ≠ e.pre → (n.processEvent env e ss ws couple eager isLocal).1.db.fels p = n.db.fels p) ∧
    ((n.processEvent env e ss ws couple eager isLocal).1.db.fels e.pre = n.db.fels e.pre ∨
     (n.processEvent env e ss ws couple eager isLocal).1.db.fels e.pre = n.db.fels e.pre ++ [e.said]) := by
  rcases processEvent_cases env n e ss ws couple eager isLocal h.evtU.ok with g | ⟨_, k1, v, w, hk1, g, ha⟩
  · exact ⟨fun p _ => by rw [g.db.fels], .inl (by rw [g.db.fels])⟩
  · refine ⟨fun p hp => ?_, .inr ?_⟩
    · rw [g.db.fels]; simp [upd, hp]
    · rw [g.db.fels]; simp [upd]

theorem steps_fels {env : Env} {U : Event → Prop} {a b : Node} (hu : EvtU U a) (g : Steps env U a b) (p : Id) :
    ∃ l, b.db.fels p = a.db.fels p ++ l := by
  induction g with
  | refl => exact ⟨[], by simp⟩
  | tail hs g ih =>
    obtain ⟨l, ih⟩ := ih
    have hu' := hu.steps hs
    cases g with
    | core g => exact ⟨l, by rw [g.fels]; exact ih⟩
    | event e ss ws c eager isLocal he =>
      rcases processEvent_cases env _ e ss ws c eager isLocal hu'.ok with g | ⟨_, k1, v, w, hk1, g, ha⟩
      · exact ⟨l, by rw [g.db.fels]; exact ih⟩
      · rw [g.db.fels]
        by_cases hp : p = e.pre
        · subst hp; exact ⟨l ++ [e.said], by simp [upd, ih]⟩
        · exact ⟨l, by simp [upd, hp, ih]⟩

/-- **C17.** Whatever happens later, every first-seen log keeps all its entries, in place. -/
theorem c17_append_only {env : Env} {U : Event → Prop} {n : Node} (h : Reached env U n) (h' : List Inp)
    (hd : Delivers U h') (p : Id) : ∃ l, (n.run env h').db.fels p = n.db.fels p ++ l :=
  steps_fels h.evtU (run_steps env U n h' h.evtU hd) p

/-- First-seen numbers point into the log. -/
def FonInv (n : Node) : Prop :=
  (∀ p d i, n.db.fons p d = some i → (n.db.fels p)[i]? = some d) ∧ ∀ p d, d ∈ n.db.fels p → ∃ i, n.db.fons p d = some i

theorem FonInv.micro {env : Env} {U : Event → Prop} {a b : Node} (h : FonInv a) (hu : EvtU U a)
    (g : Micro env U a b) : FonInv b := by
  cases g with
  | core g => unfold FonInv; rw [g.fons, g.fels]; exact h
  | event e ss ws c eager isLocal he =>
    rcases processEvent_cases env a e ss ws c eager isLocal hu.ok with g | ⟨_, k1, v, w, hk1, g, ha⟩
    · unfold FonInv; rw [g.db.fons, g.db.fels]; exact h
    · unfold FonInv; rw [g.db.fons, g.db.fels]
      refine ⟨?_, ?_⟩
      · intro p d i hi
        unfold upd2 at hi
        split at hi
        · rename_i hp
          injection hi with hi; subst hi
          simp [upd, hp.1, hp.2]
        · have := h.1 p d i hi
          unfold upd
          split
          · rename_i hp; subst hp
            obtain ⟨hlt, hv⟩ := List.getElem?_eq_some_iff.1 this
            rw [List.getElem?_append_left hlt]; exact this
          · exact this
      · intro p d hd
        unfold upd2
        split
        · exact ⟨_, rfl⟩
        · rename_i hne
          unfold upd at hd
          split at hd
          · rename_i hp; subst hp
            rw [List.mem_append, List.mem_singleton] at hd
            rcases hd with hd | hd
            · exact h.2 _ _ hd
            · exact absurd ⟨rfl, hd⟩ hne
          · exact h.2 _ _ hd

theorem FonInv.steps {env : Env} {U : Event → Prop} {a b : Node} (h : FonInv a) (hu : EvtU U a) (g : Steps env U a b) :
    FonInv b := by
  induction g with
  | refl => exact h
  | tail hs g ih => exact ih.micro (hu.steps hs) g

/-- **C17.** The first-seen number recorded for an event is its place in the first-seen log, every event of the log has one, and
the number in the key state is that of the last event of the log. -/
theorem c17_ordinals {env : Env} {U : Event → Prop} (hnc : NoColl U) {n : Node} (h : Reached env U n) :
    (∀ p d i, n.db.fons p d = some i → (n.db.fels p)[i]? = some d) ∧
    (∀ p d, d ∈ n.db.fels p → ∃ i, n.db.fons p d = some i) ∧
    (∀ p k, n.kevers p = some k → k.fn + 1 = (n.db.fels p).length ∧ (n.db.fels p)[k.fn]? = some k.serder.said) := by
  obtain ⟨p, g, m, hs⟩ := h.steps
  have h0 : FonInv (Node.start p g m) := ⟨fun p d i h => absurd h (by simp [Node.start, Db.empty]),
    fun p d h => absurd h (by simp [Node.start, Db.empty])⟩
  have hf := h0.steps (evtU_start U p g m) hs
  exact ⟨hf.1, hf.2, fun p k hk => ⟨(h.keys hnc p k hk).fn.2, (h.keys hnc p k hk).fn.1⟩⟩

example : (Demo.node.run Demo.env Demo.hist).db.fons 1 21 = some 3 := by decide +kernel

/-! ## C18 -/

/-- **C18.** Without delegated rotations no event is first seen twice. -/
theorem c18_once {env : Env} {U : Event → Prop} (hnc : NoColl U) (hnd : NoDrt U) {n : Node} (h : Reached env U n) (p : Id) :
    (n.db.fels p).Nodup := by
  match hk : n.kevers p with
  | none => rw [((h.inv hnc).fresh p hk).2]; simp
  | some k => exact (h.live hnc hnd p k hk).nodup

/-- The restriction in C18 is needed: delegated rotations can be first seen twice, even on a non-delegated identifier. -/
theorem c18_twice_with_drt : ∃ (env : Env) (U : Event → Prop) (n : Node) (p : Id), NoColl U ∧ Reached env U n ∧
    ¬ (n.db.fels p).Nodup := by
  refine ⟨Demo.env, Demo2.U, _, 1, Demo2.noColl, Demo2.reached, ?_⟩
  rw [Demo2.result.1]; decide

example : ((Demo.node.run Demo.env Demo.hist).db.fels 1).Nodup := c18_once Demo.noColl Demo.noDrt Demo.reached 1

/-! ## C23 -/

/-- **C23.** A refused event changes no key event log, first-seen log or key state of any identifier, stored or in memory. -/
theorem c23_refused {env : Env} {U : Event → Prop} {n : Node} (h : Reached env U n) (e : Event) (ss ws : List Sig)
    (couple : Option Couple) (eager isLocal : Bool) (x : Exn)
    (hx : (n.processEvent env e ss ws couple eager isLocal).2 = .error x) :
    LogsEq n (n.processEvent env e ss ws couple eager isLocal).1 := by
  rcases processEvent_cases env n e ss ws couple eager isLocal h.evtU.ok with g | ⟨h2, _⟩
  · exact ⟨g.db.kels, g.db.fels, g.db.fons, g.db.states, g.kevers⟩
  · rw [h2] at hx; exact absurd hx (by simp)

/-- **C23, converse.** Whatever changes a log or key state went through without error, and wrote the event at its number, at the
end of the first-seen log, and its key state. -/
theorem c23_changed {env : Env} {U : Event → Prop} {n : Node} (h : Reached env U n) (e : Event) (ss ws : List Sig)
    (couple : Option Couple) (eager isLocal : Bool)
    (hx : ¬ LogsEq n (n.processEvent env e ss ws couple eager isLocal).1) :
    (n.processEvent env e ss ws couple eager isLocal).2 = .ok () ∧
    e.said ∈ (n.processEvent env e ss ws couple eager isLocal).1.db.kels e.pre e.sn ∧
    (n.processEvent env e ss ws couple eager isLocal).1.db.fels e.pre = n.db.fels e.pre ++ [e.said] ∧
    ∃ k, (n.processEvent env e ss ws couple eager isLocal).1.kevers e.pre = some k ∧ k.serder = e ∧ k.sn = e.sn ∧
      (n.processEvent env e ss ws couple eager isLocal).1.db.states e.pre = some k := by
  rcases processEvent_cases env n e ss ws couple eager isLocal h.evtU.ok with g | ⟨h2, k1, v, w, hk1, g, ha⟩
  · exact absurd ⟨g.db.kels, g.db.fels, g.db.fons, g.db.states, g.kevers⟩ hx
  · have hk : k1.serder = e ∧ k1.sn = e.sn := by
      rcases ha with ⟨ha, _⟩ | ⟨k, ha⟩ | ⟨k, ha, _⟩
      · obtain ⟨k, hk, _, _, h⟩ := ha.inc
        obtain ⟨_, _, _, _, _, h'⟩ := incept_eq env e k hk
        rw [h, h']; exact ⟨rfl, rfl⟩
      · obtain ⟨_, _, _, _, _, h⟩ := ha.rot; rw [h]; exact ⟨rfl, rfl⟩
      · obtain ⟨_, _, h⟩ := ha.val; rw [h]; exact ⟨rfl, rfl⟩
    refine ⟨h2, ?_, ?_, k1, ?_, hk.1, hk.2, ?_⟩
    · rw [g.db.kels]; simp only [upd2, and_self, if_true]; exact (mem_ioAdd _ _ _).2 (.inr rfl)
    · rw [g.db.fels]; simp [upd]
    · rw [g.kevers]; simp [upd]
    · rw [g.db.states, hk1]; simp [upd]

example : ∃ x, ((Demo.node.run Demo.env Demo.hist).processEvent Demo.env Demo.ixn2 [Demo.sig Demo.ixn2 101 0] [] none false
    false).2 = .error x := ⟨.attribute, by decide +kernel⟩

/-! ## C24 -/

/-- **C24, histories without delegated rotations.** An event accepted at a number already taken is a rotation, and every event it
replaces in the current log is an interaction. Missing: histories with `drt` events (`c24_rotation_superseded`). -/
theorem c24_recovery_partial {env : Env} {U : Event → Prop} (hnc : NoColl U) (hnd : NoDrt U) {n n' : Node}
    (h : Reached env U n) {e : Event} (he : U e) {ss ws : List Sig} {couple : Option Couple} {eager isLocal : Bool}
    (hen : Enters env n e ss ws couple eager isLocal n') (k : Kever) (hk : n.kevers e.pre = some k) (hs : e.sn ≤ k.sn) :
    e.ilk = .rot ∧ ∀ i x, e.sn ≤ i → i ≤ k.sn → (n.db.kels e.pre i).getLast? = some x.said →
      n.db.evts e.pre x.said = some x → x.ilk = .ixn := by
  obtain ⟨k1, v, w, hk1, g, ha⟩ := enters_acc h.evtU.ok hen
  have hL := h.live hnc hnd e.pre k hk
  have hk' : AccRot env n e ss ws couple eager isLocal k1 k v w ∨ AccIxn env n e ss ws eager isLocal k1 k v := by
    rcases ha with ⟨ha, _⟩ | ⟨k', ha⟩ | ⟨k', ha, _⟩
    · rw [ha.fresh] at hk; exact absurd hk (by simp)
    · have := ha.known; rw [hk] at this; injection this with this; subst this; exact .inl ha
    · have := ha.known; rw [hk] at this; injection this with this; subst this; exact .inr ha
  obtain ⟨_, _, _, hilk, _, hlt, hix⟩ := accepts_prior h.evtU.ok hL.chain hk'
  have hne := hnd e he
  refine ⟨?_, ?_⟩
  · rcases hilk with h | h | h
    · exact h
    · exact absurd h hne
    · have := hix h; omega
  · intro i x h1 h2 h3 h4
    obtain ⟨y, gy⟩ := hL.chain.all i h2
    have : y = x := by
      have h5 := gy.last
      rw [h3] at h5; injection h5 with h5
      have h6 := gy.evt
      rw [← h5, h4] at h6; injection h6 with h6; exact h6.symm
    subst this
    exact gy.ixn (by have := hlt hne; omega)

/-- `x` stands in the current log of its identifier. -/
def InLog (n : Node) (x : Event) : Prop :=
  Accepted n.db x.pre x ∧ (n.db.kels x.pre x.sn).getLast? = some x.said ∧ ∃ k, n.kevers x.pre = some k ∧ x.sn ≤ k.sn

theorem est_stays {env : Env} {U : Event → Prop} (hnc : NoColl U) (hnd : NoDrt U) {a b : Node} (hi : Inv U a)
    (hl : LiveAll a) {x : Event} (hx : x.ilk.est = true) (h : InLog a x) (g : Steps env U a b) : InLog b x := by
  induction g with
  | refl => exact h
  | tail hs g ih =>
    rename_i b c
    have hi' := hi.steps hnc hs
    have hl' := hl.steps hnc hnd hi hs
    obtain ⟨h1, h2, k, hk, hsn⟩ := ih
    cases g with
    | core g =>
      refine ⟨⟨by rw [g.fels]; exact h1.1, by rw [g.evts]; exact h1.2⟩, by rw [g.kels]; exact h2, k, by rw [g.kevers]; exact hk, hsn⟩
    | event e ss ws c eager isLocal he =>
      rcases processEvent_cases env _ e ss ws c eager isLocal hi'.evt.ok with g | ⟨_, k1, v, w, hk1, g, ha⟩
      · exact ⟨⟨by rw [g.db.fels]; exact h1.1, g.db.mono _ _ _ h1.2⟩, by rw [g.db.kels]; exact h2, k,
          by rw [g.kevers]; exact hk, hsn⟩
      · by_cases hp : x.pre = e.pre
        · have hL := hl' x.pre k hk
          have hnew := Live.not_again hnc hi' he (hnd e he) (fun k hk => hl' _ k hk) ha
          have hlast := acc_last hi' g hnew
          have hk0 : b.kevers e.pre = some k := by rw [← hp]; exact hk
          have hk' : AccRot env b e ss ws c eager isLocal k1 k v w ∨ AccIxn env b e ss ws eager isLocal k1 k v := by
            rcases ha with ⟨ha, _⟩ | ⟨k', ha⟩ | ⟨k', ha, _⟩
            · rw [ha.fresh] at hk0; exact absurd hk0 (by simp)
            · have := ha.known; rw [hk0] at this; injection this with this; subst this; exact .inl ha
            · have := ha.known; rw [hk0] at this; injection this with this; subst this; exact .inr ha
          have hc : Chain b.db e.pre k := by rw [← hp]; exact hL.chain
          obtain ⟨_, _, _, _, _, hlt, _⟩ := accepts_prior hi'.evt.ok hc hk'
          have hlt := hlt (hnd e he)
          have hxl : x.sn ≤ k.lastS := by
            apply Decidable.byContradiction
            intro hgt
            obtain ⟨y, gy⟩ := hL.chain.all x.sn hsn
            have hy : y = x := by
              have h5 := gy.last
              rw [h2] at h5; injection h5 with h5
              have h6 := gy.evt
              rw [← h5, h1.2] at h6; injection h6 with h6; exact h6.symm
            subst hy
            rw [gy.ixn (by omega)] at hx
            exact absurd hx (by simp [Ilk.est])
          have hsn1 : k1.sn = e.sn := by
            rcases hk' with h | h
            · obtain ⟨_, _, _, _, _, h⟩ := h.rot; rw [h]; rfl
            · obtain ⟨_, _, h⟩ := h.val; rw [h]; rfl
          refine ⟨⟨?_, g.db.mono _ _ _ h1.2⟩, ?_, k1, ?_, by omega⟩
          · rw [g.db.fels]; simp only [upd, hp, if_true]; exact List.mem_append_left _ (by rw [← hp]; exact h1.1)
          · rw [hp, hlast, if_neg (by omega), ← hp]; exact h2
          · rw [g.kevers, hp]; simp [upd]
        · refine ⟨⟨?_, g.db.mono _ _ _ h1.2⟩, ?_, k, ?_, hsn⟩
          · rw [g.db.fels]; simp [upd, hp]; exact h1.1
          · rw [g.db.kels]; simp [upd2, hp]; exact h2
          · rw [g.kevers]; simp [upd, hp]; exact hk

/-- **C24, histories without delegated rotations.** An establishment event in the current log stays in it for ever. -/
theorem c24_est_permanent_partial {env : Env} {U : Event → Prop} (hnc : NoColl U) (hnd : NoDrt U) {n : Node}
    (h : Reached env U n) (x : Event) (hx : x.ilk.est = true) (hin : InLog n x) (h' : List Inp) (hd : Delivers U h') :
    InLog (n.run env h') x :=
  est_stays hnc hnd (h.inv hnc) (h.live hnc hnd) hx hin (run_steps env U n h' h.evtU hd)

/-- **C24 fails in general**: a `drt` event replaces the last rotation of an identifier that has no delegator. -/
theorem c24_rotation_superseded : ∃ (env : Env) (U : Event → Prop) (n : Node) (i : Inp) (x : Event) (k : Kever),
    NoColl U ∧ Reached env U n ∧ Delivers U [i] ∧ x.ilk.est = true ∧ InLog n x ∧ n.kevers x.pre = some k ∧
    k.delpre = none ∧ ¬ InLog (n.run env [i]) x := by
  have hr : Reached Demo.env Demo2.U (Demo.node.run Demo.env (Demo2.hist.take 2)) :=
    ⟨[], [], fun _ => none, _, fun i hi => Demo2.delivers i (List.mem_of_mem_take hi), rfl⟩
  have h2 : (Demo.node.run Demo.env (Demo2.hist.take 2)).db.fels 1 = [10, 31] ∧
      (Demo.node.run Demo.env (Demo2.hist.take 2)).db.evts 1 31 = some Demo2.drtA ∧
      (Demo.node.run Demo.env (Demo2.hist.take 2)).db.kels 1 1 = [31] ∧
      ((Demo.node.run Demo.env (Demo2.hist.take 2)).kevers 1).map (fun k => (k.sn, k.delpre)) = some (1, none) ∧
      ((Demo.node.run Demo.env (Demo2.hist.take 2)).run Demo.env [Demo.recv Demo2.drtB 102]).db.kels 1 1 = [31, 32] := by
    decide +kernel
  obtain ⟨a1, a2, a3, a4, a5⟩ := h2
  match hk : (Demo.node.run Demo.env (Demo2.hist.take 2)).kevers 1 with
  | none => rw [hk] at a4; simp at a4
  | some k =>
    rw [hk] at a4; simp at a4
    refine ⟨Demo.env, Demo2.U, _, Demo.recv Demo2.drtB 102, Demo2.drtA, k, Demo2.noColl, hr, ?_, rfl,
      ⟨⟨?_, a2⟩, ?_, k, hk, ?_⟩, hk, a4.2, ?_⟩
    · intro i hi e he
      simp at hi; subst hi
      exact Demo2.delivers _ (by simp [Demo2.hist]) e he
    · show 31 ∈ (Demo.node.run Demo.env (Demo2.hist.take 2)).db.fels 1; rw [a1]; simp
    · show ((Demo.node.run Demo.env (Demo2.hist.take 2)).db.kels 1 1).getLast? = some 31; rw [a3]; rfl
    · show 1 ≤ k.sn; omega
    · intro hc
      have := hc.2.1
      rw [show Demo2.drtA.pre = 1 from rfl, show Demo2.drtA.sn = 1 from rfl, a5] at this
      exact absurd this (by decide)

example : InLog (Demo.node.run Demo.env Demo.hist) Demo.rot1 := by
  refine ⟨⟨?_, by decide +kernel⟩, by decide +kernel, ?_⟩
  · show 21 ∈ (Demo.node.run Demo.env Demo.hist).db.fels 1; rw [Demo.result.1]; simp
  · have := Demo.result.2.2.2.2
    show ∃ k, (Demo.node.run Demo.env Demo.hist).kevers 1 = some k ∧ 1 ≤ k.sn
    match hk : (Demo.node.run Demo.env Demo.hist).kevers 1 with
    | none => rw [hk] at this; simp at this
    | some k => rw [hk] at this; simp at this; exact ⟨k, rfl, by omega⟩

/-! ## C27 -/

/-- **C27, histories without delegated rotations.** Delivering an accepted event again, with whatever attachments, changes no log
and no key state. Missing: `drt` events (`c27_replay_accepted`). -/
theorem c27_replay_partial {env : Env} {U : Event → Prop} (hnc : NoColl U) (hnd : NoDrt U) {n : Node}
    (h : Reached env U n) (e : Event) (he : U e) (hacc : e.said ∈ n.db.fels e.pre) (ss ws : List Sig)
    (couple : Option Couple) (eager isLocal : Bool) :
    LogsEq n (n.processEvent env e ss ws couple eager isLocal).1 := by
  rcases processEvent_cases env n e ss ws couple eager isLocal h.evtU.ok with g | ⟨_, k1, v, w, hk1, g, ha⟩
  · exact ⟨g.db.kels, g.db.fels, g.db.fons, g.db.states, g.kevers⟩
  · exact absurd hacc (Live.not_again hnc (h.inv hnc) he (hnd e he) (fun k hk => h.live hnc hnd _ k hk) ha)

/-- **C27 fails in general**: replaying an accepted `drt` event is accepted a second time and changes the key state. -/
theorem c27_replay_accepted : ∃ (env : Env) (U : Event → Prop) (n : Node) (e : Event) (ss : List Sig), NoColl U ∧
    Reached env U n ∧ U e ∧ e.said ∈ n.db.fels e.pre ∧
    ¬ LogsEq n (n.processEvent env e ss [] none false false).1 := by
  have hr : Reached Demo.env Demo2.U (Demo.node.run Demo.env (Demo2.hist.take 3)) :=
    ⟨[], [], fun _ => none, _, fun i hi => Demo2.delivers i (List.mem_of_mem_take hi), rfl⟩
  have h2 : (Demo.node.run Demo.env (Demo2.hist.take 3)).db.fels 1 = [10, 31, 32] ∧
      ((Demo.node.run Demo.env (Demo2.hist.take 3)).processEvent Demo.env Demo2.drtA [Demo.sig Demo2.drtA 102 0] [] none
        false false).1.db.fels 1 = [10, 31, 32, 31] := by decide +kernel
  refine ⟨Demo.env, Demo2.U, _, Demo2.drtA, [Demo.sig Demo2.drtA 102 0], Demo2.noColl, hr, by simp [Demo2.U], ?_, ?_⟩
  · show 31 ∈ (Demo.node.run Demo.env (Demo2.hist.take 3)).db.fels 1; rw [h2.1]; simp
  · intro hc
    have := congrFun hc.2.1 1
    rw [h2.1, h2.2] at this
    exact absurd this (by decide)

example : LogsEq (Demo.node.run Demo.env Demo.hist)
    ((Demo.node.run Demo.env Demo.hist).processEvent Demo.env Demo.rot1 [Demo.sig Demo.rot1 102 0] [] none false false).1 :=
  c27_replay_partial Demo.noColl Demo.noDrt Demo.reached Demo.rot1 (by simp [Demo.U])
    (by show 21 ∈ (Demo.node.run Demo.env Demo.hist).db.fels 1; rw [Demo.result.1]; simp) _ _ _ _ _

/-! ## C28 -/

/-- `e` is not in position to recover: neither a rotation after the last establishment event nor a delegated one at or after
it. -/
def NotRecovery (k : Kever) (e : Event) : Prop := ¬ (e.ilk = .rot ∧ k.lastS < e.sn) ∧ ¬ (e.ilk = .drt ∧ k.lastS ≤ e.sn)

/-- **C28, first part.** A different event at a taken number that is not a recovery is refused and displaces nothing. Missing: it
is not recorded as evidence, and the error is not the likely-duplicitous one (`c28_not_recorded`). -/
theorem c28_first_seen_wins_partial {env : Env} {U : Event → Prop} {n : Node} (h : Reached env U n) (e : Event)
    (k : Kever) (hk : n.kevers e.pre = some k) (hs : e.sn ≤ k.sn) (hnr : NotRecovery k e)
    (hd : (n.db.kels e.pre e.sn).getLast? ≠ some e.said) (ss ws : List Sig) (couple : Option Couple) (eager isLocal : Bool) :
    (∃ x, (n.processEvent env e ss ws couple eager isLocal).2 = .error x) ∧
    LogsEq n (n.processEvent env e ss ws couple eager isLocal).1 := by
  have : ∃ x, (n.processEvent env e ss ws couple eager isLocal).2 = .error x := by
    unfold Node.processEvent
    split
    · exact ⟨_, rfl⟩
    · rw [hk]
      simp only
      split
      · unfold Node.reIncept
        split
        · exact ⟨_, rfl⟩
        · rename_i hsn
          have hsn0 : e.sn = 0 := by simpa using hsn
          split
          · exact ⟨_, rfl⟩
          · rename_i es hes
            split
            · rename_i hsaid
              rw [hsn0] at hes
              have := fetchEst_zero n.db e.pre es h.evtU.ok hes
              rw [hsn0, this.1, hsaid] at hd
              exact absurd rfl hd
            · exact ⟨_, rfl⟩
      · rw [if_neg (by omega), if_neg]
        · unfold Node.reEvent
          rw [if_neg hd]; exact ⟨_, rfl⟩
        · rintro (h | h | h)
          · omega
          · exact hnr.1 ⟨h.1, h.2.1⟩
          · exact hnr.2 ⟨h.1, h.2.1⟩
  exact ⟨this, by obtain ⟨x, hx⟩ := this; exact c23_refused h e ss ws couple eager isLocal x hx⟩

/-- **C28, second part, negated.** For such an event (with well-formed number and identifier) the error is never the
likely-duplicitous one: the code ends in AttributeError before the escrow entry is written. -/
theorem c28_not_recorded {env : Env} {U : Event → Prop} {n : Node} (h : Reached env U n) (e : Event)
    (k : Kever) (hk : n.kevers e.pre = some k) (hs : e.sn ≤ k.sn) (hnr : NotRecovery k e) (hp : env.okPre e.pre = true)
    (hz : e.ilk = .icp ∨ e.ilk = .dip → e.sn = 0)
    (hd : (n.db.kels e.pre e.sn).getLast? ≠ some e.said) (ss ws : List Sig) (couple : Option Couple) (eager isLocal : Bool) :
    (n.processEvent env e ss ws couple eager isLocal).2 = .error .attribute := by
  unfold Node.processEvent
  rw [hp, hk]
  simp only [Bool.not_true, Bool.false_eq_true, if_false]
  split
  · rename_i hi
    have hsn0 := hz hi
    unfold Node.reIncept
    rw [if_neg (by simp [hsn0])]
    split
    · rfl
    · rename_i es hes
      split
      · rename_i hsaid
        rw [hsn0] at hes
        have := fetchEst_zero n.db e.pre es h.evtU.ok hes
        rw [hsn0, this.1, hsaid] at hd
        exact absurd rfl hd
      · rfl
  · rw [if_neg (by omega), if_neg]
    · unfold Node.reEvent
      rw [if_neg hd]
    · rintro (h | h | h)
      · omega
      · exact hnr.1 ⟨h.1, h.2.1⟩
      · exact hnr.2 ⟨h.1, h.2.1⟩

/-- A different interaction at 1 after the interactions of the demo. -/
example : ((Demo.node.run Demo.env (Demo.hist.take 5)).processEvent Demo.env { Demo.ixn1 with said := 99 }
    [Demo.sig { Demo.ixn1 with said := 99 } 101 0] [] none false false).2 = .error .attribute := by decide +kernel

/-! ## C48 -/

/-- **C48.** The key state of an identifier, in memory and stored, is that of its last accepted event and of the establishment
event authoritative for it. -/
theorem c48_key_state {env : Env} {U : Event → Prop} (hnc : NoColl U) {n : Node} (h : Reached env U n) (p : Id) (k : Kever)
    (hk : n.kevers p = some k) :
    n.db.states p = some k ∧ k.pre = p ∧
    (n.db.fels p).getLast? = some k.serder.said ∧ Accepted n.db p k.serder ∧ k.serder.sn = k.sn ∧
    ∃ a, Accepted n.db p a ∧ Authority n.db p k.serder a ∧ a.said = k.lastD ∧ a.sn = k.lastS ∧ k.keys = a.keys ∧
      k.kt = a.kt ∧ k.ndigs = a.ndigs ∧ k.nt = a.nt ∧ k.toad = a.toad := by
  have hK := h.keys hnc p k hk
  obtain ⟨a, h1, h2, h3, h4, h5, h6, h7, h8, h9, h10⟩ := hK.est
  refine ⟨by rw [(h.inv hnc).states, hk], hK.pre, ?_, hK.acc, hK.sn, a, h1, h10, h2, h3, h5, h6, h7, h8, h9⟩
  have := hK.fn
  rw [List.getLast?_eq_getElem?, ← this.2]
  exact this.1

/-- The authority of an event is determined by the log. -/
theorem authority_unique {db : Db} {p : Id} {x a b : Event} (ha : Authority db p x a) (hb : Authority db p x b) :
    a = b := by
  induction ha with
  | est h =>
    cases hb with
    | est _ => rfl
    | ixn h' => rw [h'] at h; exact absurd h (by simp [Ilk.est])
  | @ixn x y a h hp hs hy _ ih =>
    cases hb with
    | est h' => rw [h] at h'; exact absurd h' (by simp [Ilk.est])
    | @ixn _ y' _ _ hp' _ hy' hb' =>
      have : y' = y := by
        have h1 := hy.2
        have h2 := hy'.2
        rw [hp', ← hp, h1] at h2; injection h2 with h2; exact h2.symm
      subst this
      exact ih hb'

end Verif.Kel
