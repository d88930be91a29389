import Verif.Kel.Core
import Verif.Kel.Spec

/-! # Histories as sequences of small steps; basic invariant -/

namespace Verif.Kel

open Verif.Thold (Thold)

/-- Equal logs, events, key states; anything else may differ. -/
structure CoreEq (n n' : Node) : Prop where
  sigs : n'.db.sigs = n.db.sigs
  wigs : ∀ p d s, s ∈ n.db.wigs p d → s ∈ n'.db.wigs p d
  wits : n'.db.wits = n.db.wits
  kels : n'.db.kels = n.db.kels
  fels : n'.db.fels = n.db.fels
  fons : n'.db.fons = n.db.fons
  states : n'.db.states = n.db.states
  evts : n'.db.evts = n.db.evts
  kevers : n'.kevers = n.kevers

/-- Small steps: processing one event of `U`, or a change outside the core. -/
inductive Micro (env : Env) (U : Event → Prop) : Node → Node → Prop
  | core {n n' : Node} (h : CoreEq n n') : Micro env U n n'
  | event (n : Node) (e : Event) (ss ws : List Sig) (c : Option Couple) (eager isLocal : Bool) (h : U e) :
      Micro env U n (n.processEvent env e ss ws c eager isLocal).1

/-- Sequences of small steps. -/
inductive Steps (env : Env) (U : Event → Prop) : Node → Node → Prop
  | refl (n : Node) : Steps env U n n
  | tail {a b c : Node} (h : Steps env U a b) (g : Micro env U b c) : Steps env U a c

theorem Steps.trans {env : Env} {U : Event → Prop} {a b c : Node} (h : Steps env U a b) (g : Steps env U b c) :
    Steps env U a c := by
  induction g with
  | refl => exact h
  | tail _ g ih => exact ih.tail g

/-- Stored events are stored under their own identifier and digest, and come from `U`. -/
def EvtU (U : Event → Prop) (n : Node) : Prop := ∀ p d x, n.db.evts p d = some x → x.pre = p ∧ x.said = d ∧ U x

theorem EvtU.ok {U : Event → Prop} {n : Node} (h : EvtU U n) : EvtOk n.db := fun p d x hx => ⟨(h p d x hx).1, (h p d x hx).2.1⟩

theorem EvtU.of_only {U : Event → Prop} {n n' : Node} {e : Event} (h : EvtU U n) (he : U e)
    (only : ∀ p d x, n'.db.evts p d = some x → n.db.evts p d = some x ∨ (p = e.pre ∧ d = e.said ∧ x = e)) :
    EvtU U n' := by
  intro p d x hx
  rcases only p d x hx with h' | ⟨h1, h2, h3⟩
  · exact h p d x h'
  · subst h1 h2 h3; exact ⟨rfl, rfl, he⟩

theorem EvtU.micro {env : Env} {U : Event → Prop} {a b : Node} (h : EvtU U a) (g : Micro env U a b) : EvtU U b := by
  cases g with
  | core g => intro p d x hx; rw [g.evts] at hx; exact h p d x hx
  | event e ss ws c eager isLocal he =>
    rcases processEvent_cases env a e ss ws c eager isLocal h.ok with g | ⟨_, k1, v, w, _, g, _⟩
    · exact h.of_only he g.db.only
    · exact h.of_only he g.db.only

theorem EvtU.steps {env : Env} {U : Event → Prop} {a b : Node} (h : EvtU U a) (g : Steps env U a b) : EvtU U b := by
  induction g with
  | refl => exact h
  | tail _ g ih => exact ih.micro g

theorem evtU_start (U : Event → Prop) (p g : List Id) (m : Id → Option Id) : EvtU U (Node.start p g m) := by
  intro p d x hx; exact absurd hx (by simp [Node.start, Db.empty])

theorem coreEq_rem (n : Node) (x : Id × Nat × Dig) (kind : Esc) (pre : Id) (d : Dig) (ok : Bool) :
    CoreEq n { n with db := Esc.cleanUde (n.db.remEntry x kind) pre d ok kind } := by
  cases kind <;> cases ok <;> exact ⟨rfl, fun _ _ _ h => h, rfl, rfl, rfl, rfl, rfl, rfl, rfl⟩

theorem escStep_steps (env : Env) (U : Event → Prop) (kind : Esc) (stale : Dig → Bool) (n : Node) (x : Id × Nat × Dig)
    (hu : EvtU U n) : Steps env U n (n.escStep env kind stale x) := by
  obtain ⟨pre, sn, d⟩ := x
  have hdrop : ∀ (m : Node) (ok : Bool), Micro env U m
      { m with db := Esc.cleanUde (m.db.remEntry (pre, sn, d) kind) pre d ok kind } :=
    fun m ok => .core (coreEq_rem m _ kind pre d ok)
  unfold Node.escStep
  simp only
  split
  · exact (Steps.refl n).tail (hdrop n false)
  · split
    · exact (Steps.refl n).tail (hdrop n false)
    · split
      · exact (Steps.refl n).tail (hdrop n false)
      · rename_i isLocal _ _ _ e he
        split
        · exact (Steps.refl n).tail (hdrop n false)
        · split
          · exact .refl n
          · have hs : Steps env U n (n.processEvent env e (n.db.sigs pre d) (n.db.wigs pre d) (Esc.couple n.db pre d kind).1
              (Esc.couple n.db pre d kind).2 isLocal).1 := (Steps.refl n).tail (.event n e _ _ _ _ _ (hu _ _ _ he).2.2)
            split
            · rename_i n' h
              rw [h] at hs
              exact hs.tail (hdrop n' true)
            · rename_i n' y h
              rw [h] at hs
              split
              · exact hs
              · exact hs.tail (hdrop n' false)

theorem escPass_steps (env : Env) (U : Event → Prop) (kind : Esc) (stale : Dig → Bool) (n : Node) (hu : EvtU U n) :
    Steps env U n (n.escPass env kind stale) := by
  unfold Node.escPass
  have : ∀ (l : List (Id × Nat × Dig)) (m : Node), EvtU U m →
      Steps env U m (l.foldl (fun n x => n.escStep env kind stale x) m) := by
    intro l
    induction l with
    | nil => intro m _; exact .refl m
    | cons x l ih =>
      intro m hm
      have h1 := escStep_steps env U kind stale m x hm
      exact h1.trans (ih _ (hm.steps h1))
  exact this _ n hu

theorem step_steps (env : Env) (U : Event → Prop) (n : Node) (i : Inp) (hu : EvtU U n)
    (hi : ∀ e, i.delivers = some e → U e) : Steps env U n (n.step env i) := by
  cases i with
  | event e ss ws c eager isLocal => exact (Steps.refl n).tail (.event n e ss ws c eager isLocal (hi e rfl))
  | pass kind stale => exact escPass_steps env U kind stale n hu
  | retry kind stale x => exact escStep_steps env U kind stale n x hu
  | config p g m => exact (Steps.refl n).tail (.core ⟨rfl, fun _ _ _ h => h, rfl, rfl, rfl, rfl, rfl, rfl, rfl⟩)
  | receipts p d ws =>
    exact (Steps.refl n).tail (.core ⟨rfl, fun p' d' s h => upd2_mono _ _ _ _ p' d' s h, rfl, rfl, rfl, rfl, rfl, rfl, rfl⟩)
  | approve p d c => exact (Steps.refl n).tail (.core ⟨rfl, fun _ _ _ h => h, rfl, rfl, rfl, rfl, rfl, rfl, rfl⟩)

theorem run_steps (env : Env) (U : Event → Prop) (n : Node) (h : List Inp) (hu : EvtU U n) (hd : Delivers U h) :
    Steps env U n (n.run env h) := by
  induction h generalizing n with
  | nil => exact .refl n
  | cons i h ih =>
    have h1 := step_steps env U n i hu (fun e he => hd i (by simp) e he)
    exact h1.trans (ih _ (hu.steps h1) (fun j hj e he => hd j (by simp [hj]) e he))

/-- Basic invariant. -/
structure Inv (U : Event → Prop) (n : Node) : Prop where
  evt : EvtU U n
  kev : ∀ p k, n.kevers p = some k → k.pre = p
  fresh : ∀ p, n.kevers p = none → (∀ s, n.db.kels p s = []) ∧ n.db.fels p = []
  mem : ∀ p d s, d ∈ n.db.kels p s ↔ d ∈ n.db.fels p ∧ ∃ x, n.db.evts p d = some x ∧ x.sn = s
  stored : ∀ p d, d ∈ n.db.fels p → ∃ x, n.db.evts p d = some x
  nodup : ∀ p s, (n.db.kels p s).Nodup
  states : n.db.states = n.kevers

theorem inv_start (U : Event → Prop) (p g : List Id) (m : Id → Option Id) : Inv U (Node.start p g m) := by
  refine ⟨evtU_start U p g m, ?_, ?_, ?_, ?_, ?_, ?_⟩ <;> simp [Node.start, Db.empty]

theorem nodup_ioAdd {α} [DecidableEq α] (l : List α) (v : α) (h : l.Nodup) : (ioAdd l v).Nodup := by
  unfold ioAdd
  split
  · exact h
  · rename_i hv
    rw [List.nodup_append]
    exact ⟨h, by simp, fun a ha b hb => by simp at hb; subst hb; exact fun hab => hv (hab ▸ ha)⟩

/-- The body stored under an accepted event's key is the event itself. -/
theorem acc_evt {U : Event → Prop} (hnc : NoColl U) {n n' : Node} {e : Event} {k1 : Kever} {v : Verified} {w : List Id} (hi : EvtU U n) (he : U e)
    (g : AccN e k1 v w n n') : n'.db.evts e.pre e.said = some e := by
  obtain ⟨x, hx⟩ := g.db.stored
  have hu := hi.of_only he g.db.only
  have := hu _ _ _ hx
  rw [hx, hnc x e this.2.2 he this.2.1]

theorem Inv.same {U : Event → Prop} {n n' : Node} {e : Event} (h : Inv U n) (he : U e) (g : SameN e n n') : Inv U n' := by
  have hst : ∀ p d, d ∈ n.db.fels p → ∀ x, n'.db.evts p d = some x → n.db.evts p d = some x := by
    intro p d hd x hx
    obtain ⟨y, hy⟩ := h.stored p d hd
    have := g.db.mono _ _ _ hy
    rw [this] at hx; injection hx with hx; subst hx; exact hy
  refine ⟨h.evt.of_only he g.db.only, ?_, ?_, ?_, ?_, ?_, ?_⟩
  · rw [g.kevers]; exact h.kev
  · rw [g.kevers, g.db.kels, g.db.fels]; exact h.fresh
  · intro p d s
    rw [g.db.kels, g.db.fels, h.mem]
    constructor
    · rintro ⟨h1, x, h2, h3⟩; exact ⟨h1, x, g.db.mono _ _ _ h2, h3⟩
    · rintro ⟨h1, x, h2, h3⟩; exact ⟨h1, x, hst p d h1 x h2, h3⟩
  · intro p d hd
    rw [g.db.fels] at hd
    obtain ⟨x, hx⟩ := h.stored p d hd
    exact ⟨x, g.db.mono _ _ _ hx⟩
  · rw [g.db.kels]; exact h.nodup
  · rw [g.db.states, g.kevers]; exact h.states

theorem Inv.core {U : Event → Prop} {n n' : Node} (h : Inv U n) (g : CoreEq n n') : Inv U n' := by
  refine ⟨?_, ?_, ?_, ?_, ?_, ?_, ?_⟩
  · intro p d x hx; rw [g.evts] at hx; exact h.evt p d x hx
  · rw [g.kevers]; exact h.kev
  · rw [g.kevers, g.kels, g.fels]; exact h.fresh
  · rw [g.kels, g.fels, g.evts]; exact h.mem
  · rw [g.fels, g.evts]; exact h.stored
  · rw [g.kels]; exact h.nodup
  · rw [g.states, g.kevers]; exact h.states

theorem Inv.acc {U : Event → Prop} (hnc : NoColl U) {n n' : Node} {e : Event} {k1 : Kever} {v : Verified} {w : List Id} (h : Inv U n) (he : U e)
    (hk1 : k1.pre = e.pre) (g : AccN e k1 v w n n') : Inv U n' := by
  have hev := acc_evt hnc h.evt he g
  have hst : ∀ p d, d ∈ n.db.fels p → ∀ x, n'.db.evts p d = some x → n.db.evts p d = some x := by
    intro p d hd x hx
    obtain ⟨y, hy⟩ := h.stored p d hd
    have := g.db.mono _ _ _ hy
    rw [this] at hx; injection hx with hx; subst hx; exact hy
  refine ⟨h.evt.of_only he g.db.only, ?_, ?_, ?_, ?_, ?_, ?_⟩
  · intro p k hk
    rw [g.kevers] at hk
    unfold upd at hk
    split at hk
    · rename_i hp; injection hk with hk; rw [← hk, hk1, hp]
    · exact h.kev p k hk
  · intro p hp
    rw [g.kevers] at hp
    unfold upd at hp
    split at hp
    · exact absurd hp (by simp)
    · rename_i hne
      have := h.fresh p hp
      rw [g.db.kels, g.db.fels]
      refine ⟨fun s => ?_, ?_⟩
      · simp [upd2, hne, this.1]
      · simp [upd, hne, this.2]
  · intro p d s
    rw [g.db.kels, g.db.fels]
    unfold upd2 upd
    by_cases hp : p = e.pre
    · subst hp
      simp only [true_and, if_true]
      by_cases hs : s = e.sn
      · subst hs
        rw [if_pos rfl, mem_ioAdd, h.mem, List.mem_append, List.mem_singleton]
        constructor
        · rintro (⟨h1, x, h2, h3⟩ | rfl)
          · exact ⟨.inl h1, x, g.db.mono _ _ _ h2, h3⟩
          · exact ⟨.inr rfl, e, hev, rfl⟩
        · rintro ⟨h1 | rfl, x, h2, h3⟩
          · exact .inl ⟨h1, x, hst _ _ h1 _ h2, h3⟩
          · exact .inr rfl
      · rw [if_neg hs, h.mem, List.mem_append, List.mem_singleton]
        constructor
        · rintro ⟨h1, x, h2, h3⟩
          exact ⟨.inl h1, x, g.db.mono _ _ _ h2, h3⟩
        · rintro ⟨h1 | rfl, x, h2, h3⟩
          · exact ⟨h1, x, hst _ _ h1 _ h2, h3⟩
          · rw [hev] at h2; injection h2 with h2; subst h2; exact absurd h3.symm hs
    · simp only [hp, false_and, if_false]
      rw [h.mem]
      constructor
      · rintro ⟨h1, x, h2, h3⟩; exact ⟨h1, x, g.db.mono _ _ _ h2, h3⟩
      · rintro ⟨h1, x, h2, h3⟩; exact ⟨h1, x, hst p d h1 x h2, h3⟩
  · intro p d hd
    rw [g.db.fels] at hd
    unfold upd at hd
    split at hd
    · rename_i hp; subst hp
      rw [List.mem_append, List.mem_singleton] at hd
      rcases hd with hd | rfl
      · obtain ⟨x, hx⟩ := h.stored _ _ hd; exact ⟨x, g.db.mono _ _ _ hx⟩
      · exact ⟨e, hev⟩
    · obtain ⟨x, hx⟩ := h.stored _ _ hd; exact ⟨x, g.db.mono _ _ _ hx⟩
  · intro p s
    rw [g.db.kels]
    unfold upd2
    split
    · exact nodup_ioAdd _ _ (h.nodup _ _)
    · exact h.nodup p s
  · rw [g.db.states, g.kevers, h.states, hk1]

theorem Inv.micro {env : Env} {U : Event → Prop} (hnc : NoColl U) {a b : Node} (h : Inv U a) (g : Micro env U a b) :
    Inv U b := by
  cases g with
  | core g => exact h.core g
  | event e ss ws c eager isLocal he =>
    rcases processEvent_cases env a e ss ws c eager isLocal h.evt.ok with g | ⟨_, k1, v, w, hk1, g, _⟩
    · exact h.same he g
    · exact h.acc hnc he hk1 g

theorem Inv.steps {env : Env} {U : Event → Prop} (hnc : NoColl U) {a b : Node} (h : Inv U a) (g : Steps env U a b) :
    Inv U b := by
  induction g with
  | refl => exact h
  | tail _ g ih => exact ih.micro hnc g

end Verif.Kel
