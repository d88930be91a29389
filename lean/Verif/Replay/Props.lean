import Verif.Replay.Induct

/-! # C174, C175: replay of logs and cleaning of the database -/

namespace Verif.Replay

open Verif.Kel
open Verif.Thold (Thold)

theorem cloneEvt_logged {env : Env} {U : Event → Prop} {n : Node} (g : Good3 env U n) {p : Id} {d : Dig} (hd : d ∈ n.db.fels p) :
    ∃ e, cloneEvt n.db p d = some ⟨e, n.db.sigs p d, n.db.wigs p d, n.db.aess p d⟩ ∧ n.db.evts p d = some e ∧ e.said = d ∧
      e.pre = p := by
  obtain ⟨e, he⟩ := g.inv.stored p d hd
  refine ⟨e, ?_, he, (g.inv.evt _ _ _ he).2.1, (g.inv.evt _ _ _ he).1⟩
  unfold cloneEvt
  rw [he]
  simp only
  rw [if_neg (g.sig p d hd)]

theorem clone_map {env : Env} {U : Event → Prop} {n : Node} (g : Good3 env U n) {p : Id} (l : List Dig)
    (hl : ∀ d, d ∈ l → d ∈ n.db.fels p) :
    (l.filterMap (cloneEvt n.db p)).map (fun x => x.e.said) = l := by
  induction l with
  | nil => rfl
  | cons d l ih =>
    obtain ⟨e, h1, _, h3, _⟩ := cloneEvt_logged g (hl d (by simp))
    rw [List.filterMap_cons_some h1, List.map_cons, ih (fun d hd => hl d (by simp [hd])), h3]

theorem clone_supply {env : Env} {U : Event → Prop} {n : Node} (g : Good3 env U n) {p : Id} (hb : Backed env n p) :
    Supply env n p (clonePre n.db p 0) := by
  have hm : ∀ x, x ∈ clonePre n.db p 0 → x.e.said ∈ n.db.fels p ∧ n.db.evts p x.e.said = some x.e ∧
      x.sigs = n.db.sigs p x.e.said ∧ x.wigs = n.db.wigs p x.e.said := by
    intro x hx
    obtain ⟨d, hd, hx⟩ := List.mem_filterMap.1 hx
    have hd := List.mem_of_mem_drop hd
    obtain ⟨e, h1, h2, h3, _⟩ := cloneEvt_logged g hd
    rw [hx] at h1
    injection h1 with h1
    subst h1
    simp only
    rw [h3]
    exact ⟨hd, h2, rfl, rfl⟩
  refine ⟨?_, fun x hx => (hm x hx).2.1, fun x hx s hs => by rw [(hm x hx).2.2.1]; exact hs, ?_⟩
  · exact clone_map g _ (fun d hd => List.mem_of_mem_drop hd)
  · intro x hx a ha vs hv
    rw [(hm x hx).2.2.2] at hv
    exact hb x.e a ⟨(hm x hx).1, (hm x hx).2.1⟩ ha vs hv

theorem clone_pre {env : Env} {U : Event → Prop} {n : Node} (g : Good3 env U n) {p : Id} {x : Msg} (hx : x ∈ clonePre n.db p 0) :
    x.e.pre = p := by
  obtain ⟨d, hd, hx⟩ := List.mem_filterMap.1 hx
  obtain ⟨e, h1, _, _, h4⟩ := cloneEvt_logged g (List.mem_of_mem_drop hd)
  rw [hx] at h1
  injection h1 with h1
  subst h1; exact h4

theorem ignorant_of {env : Env} {U : Event → Prop} {m : Node} (g : Good3 env U m) {p : Id} (h : Unknown m p) : Ignorant m p := by
  obtain ⟨h1, h2⟩ := g.inv.fresh p h.1
  refine ⟨h.1, by rw [g.inv.states]; exact h.1, h1, h2, h.2, fun d => g.wit.none p d (by rw [h2]; simp)⟩

/-- **C174 (partial).** Parsing the replay of an identifier's first-seen log at a node that holds nothing about the identifier
reproduces it: same key state, same log at every sequence number, same first-seen log with the same ordinals and bodies;
nothing changes for other identifiers. For logs of non-delegated identifiers in which no event was first seen twice, every
event has its witness signatures stored, and thresholds have a weight for every key; the receiver is none of the witnesses.
Missing: delegated identifiers and logs that lack one of these; `Demo.c174_counterexamples` shows that they are not reproduced. -/
theorem c174_replay_partial {env : Env} {U : Event → Prop} (hnc : NoColl U) {n m : Node} (hn : Reached env U n)
    (hm : Reached env U m) (p : Id) (hu : Unknown m p) (ho : Outsider m n p) (hnd : (n.db.fels p).Nodup)
    (hd : NotDelegated n p) (hc : AllCover n p) (hb : Backed env n p) :
    Agree (replay env m (clonePre n.db p 0)) n p ∧
    ∀ q, q ≠ p → Agree (replay env m (clonePre n.db p 0)) m q := by
  have g := good3_reached hnc hn
  have gm := good3_reached hnc hm
  refine ⟨(g.rep p hnd hd hc m _ gm.inv.evt.ok (ignorant_of gm hu) ho (clone_supply g hb)).agree, fun q hq => ?_⟩
  have h := others_replay env p (clonePre n.db p 0) m gm.inv.evt.ok (fun x hx => clone_pre g hx)
  exact ⟨h.kevers q hq, h.states q hq, fun s => by rw [h.kels q hq], h.fels q hq, fun d _ => by rw [h.fons q hq],
    fun d _ => by rw [h.evts q hq]⟩

/-- **C174, one message per event.** A replay from ordinal `fn` on has exactly the events of the first-seen log from there on, in
order and each with all its stored signatures and witness signatures; so a replay may be cut at any ordinal and resumed
there. -/
theorem c174_complete {env : Env} {U : Event → Prop} (hnc : NoColl U) {n : Node} (hn : Reached env U n) (p : Id) (fn : Nat) :
    (clonePre n.db p fn).map (fun x => x.e.said) = (n.db.fels p).drop fn ∧
    (∀ x, x ∈ clonePre n.db p fn → n.db.evts p x.e.said = some x.e ∧ x.sigs = n.db.sigs p x.e.said ∧
      x.wigs = n.db.wigs p x.e.said ∧ x.couple = n.db.aess p x.e.said) ∧
    clonePre n.db p 0 = (clonePre n.db p 0).take fn ++ clonePre n.db p fn := by
  have g := good3_reached hnc hn
  refine ⟨clone_map g _ (fun d hd => List.mem_of_mem_drop hd), ?_, ?_⟩
  · intro x hx
    obtain ⟨d, hd, hx⟩ := List.mem_filterMap.1 hx
    obtain ⟨e, h1, h2, h3, _⟩ := cloneEvt_logged g (List.mem_of_mem_drop hd)
    rw [hx] at h1
    injection h1 with h1
    subst h1
    simp only
    rw [h3]
    exact ⟨h2, rfl, rfl, rfl⟩
  · unfold clonePre
    have hdrop : ∀ l : List Dig, (∀ d, d ∈ l → d ∈ n.db.fels p) → ∀ i,
        (l.drop i).filterMap (cloneEvt n.db p) = (l.filterMap (cloneEvt n.db p)).drop i := by
      intro l
      induction l with
      | nil => intro _ i; simp
      | cons d l ih =>
        intro hl i
        obtain ⟨e, h1, _⟩ := cloneEvt_logged g (hl d (by simp))
        cases i with
        | zero => rfl
        | succ i =>
          rw [List.drop_succ_cons, List.filterMap_cons_some h1, List.drop_succ_cons]
          exact ih (fun d hd => hl d (by simp [hd])) i
    rw [List.drop_zero, hdrop _ (fun _ h => h) fn, List.take_append_drop]

/-! ## Cleaning -/

theorem replay_append (env : Env) (m : Node) (a b : List Msg) : replay env m (a ++ b) = replay env (replay env m a) b := by
  unfold replay; rw [List.foldl_append]

theorem replay_run (env : Env) : ∀ (ms : List Msg) (m : Node),
    replay env m ms = m.run env (ms.map fun x => .event x.e x.sigs x.wigs x.couple false false)
  | [], _ => rfl
  | x :: ms, m => by
    show replay env (receive env m x) ms = _
    rw [replay_run env ms]; rfl

/-- The events whose bodies a database holds. -/
def Holds (db : Db) (e : Event) : Prop := ∃ p d, db.evts p d = some e

/-- **C175, re-verification.** Whatever the database holds, be it tampered with or damaged, the logs of the copy made by a clean are those of a
node that started empty and was handed events of the database over the network. So all that is proved of such nodes holds
of the logs after a clean. -/
theorem c175_verified (env : Env) (db : Db) (order : List Id) (habs : List Hab) :
    ∃ c, Reached env (Holds db) c ∧ ∀ p, (∀ s, (clean env db order habs).db.kels p s = c.db.kels p s) ∧
      (clean env db order habs).db.fels p = c.db.fels p ∧ (clean env db order habs).db.evts p = c.db.evts p := by
  refine ⟨cleanCopy env db order, ⟨[], [], fun _ => none, _, ?_, replay_run env _ _⟩, fun p => ⟨fun _ => rfl, rfl, rfl⟩⟩
  intro i hi e he
  obtain ⟨x, hx, rfl⟩ := List.mem_map.1 hi
  simp only [Inp.delivers] at he
  injection he with he
  subst he
  obtain ⟨p, _, hx⟩ := List.mem_flatMap.1 hx
  obtain ⟨d, _, hx⟩ := List.mem_filterMap.1 hx
  unfold cloneEvt at hx
  split at hx
  · exact absurd hx (by simp)
  · rename_i e he
    split at hx
    · exact absurd hx (by simp)
    · injection hx with hx
      subst hx
      exact ⟨p, d, he⟩

/-- Nothing about the identifier changed. -/
structure Still (m r : Node) (p : Id) : Prop where
  kevers : r.kevers p = m.kevers p
  states : r.db.states p = m.db.states p
  kels : r.db.kels p = m.db.kels p
  fels : r.db.fels p = m.db.fels p
  fons : r.db.fons p = m.db.fons p
  evts : r.db.evts p = m.db.evts p

theorem clean_fold {env : Env} {U : Event → Prop} {n : Node} (g : Good3 env U n) :
    ∀ (order : List Id) (m : Node), order.Nodup → EvtOk m.db → m.prefixes = [] → m.groups = [] →
      (∀ p, p ∈ order → Ignorant m p ∧ (n.db.fels p).Nodup ∧ NotDelegated n p ∧ AllCover n p ∧ Backed env n p) →
      (∀ p, p ∈ order → Agree (replay env m (cloneAll n.db order)) n p) ∧
      ∀ p, p ∉ order → Still m (replay env m (cloneAll n.db order)) p := by
  intro order
  induction order with
  | nil =>
    intro m _ _ _ _ _
    exact ⟨fun p hp => absurd hp (by simp), fun p _ => ⟨rfl, rfl, rfl, rfl, rfl, rfl⟩⟩
  | cons q order ih =>
    intro m hnd hok hp hg hall
    have hsplit : replay env m (cloneAll n.db (q :: order)) = replay env (replay env m (clonePre n.db q 0)) (cloneAll n.db order) := by
      unfold cloneAll; rw [List.flatMap_cons, replay_append]
    obtain ⟨hq1, hq2, hq3, hq4, hq5⟩ := hall q (by simp)
    have hA := (g.rep q hq2 hq3 hq4 m _ hok hq1 ⟨by rw [hp]; simp, by rw [hg]; simp, fun _ _ _ => by rw [hp]; simp⟩
      (clone_supply g hq5)).agree
    have hO := others_replay env q (clonePre n.db q 0) m hok (fun x hx => clone_pre g hx)
    rw [hsplit]
    generalize replay env m (clonePre n.db q 0) = M at *
    rw [List.nodup_cons] at hnd
    obtain ⟨r1, r2⟩ := ih M hnd.2 (hO.ok hok) (hO.prefixes.trans hp) (hO.groups.trans hg) (by
      intro p hpo
      have hne : p ≠ q := fun h => hnd.1 (h ▸ hpo)
      obtain ⟨h1, h2⟩ := hall p (by simp [hpo])
      exact ⟨⟨by rw [hO.kevers p hne]; exact h1.kever, by rw [hO.states p hne]; exact h1.state,
        fun s => by rw [hO.kels p hne]; exact h1.kels s, by rw [hO.fels p hne]; exact h1.fels,
        fun d => by rw [hO.evts p hne]; exact h1.evts d, fun d => by rw [hO.wits p hne]; exact h1.wits d⟩, h2⟩)
    generalize replay env M (cloneAll n.db order) = R at *
    refine ⟨?_, ?_⟩
    · intro p hpo
      rcases List.mem_cons.1 hpo with rfl | hpo
      · have h := r2 p hnd.1
        exact ⟨by rw [h.kevers, hA.kever], by rw [h.states, hA.state], fun s => by rw [h.kels, hA.kels],
          by rw [h.fels, hA.fels], fun d hd => by rw [h.fons, hA.fons d hd], fun d hd => by rw [h.evts, hA.evts d hd]⟩
      · exact r1 p hpo
    · intro p hpo
      rw [List.mem_cons, not_or] at hpo
      have h := r2 p hpo.2
      exact ⟨by rw [h.kevers, hO.kevers p hpo.1], by rw [h.states, hO.states p hpo.1], by rw [h.kels, hO.kels p hpo.1],
        by rw [h.fels, hO.fels p hpo.1], by rw [h.fons, hO.fons p hpo.1], by rw [h.evts, hO.evts p hpo.1]⟩

/-- **C175 (partial).** A clean leaves key states, logs and own identifiers as they were: for every identifier the node agrees
with the one before, and the identifiers of all `habs` records are its own, with the local members of group identifiers. For nodes whose logs all satisfy the conditions of
`c174_replay_partial`; `order` lists the identifiers that have a log. Missing: delegated identifiers and logs
that are not fully witnessed, own ones included; `Demo.c175_counterexamples` shows what is lost. -/
theorem c175_kept_partial {env : Env} {U : Event → Prop} (hnc : NoColl U) {n : Node} (hn : Reached env U n) (order : List Id)
    (habs : List Hab) (hnd : order.Nodup) (hall : ∀ p, n.kevers p ≠ none → p ∈ order)
    (hok : ∀ p, p ∈ order → (n.db.fels p).Nodup ∧ NotDelegated n p ∧ AllCover n p ∧ Backed env n p)
    (hh : ∀ h, h ∈ habs → n.kevers h.hid ≠ none) :
    (∀ p, Agree (clean env n.db order habs) n p) ∧
    (∀ p, p ∈ (clean env n.db order habs).prefixes ↔ p ∈ habs.map Hab.hid) ∧
    (∀ p, p ∈ (clean env n.db order habs).groups ↔ ∃ h, h ∈ habs ∧ h.hid = p ∧ h.mid ≠ none) ∧
    ((habs.map Hab.hid).Nodup → ∀ h, h ∈ habs → (clean env n.db order habs).mid h.hid = h.mid) := by
  have g := good3_reached hnc hn
  have gs := good3_start env U [] [] (fun _ => none)
  have hig : ∀ p, Ignorant (Node.start [] [] (fun _ => none)) p := fun p => ignorant_of gs ⟨rfl, fun _ => rfl⟩
  obtain ⟨r1, r2⟩ := clean_fold g order (Node.start [] [] (fun _ => none)) hnd gs.inv.evt.ok rfl rfl
    (fun p hp => ⟨hig p, hok p hp⟩)
  have hcc : replay env (Node.start [] [] (fun _ => none)) (cloneAll n.db order) = cleanCopy env n.db order := rfl
  rw [hcc] at r1 r2
  have hA : ∀ p, Agree (cleanCopy env n.db order) n p := by
    intro p
    by_cases hp : p ∈ order
    · exact r1 p hp
    · have hk : n.kevers p = none := Decidable.byContradiction fun h => hp (hall p h)
      obtain ⟨f1, f2⟩ := g.inv.fresh p hk
      have h := r2 p hp
      refine ⟨by rw [h.kevers, hk]; rfl, by rw [h.states, g.inv.states, hk]; rfl, fun s => by rw [h.kels, f1]; rfl,
        by rw [h.fels, f2]; rfl, fun d hd => by rw [f2] at hd; exact absurd hd (by simp),
        fun d hd => by rw [f2] at hd; exact absurd hd (by simp)⟩
  have hst : ∀ p, (copyStates env n.db order).db.states p = n.db.states p := by
    intro p
    show (match (cleanCopy env n.db order).db.states p with
      | some k => some k
      | none => n.db.states p) = _
    rw [(hA p).state]
    cases n.db.states p <;> rfl
  have hlk : ∀ p k, n.kevers p = some k → lookup (copyStates env n.db order) p = some k := by
    intro p k hk
    unfold lookup
    have : (copyStates env n.db order).kevers p = some k := by
      show (cleanCopy env n.db order).kevers p = some k
      rw [(hA p).kever, hk]
    rw [this]
  have hkept : keptHabs env n.db order habs = habs := by
    unfold keptHabs
    rw [List.filter_eq_self]
    intro h hm
    cases hk : n.kevers h.hid with
    | none => exact absurd hk (hh h hm)
    | some k => rw [hlk _ _ hk]; rfl
  refine ⟨fun p => ⟨?_, hst p, (hA p).kels, (hA p).fels, (hA p).fons, (hA p).evts⟩, ?_, ?_, ?_⟩
  · show (if p ∈ (keptHabs env n.db order habs).map Hab.hid then lookup (copyStates env n.db order) p
      else (cleanCopy env n.db order).kevers p) = _
    split
    · rename_i hp
      rw [hkept] at hp
      obtain ⟨h, hm, rfl⟩ := List.mem_map.1 hp
      cases hk : n.kevers h.hid with
      | none => exact absurd hk (hh h hm)
      | some k => exact hlk _ _ hk
    · exact (hA p).kever
  · intro p
    show p ∈ oset ((keptHabs env n.db order habs).map Hab.hid) ↔ _
    rw [mem_oset, hkept]
  · intro p
    show p ∈ oset (((keptHabs env n.db order habs).filter fun h => h.mid.isSome).map Hab.hid) ↔ _
    rw [mem_oset, hkept, List.mem_map]
    constructor
    · rintro ⟨h, hm, rfl⟩
      rw [List.mem_filter] at hm
      exact ⟨h, hm.1, rfl, fun h0 => by simp [h0] at hm⟩
    · rintro ⟨h, hm, rfl, h0⟩
      refine ⟨h, List.mem_filter.2 ⟨hm, ?_⟩, rfl⟩
      cases hq : h.mid with
      | none => exact absurd hq h0
      | some _ => rfl
  · intro hn h hm
    show (match (keptHabs env n.db order habs).find? fun x => decide (x.hid = h.hid) with
      | none => none
      | some x => x.mid) = _
    rw [hkept]
    have hf : ∀ l : List Hab, (l.map Hab.hid).Nodup → h ∈ l → l.find? (fun x => decide (x.hid = h.hid)) = some h := by
      intro l
      induction l with
      | nil => intro _ hx; exact absurd hx (by simp)
      | cons y l ih =>
        intro hl hx
        rw [List.map_cons, List.nodup_cons] at hl
        rcases List.mem_cons.1 hx with rfl | hx
        · rw [List.find?_cons_of_pos (by simp)]
        · rw [List.find?_cons_of_neg, ih hl.2 hx]
          intro h0
          have h0 : y.hid = h.hid := by simpa using h0
          exact hl.1 (h0 ▸ List.mem_map_of_mem hx)
    rw [hf habs hn hm]

end Verif.Replay
