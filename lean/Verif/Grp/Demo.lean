import Verif.Grp.PropsCounsel
import Verif.Grp.PropsKept
import Verif.Grp.PropsStuck
import Verif.Grp.PropsAnchor
import Verif.Grp.PropsPublish
import Verif.Grp.PropsProgress

/-!
# Concrete groups and delegations: cases that meet the hypotheses, and what goes wrong
-/

namespace Verif.Grp.Demo

open Verif.Kel (Id Dig Event Kever Seal Ilk Sig)

/-- An event without content. -/
def evt (ilk : Ilk) (pre : Id) (sn : Nat) (said : Dig) (keys wits : List Id) (delpre : Option Id) (seals : List Seal) : Event :=
  { ilk := ilk, pre := pre, sn := sn, said := said, prior := 0, keys := keys, kt := .num 1, ndigs := [], nt := .num 1, toad := wits.length, wits := wits, cuts := [], adds := [],
    estOnly := false, doNotDelegate := false, delpre := delpre, seals := seals, anchors := decide (seals ≠ []) }

/-- Key state after an event. -/
def kev (e : Event) (keys wits : List Id) (delpre : Option Id) : Kever :=
  { pre := e.pre, sn := e.sn, fn := e.sn, serder := e, ilk := e.ilk, kt := .num 1, keys := keys, ndigs := [], nt := .num 1, toad := wits.length, wits := wits, cuts := [], adds := [],
    estOnly := false, doNotDelegate := false, lastS := 0, lastD := 0, delpre := delpre }

def sig (i : Nat) : Sig := ⟨0, i, some i, 0⟩

/-- A node with the events given, each signed by the first key, those of `rs` receipted once, with the key states given. -/
def nodeOf (es : List Event) (rs : List Dig) (ks : List Kever) (pses : List (Id × Nat × Dig)) : Kel.Node :=
  { db := { Kel.Db.empty with
      kels := fun p sn => (es.filter fun e => decide (e.pre = p) && decide (e.sn = sn)).map Event.said
      fels := fun p => (es.filter fun e => decide (e.pre = p)).map Event.said
      evts := fun p d => es.find? fun e => decide (e.pre = p) && decide (e.said = d)
      sigs := fun _ _ => [sig 0]
      wigs := fun _ d => if d ∈ rs then [sig 0] else []
      pses := pses }
    kevers := fun p => ks.find? fun k => decide (k.pre = p), prefixes := [], groups := [], mid := fun _ => none }

def env : Env := ⟨fun _ _ => 1⟩

/-- Group 1 with own member 2; own identifier 3. -/
def habs : Id → Option (Option Id) := fun p => if p = 1 then some (some 2) else if p = 2 ∨ p = 3 then some none else none

/-- The member: key 101. -/
def mem : Kever := kev (evt .icp 2 0 20 [101] [] none []) [101] [] none
/-- The group: keys 101 and 102, no witnesses. -/
def icp : Event := evt .icp 1 0 10 [101, 102] [] none []
def ixn : Event := evt .ixn 1 1 11 [] [] none []
def grp : Kever := kev icp [101, 102] [] none
def n0 : Num := ⟨0, 0⟩
def n1 : Num := ⟨1, 0⟩

/-! ## C137, C138 -/

def node0 : Kel.Node := nodeOf [icp] [] [grp, mem] [(1, 1, 11)]
def a0 : World := World.start node0 habs true
def a1 : World := a0.step env (.start 1 n0 10)
def a2 : World := a1.step env .counsel

theorem a1_gpse : a1.gpse = [(1, n0, 10)] := by decide +kernel

theorem genuine : Hist env Genuine a0 a2 := by
  refine .step .counsel (.step (.start 1 n0 10) .nil ?_) ?_
  · intro h; simp at h
  · intro _ x hx sd hs
    have : x = (1, n0, 10) := by rw [show _ = [(1, n0, 10)] from a1_gpse] at hx; simpa using hx
    subst this
    have : lastAt a1.node 1 0 = some 10 := by decide +kernel
    exact (Option.some.inj (hs.symm.trans this))

/-- C137: an event is reported complete. -/
example : Hist env Any a0 a2 ∧ a2.cgms 1 n0 = some 10 := ⟨.step _ (.step _ .nil trivial) trivial, by decide +kernel⟩
example : Hist env Genuine a0 a2 ∧ a2.cgms 1 n0 = some 10 := ⟨genuine, by decide +kernel⟩
example : completed (a2.cgms 1 n0) (some 10) = .ok true := by rw [show a2.cgms 1 n0 = some 10 by decide +kernel]; rfl
/-- C137, C138: numbers with another code are others. -/
example : a2.cgms 1 ⟨0, 1⟩ = none := by decide +kernel

theorem calm_start : Calm a0 (.start 1 n0 10) := by intro x hx; simp [Waits, a0, World.start] at hx
/-- C138: a calm history. -/
example : startOk a0 1 n0 = true ∧ Calm a0 (.start 1 n0 10) ∧ a0.cgms 1 n0 = none ∧ Hist env Calm a1 a2 :=
  ⟨by decide +kernel, calm_start, rfl, .step .counsel .nil ⟨by decide +kernel, fun _ _ _ _ h => by cases h⟩⟩
/-- C139: all it needs is there. -/
example : Ready a1 (1, n0, 10) :=
  .signed grp true (by decide +kernel) rfl (by rw [a1_gpse]; simp) 10 (by decide +kernel) (fun h => by cases h) (.inl rfl) ⟨by decide +kernel, .inr (.inl rfl)⟩
example : (counsel a1).2 = none := by decide +kernel

/-- Nothing but the Counselor, the Anchorer and calls. -/
def NoNode (_ : World) (i : Inp) : Prop := ∀ n, i ≠ .node n

theorem kels_apply {w : World} (z : Wr) : (w.apply z).node.db.kels = w.node.db.kels := by
  cases z <;> simp only [World.apply] <;> first | rfl | (split <;> rfl)

theorem kels_all {w : World} (ws : List Wr) : (w.applyAll ws).node.db.kels = w.node.db.kels := by
  induction ws generalizing w with
  | nil => rfl
  | cons z zs ih => exact (ih (w := w.apply z)).trans (kels_apply z)

theorem kels_hist {w0 w : World} (h : Hist env NoNode w0 w) : w.node.db.kels = w0.node.db.kels := by
  induction h with
  | nil => rfl
  | step i _ g ih =>
    rw [← ih]
    cases i with
    | start p num d => simp only [World.step]; split <;> rfl
    | pubStart p => simp only [World.step]; split <;> rfl
    | pubDone p => simp only [World.step]; split <;> rfl
    | node n => exact absurd rfl (g n)
    | delegation p sn => exact kels_all _
    | counsel => exact kels_all _
    | anchor => exact kels_all _
    | crashCounsel n => exact kels_all (w := _) _
    | crashAnchor n => exact kels_all (w := _) _
    | _ => rfl

/-- An event is reported complete that was never logged: another one is logged at its number. -/
theorem c137_other : ∃ (env : Env) (w0 w : World) (p : Id) (num : Num) (d : Dig),
    Hist env NoNode w0 w ∧ w.cgms p num = some d ∧ completed (w.cgms p num) (some d) = .ok true ∧ ∀ w1, Hist env NoNode w0 w1 → ∀ sn, d ∉ w1.node.db.kels p sn := by
  have hc : ((a0.step env (.start 1 n0 99)).step env .counsel).cgms 1 n0 = some 99 := by decide +kernel
  refine ⟨env, a0, (a0.step env (.start 1 n0 99)).step env .counsel, 1, n0, 99, .step _ (.step _ .nil (by intro n h; cases h)) (by intro n h; cases h), hc, by rw [hc]; rfl, ?_⟩
  intro w1 h sn
  rw [kels_hist h]
  show 99 ∉ ([icp].filter fun e => decide (e.pre = 1) && decide (e.sn = sn)).map Event.said
  intro hm
  obtain ⟨e, he, hd⟩ := List.mem_map.1 hm
  have := (List.mem_filter.1 he).1
  simp only [List.mem_cons, List.not_mem_nil, or_false] at this
  subst this
  exact absurd hd (by decide)

/-- Two events of a group wait, one of them is logged: the other one is lost with the next pass, and is not reported complete when it is logged. -/
theorem c138_two : ∃ (env : Env) (w : World) (x y : Entry) (n : Kel.Node),
    Waits w x ∧ Waits w y ∧ x.1 = y.1 ∧ (counsel w).2 = none ∧ ¬ Waits (w.step env .counsel) y ∧ (w.step env .counsel).cgms y.1 y.2.1 = none ∧
    lastAt n y.1 y.2.1.num = some y.2.2 ∧ (((w.step env .counsel).step env (.node n)).step env .counsel).cgms y.1 y.2.1 = none := by
  refine ⟨env, a1.step env (.start 1 n1 11), (1, n0, 10), (1, n1, 11), nodeOf [icp, ixn] [] [grp, mem] [], ?_, ?_, rfl, ?_, ?_, ?_, ?_, ?_⟩
  · left; decide +kernel
  · left; decide +kernel
  · decide +kernel
  · have : ((a1.step env (.start 1 n1 11)).step env .counsel).gpse = [] ∧ ((a1.step env (.start 1 n1 11)).step env .counsel).gdee = [] ∧
      ((a1.step env (.start 1 n1 11)).step env .counsel).gpwe = [] := by decide +kernel
    simp [Waits, this]
  all_goals decide +kernel

/-- A pass that is interrupted loses the event. -/
theorem c138_crash : ∃ (env : Env) (w : World) (x : Entry) (n : Nat),
    Waits w x ∧ ¬ Waits (w.step env (.crashCounsel n)) x ∧ (w.step env (.crashCounsel n)).cgms x.1 x.2.1 = none := by
  refine ⟨env, a1, (1, n0, 10), 1, by left; decide +kernel, ?_, by decide +kernel⟩
  have : (a1.step env (.crashCounsel 1)).gpse = [] ∧ (a1.step env (.crashCounsel 1)).gdee = [] ∧ (a1.step env (.crashCounsel 1)).gpwe = [] := by decide +kernel
  simp [Waits, this]

/-- The delegated group: delegator 5. -/
def dip : Event := evt .dip 1 0 10 [101, 102] [] (some 5) []
def dgrp : Kever := kev dip [101, 102] [] (some 5)
def b1 : World := (World.start (nodeOf [dip] [] [dgrp, mem] []) habs true).step env (.start 1 n0 10)

/-- A pass that raises an exception, as the delegator is not known, loses the event. -/
theorem c138_raise : ∃ (env : Env) (w : World) (x : Entry),
    Waits w x ∧ (counsel w).2 = some .validation ∧ ¬ Waits (w.step env .counsel) x ∧ (w.step env .counsel).cgms x.1 x.2.1 = none := by
  refine ⟨env, b1, (1, n0, 10), by left; decide +kernel, by decide +kernel, ?_, by decide +kernel⟩
  have : (b1.step env .counsel).gpse = [] ∧ (b1.step env .counsel).gdee = [] ∧ (b1.step env .counsel).gpwe = [] := by decide +kernel
  simp [Waits, this]

/-! ## C139: witnesses -/

def wicp : Event := evt .icp 1 0 10 [101, 102] [901] none []
def wgrp : Kever := kev wicp [101, 102] [901] none
def wnode : Kel.Node := nodeOf [wicp] [10] [wgrp, mem] []
def c1 : World := (World.start wnode habs true).step env (.start 1 n0 10)
def c2 : World := c1.step env .counsel
def c3 : World := c2.step env .restart
def c4 : World := c3.step env .counsel

/-- The receipt is there, the event waits; without a stop it is complete when the Receiptor is done. -/
example : (1, n0, 10) ∈ c2.gpwe ∧ c2.cgms 1 n0 = none ∧ ((c2.step env .cReceipted).step env .counsel).cgms 1 n0 = some 10 := by decide +kernel
example : (1, n0, 10) ∈ c4.gpwe ∧ c4.cgms 1 n0 = none := by decide +kernel

theorem elected3 : Elected 1 0 c3 .counsel := by
  refine ⟨fun num d h => (by cases h), fun _ k hk => ?_⟩
  have : c3.node.kevers 1 = some wgrp := by decide +kernel
  obtain rfl := Option.some.inj (this.symm.trans hk)
  exact ⟨by simp [wgrp, kev], rfl⟩

/-- C139, where it is stuck. -/
example : (∀ y ∈ c2.gpse, ¬At 1 0 y) ∧ (∀ y ∈ c2.gdee, ¬At 1 0 y) ∧ Hist env (Elected 1 0) c3 c4 := by
  have h1 : c2.gpse = [] := by decide +kernel
  have h2 : c2.gdee = [] := by decide +kernel
  exact ⟨by rw [h1]; simp, by rw [h2]; simp, .step .counsel .nil elected3⟩

/-! ## C140 to C143: delegation -/

def dicp : Event := evt .dip 3 0 30 [301] [] (some 5) []
def drot : Event := evt .drt 3 1 31 [302] [] (some 5) []
def del : Kever := kev (evt .ixn 5 1 51 [] [] none []) [501] [] none
def dk0 : Kever := kev dicp [301] [] (some 5)
def dk1 : Kever := kev drot [302] [] (some 5)
def inc5 : Event := evt .icp 5 0 50 [501] [] none []
/-- The delegator seals the inception. -/
def ixn5 : Event := evt .ixn 5 1 51 [] [] none [⟨3, 0, 30⟩]
/-- Not approved yet; approved; approved when there is a rotation already. -/
def dn0 : Kel.Node := nodeOf [dicp, inc5] [] [dk0, del] []
def dn1 : Kel.Node := nodeOf [dicp, inc5, ixn5] [] [dk0, del] []
def dn2 : Kel.Node := nodeOf [dicp, drot, inc5, ixn5] [] [dk1, del] []

def d0 : World := World.start dn0 habs true
def d1 : World := d0.step env (.delegation 3 none)
def d2 : World := d1.step env .anchor
def d3 : World := d2.step env (.node dn1)
def d4 : World := d3.step env .anchor
def d5 : World := (d4.step env (.pubStart 3)).step env (.pubDone 3)
def d6 : World := d5.step env .anchor

/-- It waits for approval, for publication, is complete. -/
example : d1.dpwe = [dicp] ∧ d2.dune = [dicp] ∧ d2.dpwe = [] ∧ d4.dune = [] ∧ d4.dpub = [dicp] ∧ d6.dpub = [] := by decide +kernel
/-- C140. -/
example : Hist env Any d0 d6 ∧ d6.cdel 3 0 = some 30 :=
  ⟨.step _ (.step _ (.step _ (.step _ (.step _ (.step _ (.step _ .nil trivial) trivial) trivial) trivial) trivial) trivial) trivial, by decide +kernel⟩

def ev : Id → Dig → Option Event := fun p d => [dicp, drot, inc5, ixn5].find? fun e => decide (e.pre = p) && decide (e.said = d)

theorem digests : Digests ev := ⟨fun p d e h => by
  have := List.find?_some h
  simpa using this⟩

theorem ev_sub {p : Id} {d : Dig} {e : Event} {es : List Event} (hs : ∀ y ∈ es, y ∈ [dicp, drot, inc5, ixn5])
    (h : es.find? (fun e => decide (e.pre = p) && decide (e.said = d)) = some e) : ev p d = some e := by
  have h1 := List.find?_some h
  have h2 := hs e (List.mem_of_find?_eq_some h)
  simp only [Bool.and_eq_true, decide_eq_true_eq] at h1
  obtain ⟨rfl, rfl⟩ := h1
  simp only [List.mem_cons, List.not_mem_nil, or_false] at h2
  rcases h2 with rfl | rfl | rfl | rfl <;> decide +kernel

theorem steady0 {i : Inp} {w : World} (hi : ∀ n, i ≠ .crashAnchor n) (hw : w.node.db.evts = dn0.db.evts) : Steady ev w i :=
  ⟨hi, fun p d e h => by rw [hw] at h; exact ev_sub (es := [dicp, inc5]) (by simp) h⟩
theorem steady1 {i : Inp} {w : World} (hi : ∀ n, i ≠ .crashAnchor n) (hw : w.node.db.evts = dn1.db.evts) : Steady ev w i :=
  ⟨hi, fun p d e h => by rw [hw] at h; exact ev_sub (es := [dicp, inc5, ixn5]) (by simp) h⟩

theorem evts_apply {w : World} (z : Wr) : (w.apply z).node.db.evts = w.node.db.evts := by
  cases z <;> simp only [World.apply] <;> first | rfl | (split <;> rfl)
theorem evts_all {w : World} (ws : List Wr) : (w.applyAll ws).node.db.evts = w.node.db.evts := by
  induction ws generalizing w with
  | nil => rfl
  | cons z zs ih => exact (ih (w := w.apply z)).trans (evts_apply z)

theorem steady_d1 : Steady ev d0 (.delegation 3 none) := steady0 (by intro n h; cases h) rfl
theorem hist_d3 : Hist env (Steady ev) d1 d3 := by
  refine .step (.node dn1) (.step .anchor .nil (steady0 (by intro n h; cases h) ?_)) (steady0 (by intro n h; cases h) ?_)
  · exact evts_all _
  · exact (evts_all (w := d1) _).trans (evts_all _)
theorem hist_03 : Hist env (Steady ev) d0 d3 := Hist.trans (.step (.delegation 3 none) .nil steady_d1) hist_d3
theorem steady3 : Steady ev d3 .anchor := steady1 (by intro n h; cases h) rfl

/-- C141. -/
example : Steady ev d0 (.delegation 3 none) ∧ Wr.dpwePin dicp ∈ (delegation d0 3 none).1 ∧ Hist env (Steady ev) d1 d4 := by
  refine ⟨steady_d1, ?_, .step .anchor hist_d3 steady3⟩
  have : delegation d0 3 none = ([.pubNew 3, .amsg 3 0, .dpwePin dicp], none) := by rfl
  rw [this]; simp

/-- C142: approved. -/
example : Hist env (Steady ev) d0 d3 ∧ Steady ev d3 .anchor ∧ dicp ∈ d3.dune ∧ d3.node.kevers 3 = some dk0 ∧ dk0.delpre = some 5 ∧ d3.node.kevers 5 = some del ∧
    (d3.node.findSeal 5 ⟨3, 0, 30⟩).isSome = true ∧ (anchor env d3).2 = none :=
  ⟨hist_03, steady3, by decide +kernel, by decide +kernel, rfl, by decide +kernel, by decide +kernel, by decide +kernel⟩

/-- C142: published. -/
example : Published d5 dicp ∧ (anchor env d5).2 = none := by
  have h1 : d5.dpub = [dicp] := by decide +kernel
  have h2 : d5.dpwe = [] := by decide +kernel
  have h3 : d5.dune = [] := by decide +kernel
  refine ⟨⟨by rw [h1]; simp, ⟨⟨0, false⟩, by decide +kernel, rfl⟩, ?_, by rw [h2, h3]; simp⟩, by decide +kernel⟩
  intro y hy _
  rw [h1, h2, h3] at hy
  simpa using hy

/-- C142, where it is stuck: the process stopped while the event was waiting for approval. -/
def e3 : World := d2.step env .restart
def e5 : World := (e3.step env (.node dn1)).step env .anchor
def e6 : World := e5.step env .anchor
example : dicp ∈ e3.dune ∧ e6.dpub = [dicp] ∧ e6.cdel 3 0 = none := by decide +kernel
example : (∀ y ∈ e3.gpse, y.1 ≠ 3) ∧ e3.pubs 3 = none ∧ Hist env (NotAsked 3) e3 e6 := by
  have h : e3.gpse = [] := by decide +kernel
  refine ⟨by rw [h]; simp, rfl, ?_⟩
  exact .step .anchor (.step .anchor (.step (.node dn1) .nil ⟨(by intro n h; cases h), (by intro a b h; cases h)⟩) ⟨(by intro n h; cases h), (by intro a b h; cases h)⟩)
    ⟨(by intro n h; cases h), (by intro a b h; cases h)⟩

/-- C143. -/
example : ∀ e, Awaits d3 e → ∀ k, d3.node.kevers e.pre = some k → k.pre = e.pre ∧ k.serder.said = e.said := by
  intro e he k hk
  have h2 : d3.dpwe = [] := by decide +kernel
  have h3 : d3.dune = [dicp] := by decide +kernel
  rcases he with he | ⟨y, hy, _⟩
  · rw [h3] at he
    simp only [List.mem_cons, List.not_mem_nil, or_false] at he
    subst he
    have : d3.node.kevers 3 = some dk0 := by decide +kernel
    obtain rfl := Option.some.inj (this.symm.trans hk)
    exact ⟨rfl, rfl⟩
  · rw [h2] at hy; cases hy
/-- C143: a place of approval is entered. -/
example : d3.node.db.aess 3 30 = none ∧ d4.node.db.aess 3 30 = some (1, 51) := by decide +kernel

/-- A pass of the Anchorer that is interrupted loses the event: nothing waits, nothing is complete. -/
theorem c141_crash : ∃ (env : Env) (node : Kel.Node) (habs : Id → Option (Option Id)) (p : Id) (e : Event) (n : Nat) (w w' : World),
    w = (World.start node habs true).step env (.delegation p none) ∧ e ∈ w.dpwe ∧ w' = w.step env (.crashAnchor n) ∧
    w'.dpwe = [] ∧ w'.dune = [] ∧ w'.dpub = [] ∧ w'.cdel e.pre e.sn = none := by
  refine ⟨env, dn0, habs, 3, dicp, 1, d1, d1.step env (.crashAnchor 1), rfl, ?_, rfl, ?_, ?_, ?_, ?_⟩ <;> decide +kernel

/-- When there is a later event the approval is entered for that one, which no event seals. -/
theorem c143_other : ∃ (env : Env) (w : World) (e : Event) (p : Id) (d : Dig) (c : Kel.Couple), Awaits w e ∧ Approved w.node e.pre e.sn e.said ∧ (anchor env w).2 = none ∧
    w.node.db.aess p d = none ∧ (w.step env .anchor).node.db.aess p d = some c ∧ ∀ dp sn, ¬ SealedAt w.node dp ⟨p, sn, d⟩ c := by
  refine ⟨env, d2.step env (.node dn2), dicp, 3, 31, (1, 51), .inl (by decide +kernel), ?_, by decide +kernel, by decide +kernel, by decide +kernel, ?_⟩
  · exact ⟨dk1, 5, del, by decide +kernel, rfl, by decide +kernel, 1, 51, ixn5, by decide +kernel, by decide +kernel, by decide +kernel, by decide +kernel⟩
  · rintro dp sn ⟨sn', d', e, _, h, hs, _⟩
    have h : [dicp, drot, inc5, ixn5].find? (fun e => decide (e.pre = dp) && decide (e.said = d')) = some e := h
    have : e ∈ [dicp, drot, inc5, ixn5] := List.mem_of_find?_eq_some h
    simp only [List.mem_cons, List.not_mem_nil, or_false] at this
    rcases this with rfl | rfl | rfl | rfl
    · cases hs
    · cases hs
    · cases hs
    · simp [ixn5, evt] at hs

end Verif.Grp.Demo
