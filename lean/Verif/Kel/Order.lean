import Verif.Kel.Frame
import Verif.Kel.PropsLog

/-! # Delivery in any order: vocabulary and invariant -/

namespace Verif.Kel

open Verif.Thold (Thold)

/-- A key event message: event, signatures, witness signatures. -/
structure Msg where
  e : Event
  ss : List Sig
  ws : List Sig

/-- The messages of a log, delivered in order up to (excluding) number `j`, all from the same kind of source. -/
def inOrder (env : Env) (n0 : Node) (isLocal : Bool) (L : List Msg) (j : Nat) : Node :=
  n0.run env ((L.take j).map fun m => .event m.e m.ss m.ws none false isLocal)

/-- A log of one identifier without delegation and without recovery: the `j`-th message has number `j`, and enters the log
when the messages are delivered in order. -/
structure ValidLog (env : Env) (n0 : Node) (isLocal : Bool) (p : Id) (L : List Msg) : Prop where
  sn : ∀ j (h : j < L.length), L[j].e.sn = j
  pre : ∀ j (h : j < L.length), L[j].e.pre = p
  dip : ∀ j (h : j < L.length), L[j].e.ilk ≠ .dip
  drt : ∀ j (h : j < L.length), L[j].e.ilk ≠ .drt
  enters : ∀ j, j < L.length → (inOrder env n0 isLocal L (j + 1)).db.fels p ≠ (inOrder env n0 isLocal L j).db.fels p

/-- The events of the messages. -/
def Msg.events (L : List Msg) : Event → Prop := fun e => ∃ m, m ∈ L ∧ m.e = e

/-- An input is a delivery of one of the messages (with any delegation couple and eagerness), or an out-of-order pass in which
no entry times out. -/
def Feeds (L : List Msg) (isLocal : Bool) (i : Inp) : Prop :=
  i = .pass .outOfOrder (fun _ => false) ∨ ∃ m, m ∈ L ∧ ∃ c eager, i = .event m.e m.ss m.ws c eager isLocal

theorem ioPut_sub {α} [DecidableEq α] (vs l : List α) (h : ∀ v, v ∈ vs → v ∈ l) : ioPut l vs = l := by
  unfold ioPut
  induction vs generalizing l with
  | nil => rfl
  | cons v vs ih =>
    rw [List.foldl_cons, ioAdd, if_pos (h v (by simp))]
    exact ih l (fun x hx => h x (by simp [hx]))

theorem ioPut_nil_eq_oset {α} [DecidableEq α] (vs : List α) : ioPut [] vs = oset vs := rfl

theorem oset_oset {α} [DecidableEq α] (l : List α) : oset (oset l) = oset l := by
  rw [oset_of_nodup _ (nodup_oset l)]

theorem mem_of_oset_eq {α} [DecidableEq α] {a b : List α} (h : oset a = oset b) (x : α) : x ∈ a ↔ x ∈ b := by
  rw [← mem_oset a, h, mem_oset]

section

variable {env : Env} {ps gs : List Id} {md : Id → Option Id} {l : Bool} {p : Id} {L : List Msg}

theorem inOrder_succ (n0 : Node) (j : Nat) (hj : j < L.length) :
    inOrder env n0 l L (j + 1) =
      ((inOrder env n0 l L j).processEvent env L[j].e L[j].ss L[j].ws none false l).1 := by
  unfold inOrder
  rw [List.take_succ_eq_append_getElem hj, List.map_append, run_append]
  rfl

theorem ValidLog.ent (hv : ValidLog env (Node.start ps gs md) l p L) (j : Nat) (hj : j < L.length) :
    Enters env (inOrder env (Node.start ps gs md) l L j) L[j].e L[j].ss L[j].ws none false l
      (inOrder env (Node.start ps gs md) l L (j + 1)) := by
  refine ⟨inOrder_succ _ j hj, ?_⟩
  rw [hv.pre]
  exact hv.enters j hj

theorem inOrder_reached (j : Nat) :
    Reached env (Msg.events L) (inOrder env (Node.start ps gs md) l L j) := by
  refine ⟨ps, gs, md, _, ?_, rfl⟩
  intro i hi e he
  rw [List.mem_map] at hi
  obtain ⟨m, hm, rfl⟩ := hi
  simp only [Inp.delivers] at he
  injection he with he
  exact ⟨m, List.mem_of_mem_take hm, he⟩

theorem accepts_sn {n : Node} {e : Event} {ss ws : List Sig} {couple : Option Couple} {eager : Bool} {k1 : Kever}
    {v : Verified} {w : List Id} (ha : Accepts env n e ss ws couple eager l k1 v w) : k1.sn = e.sn := by
  rcases ha with ⟨a, _⟩ | ⟨k, a⟩ | ⟨k, a, _⟩
  · obtain ⟨k, hk, _, _, h⟩ := a.inc
    obtain ⟨_, _, _, _, _, h'⟩ := incept_eq env e k hk
    rw [h, h']
  · obtain ⟨_, _, _, _, _, h⟩ := a.rot; rw [h]; rfl
  · obtain ⟨_, _, h⟩ := a.val; rw [h]; rfl

/-- What the in-order node knows about the identifier. -/
theorem inOrder_kever (hv : ValidLog env (Node.start ps gs md) l p L) (j : Nat) (hj : j ≤ L.length) :
    (j = 0 ∧ (inOrder env (Node.start ps gs md) l L j).kevers p = none) ∨
    ∃ k, (inOrder env (Node.start ps gs md) l L j).kevers p = some k ∧ k.sn + 1 = j := by
  match j with
  | 0 => exact .inl ⟨rfl, rfl⟩
  | j + 1 =>
    right
    obtain ⟨k1, v, w, _, g, ha⟩ := enters_acc (inOrder_reached j).evtU.ok (hv.ent j (by omega))
    refine ⟨k1, by rw [g.kevers, hv.pre]; simp [upd], ?_⟩
    rw [accepts_sn ha, hv.sn]

theorem inOrder_cfg (j : Nat) (hj : j ≤ L.length) : (inOrder env (Node.start ps gs md) l L j).prefixes = ps ∧
    (inOrder env (Node.start ps gs md) l L j).groups = gs ∧ (inOrder env (Node.start ps gs md) l L j).mid = md := by
  induction j with
  | zero => exact ⟨rfl, rfl, rfl⟩
  | succ j ih =>
    obtain ⟨h1, h2, h3⟩ := ih (by omega)
    rw [inOrder_succ _ j (by omega)]
    rcases processEvent_cases env (inOrder env (Node.start ps gs md) l L j) L[j].e L[j].ss L[j].ws none false l
      (inOrder_reached j).evtU.ok with g | ⟨_, _, _, _, _, g, _⟩
    · exact ⟨g.prefixes.trans h1, g.groups.trans h2, g.mid.trans h3⟩
    · exact ⟨g.prefixes.trans h1, g.groups.trans h2, g.mid.trans h3⟩

/-- Only the first message is an inception. -/
theorem not_icp (hv : ValidLog env (Node.start ps gs md) l p L) (i : Nat) (hi : i < L.length) (h0 : 0 < i) :
    L[i].e.ilk ≠ .icp := by
  intro hic
  obtain ⟨k1, v, w, _, g, ha⟩ := enters_acc (inOrder_reached i).evtU.ok (hv.ent i hi)
  rcases ha with ⟨a, _⟩ | ⟨k, a⟩ | ⟨k, a, _⟩
  · have hf := a.fresh
    rw [hv.pre] at hf
    rcases inOrder_kever hv i (by omega) with ⟨h, _⟩ | ⟨k, h, _⟩
    · omega
    · rw [hf] at h; exact absurd h (by simp)
  · rcases a.ilk with h | h <;> rw [hic] at h <;> exact absurd h (by simp)
  · have := a.ilk; rw [hic] at this; exact absurd this (by simp)

/-- Events of different numbers have different digests. -/
theorem said_inj (hnc : NoColl (Msg.events L)) (hv : ValidLog env (Node.start ps gs md) l p L) {i i' : Nat}
    (hi : i < L.length) (hi' : i' < L.length) (h : L[i].e.said = L[i'].e.said) : i = i' := by
  have := hnc L[i].e L[i'].e ⟨L[i], List.getElem_mem hi, rfl⟩ ⟨L[i'], List.getElem_mem hi', rfl⟩ h
  rw [← hv.sn i hi, ← hv.sn i' hi', this]

/-- Escrow entry of the `i`-th message. -/
def entry (p : Id) (L : List Msg) (i : Nat) (hi : i < L.length) : Id × Nat × Dig := (p, i, L[i].e.said)

/-- State of a node that has been fed messages of the log: it agrees with the in-order node at some `j`, and holds later
messages in the out-of-order escrow. -/
structure OInv (env : Env) (ps gs : List Id) (md : Id → Option Id) (l : Bool) (p : Id) (L : List Msg) (n : Node) (j : Nat) :
    Prop where
  jle : j ≤ L.length
  reached : Reached env (Msg.events L) n
  logs : LogsEq (inOrder env (Node.start ps gs md) l L j) n
  prefixes : n.prefixes = ps
  groups : n.groups = gs
  mid : n.mid = md
  mono : ∀ q d x, (inOrder env (Node.start ps gs md) l L j).db.evts q d = some x → n.db.evts q d = some x
  ents : ∀ x, x ∈ n.db.ooes → ∃ i, ∃ hi : i < L.length, x = entry p L i hi
  sorted : n.db.ooes.Pairwise (fun a b => a.2.1 < b.2.1)
  held : ∀ i (hi : i < L.length), j ≤ i → entry p L i hi ∈ n.db.ooes → n.db.evts p L[i].e.said = some L[i].e ∧
    n.db.sigs p L[i].e.said = oset L[i].ss ∧ n.db.wigs p L[i].e.said = oset L[i].ws ∧ n.db.esrs p L[i].e.said = some l
  clean : ∀ i (hi : i < L.length), j ≤ i → entry p L i hi ∉ n.db.ooes → n.db.sigs p L[i].e.said = [] ∧
    n.db.wigs p L[i].e.said = [] ∧ n.db.esrs p L[i].e.said = none

theorem oinv_start (L : List Msg) : OInv env ps gs md l p L (Node.start ps gs md) 0 := by
  refine ⟨by omega, ⟨ps, gs, md, [], fun i hi => absurd hi (by simp), rfl⟩, ⟨rfl, rfl, rfl, rfl, rfl⟩, rfl, rfl, rfl,
    fun _ _ _ h => h, ?_, ?_, ?_, ?_⟩
  · intro x hx; exact absurd hx (by simp [Node.start, Db.empty])
  · simp [Node.start, Db.empty]
  · intro i hi _ hx; exact absurd hx (by simp [Node.start, Db.empty])
  · intro i hi _ _; simp [Node.start, Db.empty]

theorem sorted_escIns (x : Id × Nat × Dig) (m : List (Id × Nat × Dig)) (hp : ∀ y, y ∈ m → y.1 = x.1)
    (hs : m.Pairwise (fun a b => a.2.1 < b.2.1)) (hne : ∀ y, y ∈ m → y.2.1 ≠ x.2.1) :
    (escIns x m).Pairwise (fun a b => a.2.1 < b.2.1) := by
  induction m with
  | nil => simp [escIns]
  | cons y m ih =>
    rw [List.pairwise_cons] at hs
    unfold escIns
    split
    · rename_i hlt
      have hxy : x.2.1 < y.2.1 := by
        simp only [escLt, hp y (by simp)] at hlt
        simpa using hlt
      rw [List.pairwise_cons, List.pairwise_cons]
      refine ⟨?_, hs⟩
      intro z hz
      rcases List.mem_cons.1 hz with rfl | hz
      · exact hxy
      · exact Nat.lt_trans hxy (hs.1 z hz)
    · rename_i hlt
      have hyx : y.2.1 < x.2.1 := by
        have h1 : ¬ x.2.1 < y.2.1 := by
          intro h; apply hlt; simp only [escLt, hp y (by simp)]; simpa using h
        have := hne y (by simp)
        omega
      rw [List.pairwise_cons]
      refine ⟨?_, ih (fun z hz => hp z (by simp [hz])) hs.2 (fun z hz => hne z (by simp [hz]))⟩
      intro z hz
      rcases (mem_escIns _ _ _).1 hz with rfl | hz
      · exact hyx
      · exact hs.1 z hz

theorem entry_inj {i i' : Nat} {hi : i < L.length} {hi' : i' < L.length} (h : entry p L i hi = entry p L i' hi') : i = i' := by
  unfold entry at h
  injection h with _ h; injection h

theorem evts_mono {U : Event → Prop} {n : Node} (h : Reached env U n) (e : Event) (ss ws : List Sig) (c : Option Couple)
    (eager l : Bool) : (∀ q d x, n.db.evts q d = some x → (n.processEvent env e ss ws c eager l).1.db.evts q d = some x) ∧
    (n.processEvent env e ss ws c eager l).1.prefixes = n.prefixes ∧ (n.processEvent env e ss ws c eager l).1.groups = n.groups ∧
    (n.processEvent env e ss ws c eager l).1.mid = n.mid := by
  rcases processEvent_cases env n e ss ws c eager l h.evtU.ok with g | ⟨_, _, _, _, _, g, _⟩
  · exact ⟨g.db.mono, g.prefixes, g.groups, g.mid⟩
  · exact ⟨g.db.mono, g.prefixes, g.groups, g.mid⟩

theorem reached_proc {n : Node} (h : Reached env (Msg.events L) n) (i : Nat) (hi : i < L.length) (ss ws : List Sig)
    (c : Option Couple) (eager : Bool) : Reached env (Msg.events L) (n.processEvent env L[i].e ss ws c eager l).1 :=
  h.run (h' := [.event L[i].e ss ws c eager l])
    (fun j hj x hx => by
      simp at hj; subst hj; simp [Inp.delivers] at hx; subst hx; exact ⟨L[i], List.getElem_mem hi, rfl⟩)

theorem LogsEq.trans {a b c : Node} (h : LogsEq a b) (g : LogsEq b c) : LogsEq a c := by
  obtain ⟨h1, h2, h3, h4, h5⟩ := h
  obtain ⟨g1, g2, g3, g4, g5⟩ := g
  exact ⟨g1.trans h1, g2.trans h2, g3.trans h3, g4.trans h4, g5.trans h5⟩

/-- The part of the invariant about the escrow, after processing the `i`-th event: entries of other messages are as before. -/
theorem OInv.frame (hnc : NoColl (Msg.events L)) (hv : ValidLog env (Node.start ps gs md) l p L) {n : Node} {j : Nat}
    (h : OInv env ps gs md l p L n j) (i : Nat) (hi : i < L.length) {db : Db} (hf : Frame L[i].e n.db db) :
    (∀ x, x ∈ db.ooes → ∃ i, ∃ hi : i < L.length, x = entry p L i hi) ∧
    db.ooes.Pairwise (fun a b => a.2.1 < b.2.1) ∧
    (∀ i' (hi' : i' < L.length), i' ≠ i → (entry p L i' hi' ∈ db.ooes ↔ entry p L i' hi' ∈ n.db.ooes) ∧
      db.evts p L[i'].e.said = n.db.evts p L[i'].e.said ∧ db.sigs p L[i'].e.said = n.db.sigs p L[i'].e.said ∧
      db.wigs p L[i'].e.said = n.db.wigs p L[i'].e.said ∧ db.esrs p L[i'].e.said = n.db.esrs p L[i'].e.said) := by
  have hent : (L[i].e.pre, L[i].e.sn, L[i].e.said) = entry p L i hi := by rw [hv.pre, hv.sn]; rfl
  have hoo := hf.ooes
  rw [hent] at hoo
  refine ⟨?_, ?_, ?_⟩
  · intro x hx
    rcases hoo with ho | ho
    · rw [ho] at hx; exact h.ents x hx
    · rw [ho, mem_escAdd] at hx
      rcases hx with hx | hx
      · exact ⟨i, hi, hx⟩
      · exact h.ents x hx
  · rcases hoo with ho | ho
    · rw [ho]; exact h.sorted
    · rw [ho]
      unfold escAdd
      split
      · exact h.sorted
      · rename_i hnot
        refine sorted_escIns _ _ ?_ h.sorted ?_
        · intro y hy; obtain ⟨i', hi', rfl⟩ := h.ents y hy; rfl
        · intro y hy
          obtain ⟨i', hi', rfl⟩ := h.ents y hy
          intro heq
          have : i' = i := heq
          subst this
          exact hnot hy
  · intro i' hi' hne
    have hkey : ¬ (p = L[i].e.pre ∧ L[i'].e.said = L[i].e.said) := fun hh => hne (said_inj hnc hv hi' hi hh.2)
    refine ⟨?_, hf.evts _ _ hkey, hf.sigs _ _ hkey, hf.wigs _ _ hkey, hf.esrs _ _ hkey⟩
    rcases hoo with ho | ho
    · rw [ho]
    · rw [ho, mem_escAdd]
      constructor
      · rintro (hh | hh)
        · exact absurd (entry_inj hh) hne
        · exact hh
      · exact .inr

/-- A message already accepted changes nothing. -/
theorem OInv.replay (hnc : NoColl (Msg.events L)) (hv : ValidLog env (Node.start ps gs md) l p L) {n : Node} {j : Nat}
    (h : OInv env ps gs md l p L n j) (i : Nat) (hi : i < L.length) (hij : i < j) (ss ws : List Sig) (c : Option Couple)
    (eager l' : Bool) : OInv env ps gs md l p L (n.processEvent env L[i].e ss ws c eager l').1 j := by
  have hnd : NoDrt (Msg.events L) := by
    rintro e ⟨m, hm, rfl⟩
    obtain ⟨i, hi, rfl⟩ := List.getElem_of_mem hm
    exact hv.drt i hi
  have hfel : ∀ j, i < j → j ≤ L.length → L[i].e.said ∈ (inOrder env (Node.start ps gs md) l L j).db.fels p := by
    intro j
    induction j with
    | zero => intro h; omega
    | succ j ih =>
      intro h1 h2
      obtain ⟨k1, v, w, _, g, _⟩ := enters_acc (inOrder_reached j).evtU.ok (hv.ent j (by omega))
      rw [g.db.fels, hv.pre]
      simp only [upd, if_true]
      by_cases hij : i = j
      · subst hij; simp
      · exact List.mem_append_left _ (ih (by omega) (by omega))
  have hmem : L[i].e.said ∈ n.db.fels L[i].e.pre := by
    rw [hv.pre, h.logs.2.1]; exact hfel j hij h.jle
  have hU : Msg.events L L[i].e := ⟨L[i], List.getElem_mem hi, rfl⟩
  have hl := c27_replay_partial hnc hnd h.reached L[i].e hU hmem ss ws c eager l'
  obtain ⟨m1, m2, m3, m4⟩ := evts_mono h.reached L[i].e ss ws c eager l'
  obtain ⟨f1, f2, f3⟩ := h.frame hnc hv i hi (frame_process env n L[i].e ss ws c eager l')
  refine ⟨h.jle, ?_, LogsEq.trans h.logs hl, m2.trans h.prefixes, m3.trans h.groups, m4.trans h.mid,
    fun q d x hx => m1 _ _ _ (h.mono q d x hx), f1, f2, ?_, ?_⟩
  · exact h.reached.run (h' := [.event L[i].e ss ws c eager l'])
      (fun j hj x hx => by simp at hj; subst hj; simp [Inp.delivers] at hx; subst hx; exact hU)
  · intro i' hi' hji' hx
    obtain ⟨g1, g2, g3, g4, g5⟩ := f3 i' hi' (by omega)
    rw [g2, g3, g4, g5]
    exact h.held i' hi' hji' (g1.1 hx)
  · intro i' hi' hji' hx
    obtain ⟨g1, g2, g3, g4, g5⟩ := f3 i' hi' (by omega)
    rw [g3, g4, g5]
    exact h.clean i' hi' hji' (fun h' => hx (g1.2 h'))

/-- The next message is accepted. -/
theorem OInv.next (hnc : NoColl (Msg.events L)) (hv : ValidLog env (Node.start ps gs md) l p L) {n : Node} {j : Nat}
    (h : OInv env ps gs md l p L n j) (hj : j < L.length) (ss ws : List Sig) (hss : oset ss = oset L[j].ss)
    (hws : oset ws = oset L[j].ws) (c : Option Couple) (eager : Bool) :
    OInv env ps gs md l p L (n.processEvent env L[j].e ss ws c eager l).1 (j + 1) := by
  have hen := hv.ent j hj
  obtain ⟨k1, v, w, hk1, g, ha⟩ := enters_acc (inOrder_reached j).evtU.ok hen
  obtain ⟨c1, c2, c3⟩ := inOrder_cfg (env := env) (ps := ps) (gs := gs) (md := md) (l := l) (L := L) j h.jle
  obtain ⟨l1, l2, l3, l4, l5⟩ := h.logs
  have hcfg : SameCfg (inOrder env (Node.start ps gs md) l L j) n :=
    ⟨l5, by rw [h.prefixes, c1], by rw [h.groups, c2], by rw [h.mid, c3]⟩
  have hb : Below L[j].e (inOrder env (Node.start ps gs md) l L j).db n.db := ⟨fun s _ => by rw [l1], h.mono⟩
  have ha' := ha.congr hcfg hb (hv.dip j hj) (hv.drt j hj) hss hws c eager
  have hk' : ({ k1 with fn := (n.db.fels L[j].e.pre).length } : Kever) = k1 := by
    rw [l2]
    rcases ha with ⟨a, _⟩ | ⟨k, a⟩ | ⟨k, a, _⟩
    · obtain ⟨_, _, _, _, hk⟩ := a.inc; rw [hk]
    · obtain ⟨_, _, _, _, _, hk⟩ := a.rot; rw [hk]; rfl
    · obtain ⟨_, _, hk⟩ := a.val; rw [hk]; rfl
  rw [hk'] at ha'
  obtain ⟨_, _, db, k, cp, l', hs, _, hpr⟩ := ha'.planned (enters_okPre hen)
  have hacc : Acc L[j].e k1 v w n.db (n.processEvent env L[j].e ss ws c eager l).1.db := by
    rw [hpr]
    exact Acc.of_same hs (acc_log { n with db := db } k _ L[j].e v w cp l')
  have hkev : (n.processEvent env L[j].e ss ws c eager l).1.kevers = upd n.kevers L[j].e.pre (some k1) := by rw [hpr]
  obtain ⟨m1, m2, m3, m4⟩ := evts_mono h.reached L[j].e ss ws c eager l
  obtain ⟨f1, f2, f3⟩ := h.frame hnc hv j hj (frame_process env n L[j].e ss ws c eager l)
  have hr' := reached_proc (l := l) h.reached j hj ss ws c eager
  refine ⟨by omega, hr', ⟨?_, ?_, ?_, ?_, ?_⟩, m2.trans h.prefixes, m3.trans h.groups, m4.trans h.mid, ?_, f1, f2, ?_, ?_⟩
  · rw [hacc.kels, g.db.kels, l1]
  · rw [hacc.fels, g.db.fels, l2]
  · rw [hacc.fons, g.db.fons, l2, l3]
  · rw [hacc.states, g.db.states, l4]
  · rw [hkev, g.kevers, l5]
  · intro q d x hx
    rcases g.db.only _ _ _ hx with h' | ⟨h1, h2, h3⟩
    · exact hacc.mono _ _ _ (h.mono _ _ _ h')
    · subst h1 h2 h3
      obtain ⟨y, hy⟩ := hacc.stored
      have := hr'.evtU _ _ _ hy
      rw [hy, hnc y L[j].e this.2.2 ⟨L[j], List.getElem_mem hj, rfl⟩ this.2.1]
  · intro i' hi' hji' hx
    obtain ⟨g1, g2, g3, g4, g5⟩ := f3 i' hi' (by omega)
    rw [g2, g3, g4, g5]
    exact h.held i' hi' (by omega) (g1.1 hx)
  · intro i' hi' hji' hx
    obtain ⟨g1, g2, g3, g4, g5⟩ := f3 i' hi' (by omega)
    rw [g3, g4, g5]
    exact h.clean i' hi' (by omega) (fun h' => hx (g1.2 h'))

/-- A message from further on is put in the out-of-order escrow. -/
theorem OInv.ahead (hnc : NoColl (Msg.events L)) (hv : ValidLog env (Node.start ps gs md) l p L) {n : Node} {j : Nat}
    (h : OInv env ps gs md l p L n j) (i : Nat) (hi : i < L.length) (hij : j < i) (ss ws : List Sig)
    (hss : oset ss = oset L[i].ss) (hws : oset ws = oset L[i].ws) (c : Option Couple) (eager : Bool) :
    OInv env ps gs md l p L (n.processEvent env L[i].e ss ws c eager l).1 j ∧
    (n.processEvent env L[i].e ss ws c eager l).2 = .error .outOfOrder ∧
    entry p L i hi ∈ (n.processEvent env L[i].e ss ws c eager l).1.db.ooes := by
  have hproc : n.processEvent env L[i].e ss ws c eager l =
      ({ n with db := n.db.escrowOO L[i].e ss ws c l }, .error .outOfOrder) := by
    have hic : ¬ (L[i].e.ilk = .icp ∨ L[i].e.ilk = .dip) := by
      rintro (h' | h')
      · exact not_icp hv i hi (by omega) h'
      · exact hv.dip i hi h'
    have hok := enters_okPre (hv.ent i hi)
    unfold Node.processEvent
    rw [if_neg (by simp [hok]), hv.pre, h.logs.2.2.2.2]
    rcases inOrder_kever hv j h.jle with ⟨_, hk⟩ | ⟨k, hk, hsn⟩
    · rw [hk]; simp only; rw [if_neg hic]
    · rw [hk]; simp only; rw [if_neg hic, if_pos (by rw [hv.sn]; omega)]
  have hent : (L[i].e.pre, L[i].e.sn, L[i].e.said) = entry p L i hi := by rw [hv.pre, hv.sn]; rfl
  have hU : Msg.events L L[i].e := ⟨L[i], List.getElem_mem hi, rfl⟩
  have hr' := reached_proc (l := l) h.reached i hi ss ws c eager
  obtain ⟨m1, m2, m3, m4⟩ := evts_mono h.reached L[i].e ss ws c eager l
  obtain ⟨f1, f2, f3⟩ := h.frame hnc hv i hi (frame_process env n L[i].e ss ws c eager l)
  have hsame := same_escrowOO L[i].e n.db ss ws c l
  have hmem : entry p L i hi ∈ (n.processEvent env L[i].e ss ws c eager l).1.db.ooes := by
    rw [hproc]
    show _ ∈ escAdd _ _
    rw [hent, mem_escAdd]; exact .inl rfl
  refine ⟨⟨h.jle, hr', ?_, m2.trans h.prefixes, m3.trans h.groups, m4.trans h.mid,
    fun q d x hx => m1 _ _ _ (h.mono q d x hx), f1, f2, ?_, ?_⟩, by rw [hproc], hmem⟩
  · rw [hproc]
    exact LogsEq.trans h.logs ⟨hsame.kels, hsame.fels, hsame.fons, hsame.states, rfl⟩
  · intro i' hi' hji' hx
    by_cases hii : i' = i
    · subst hii
      -- signatures, witness signatures and source before
      have hold : n.db.sigs p L[i'].e.said = oset L[i'].ss ∧ n.db.wigs p L[i'].e.said = oset L[i'].ws ∧
            n.db.esrs p L[i'].e.said = some l ∨
          n.db.sigs p L[i'].e.said = [] ∧ n.db.wigs p L[i'].e.said = [] ∧ n.db.esrs p L[i'].e.said = none := by
        by_cases hin : entry p L i' hi' ∈ n.db.ooes
        · exact .inl (h.held i' hi' hji' hin).2
        · exact .inr (h.clean i' hi' hji' hin)
      have hsig : (n.db.escrowOO L[i'].e ss ws c l).sigs p L[i'].e.said = ioPut (n.db.sigs p L[i'].e.said) ss := by
        have e1 : ∀ (d : Db) (b : Bool), (d.esr L[i'].e b).sigs = d.sigs := by
          intro d b; unfold Db.esr; split
          · rfl
          · split <;> rfl
        have e2 : ∀ (d : Db), (d.putEvt L[i'].e).sigs = d.sigs := by intro d; unfold Db.putEvt; split <;> rfl
        have e3 : ∀ (d : Db), (d.putUde L[i'].e c).sigs = d.sigs := by intro d; unfold Db.putUde; split <;> rfl
        simp only [Db.escrowOO, Db.escBase, e3, e2, Db.putWigs, Db.putSigs, e1, hv.pre, upd2, and_self, if_true]
      have hwig : (n.db.escrowOO L[i'].e ss ws c l).wigs p L[i'].e.said = ioPut (n.db.wigs p L[i'].e.said) ws := by
        have e1 : ∀ (d : Db) (b : Bool), (d.esr L[i'].e b).wigs = d.wigs := by
          intro d b; unfold Db.esr; split
          · rfl
          · split <;> rfl
        have e2 : ∀ (d : Db), (d.putEvt L[i'].e).wigs = d.wigs := by intro d; unfold Db.putEvt; split <;> rfl
        have e3 : ∀ (d : Db), (d.putUde L[i'].e c).wigs = d.wigs := by intro d; unfold Db.putUde; split <;> rfl
        simp only [Db.escrowOO, Db.escBase, e3, e2, Db.putWigs, Db.putSigs, e1, hv.pre, upd2, and_self, if_true]
      have hesr : (n.db.escrowOO L[i'].e ss ws c l).esrs p L[i'].e.said = (n.db.esr L[i'].e l).esrs p L[i'].e.said := by
        have e2 : ∀ (d : Db), (d.putEvt L[i'].e).esrs = d.esrs := by intro d; unfold Db.putEvt; split <;> rfl
        have e3 : ∀ (d : Db), (d.putUde L[i'].e c).esrs = d.esrs := by intro d; unfold Db.putUde; split <;> rfl
        simp only [Db.escrowOO, Db.escBase, e3, e2, Db.putWigs, Db.putSigs]
      have hevt : (n.processEvent env L[i'].e ss ws c eager l).1.db.evts p L[i'].e.said = some L[i'].e := by
        obtain ⟨y, hy⟩ : ∃ y, (n.processEvent env L[i'].e ss ws c eager l).1.db.evts p L[i'].e.said = some y := by
          rw [hproc]
          have e3 : ∀ (d : Db), (d.putUde L[i'].e c).evts = d.evts := by intro d; unfold Db.putUde; split <;> rfl
          obtain ⟨y, hy⟩ := putEvt_stored L[i'].e (((n.db.esr L[i'].e l).putSigs L[i'].e ss).putWigs L[i'].e ws)
          rw [hv.pre] at hy
          exact ⟨y, by simp only [Db.escrowOO, Db.escBase, e3]; exact hy⟩
        have := hr'.evtU _ _ _ hy
        rw [hy, hnc y L[i'].e this.2.2 hU this.2.1]
      refine ⟨hevt, ?_, ?_, ?_⟩
      · rw [hproc]
        simp only [hsig]
        rcases hold with ⟨o1, _, _⟩ | ⟨o1, _, _⟩
        · rw [o1, ioPut_sub]
          intro x hx; rw [mem_oset]; exact (mem_of_oset_eq hss x).1 hx
        · rw [o1, ioPut_nil_eq_oset, hss]
      · rw [hproc]
        simp only [hwig]
        rcases hold with ⟨_, o1, _⟩ | ⟨_, o1, _⟩
        · rw [o1, ioPut_sub]
          intro x hx; rw [mem_oset]; exact (mem_of_oset_eq hws x).1 hx
        · rw [o1, ioPut_nil_eq_oset, hws]
      · rw [hproc]
        simp only [hesr]
        unfold Db.esr
        rw [hv.pre]
        rcases hold with ⟨_, _, o1⟩ | ⟨_, _, o1⟩
        · rw [o1]; simp only; cases l <;> simp [o1]
        · rw [o1]; simp [upd2]
    · obtain ⟨g1, g2, g3, g4, g5⟩ := f3 i' hi' hii
      rw [g2, g3, g4, g5]
      exact h.held i' hi' hji' (g1.1 hx)
  · intro i' hi' hji' hx
    by_cases hii : i' = i
    · subst hii; exact absurd hmem hx
    · obtain ⟨g1, g2, g3, g4, g5⟩ := f3 i' hi' hii
      rw [g3, g4, g5]
      exact h.clean i' hi' hji' (fun h' => hx (g1.2 h'))

end

end Verif.Kel
