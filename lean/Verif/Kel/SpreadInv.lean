import Verif.Kel.Spread

/-! # Delivery of a log in pieces: the invariant -/

namespace Verif.Kel

open Verif.Thold (Thold)

/-- Keys in force after the `i`-th message of a log. -/
def keysAt (env : Env) (n0 : Node) (l : Bool) (p : Id) (L : List Msg) (i : Nat) : List Id :=
  match (inOrder env n0 l L (i + 1)).kevers p with
  | some k => k.keys
  | none => []

/-- Witnesses in force after the `i`-th message of a log. -/
def witsAt (env : Env) (n0 : Node) (l : Bool) (p : Id) (L : List Msg) (i : Nat) : List Id :=
  match (inOrder env n0 l L (i + 1)).kevers p with
  | some k => k.wits
  | none => []

/-- The escrows in which a message without delegation waits. -/
def Waits (k : Esc) : Prop := k = .outOfOrder ∨ k = .partialSigs ∨ k = .partialWigs

/-- What an escrow method leaves for its event. -/
structure Esced (e : Event) (a b : List Sig) (l : Bool) (old new : Db) : Prop where
  sigs : new.sigs e.pre e.said = ioPut (old.sigs e.pre e.said) a
  wigs : new.wigs e.pre e.said = ioPut (old.wigs e.pre e.said) b
  esrs : new.esrs e.pre e.said = (old.esr e l).esrs e.pre e.said
  evts : ∃ x, new.evts e.pre e.said = some x

theorem esced_base (e : Event) (a b : List Sig) (c : Option Couple) (l : Bool) (db : Db) :
    Esced e a b l db ((db.escBase e a b l).putUde e c) := by
  have s1 : ∀ (d : Db) (b : Bool), (d.esr e b).sigs = d.sigs ∧ (d.esr e b).wigs = d.wigs := by
    intro d b; unfold Db.esr; split
    · exact ⟨rfl, rfl⟩
    · split <;> exact ⟨rfl, rfl⟩
  have s2 : ∀ (d : Db), (d.putEvt e).sigs = d.sigs ∧ (d.putEvt e).wigs = d.wigs ∧ (d.putEvt e).esrs = d.esrs := by
    intro d; unfold Db.putEvt; split <;> exact ⟨rfl, rfl, rfl⟩
  have s3 : ∀ (d : Db), (d.putUde e c).sigs = d.sigs ∧ (d.putUde e c).wigs = d.wigs ∧ (d.putUde e c).esrs = d.esrs ∧
      (d.putUde e c).evts = d.evts := by
    intro d; unfold Db.putUde; split <;> exact ⟨rfl, rfl, rfl, rfl⟩
  obtain ⟨t1, t2, t3, t4⟩ := s3 (db.escBase e a b l)
  refine ⟨?_, ?_, ?_, ?_⟩
  · rw [t1]; simp only [Db.escBase, (s2 _).1, Db.putWigs, Db.putSigs, (s1 _ _).1, upd2, and_self, if_true]
  · rw [t2]; simp only [Db.escBase, (s2 _).2.1, Db.putWigs, Db.putSigs, (s1 _ _).2, upd2, and_self, if_true]
  · rw [t3]; simp only [Db.escBase, (s2 _).2.2, Db.putWigs, Db.putSigs]
  · rw [t4]; exact putEvt_stored e _

theorem esced_OO (e : Event) (a b : List Sig) (c : Option Couple) (l : Bool) (db : Db) :
    Esced e a b l db (db.escrowOO e a b c l) :=
  have h := esced_base e a b c l db
  ⟨h.sigs, h.wigs, h.esrs, h.evts⟩

theorem esced_PS (e : Event) (a b : List Sig) (c : Option Couple) (l : Bool) (db : Db) :
    Esced e a b l db (db.escrowPS e a b c l) :=
  have h := esced_base e a b c l db
  ⟨h.sigs, h.wigs, h.esrs, h.evts⟩

theorem esced_PW (e : Event) (a b : List Sig) (c : Option Couple) (l : Bool) (db : Db) :
    Esced e a b l db (db.escrowPW e a b c l) :=
  have h := esced_base e a b c l db
  ⟨h.sigs, h.wigs, h.esrs, h.evts⟩

/-- Entries of the escrows in which messages wait are only added. -/
theorem frame_entries {e : Event} {a b : Db} (h : Frame e a b) {kd : Esc} (hk : Waits kd) (x : Id × Nat × Dig) :
    (x ∈ a.entries kd → x ∈ b.entries kd) ∧
    (x ≠ (e.pre, e.sn, e.said) → x ∈ b.entries kd → x ∈ a.entries kd) := by
  have hgen : ∀ {m m' : List (Id × Nat × Dig)}, (m' = m ∨ m' = escAdd m (e.pre, e.sn, e.said)) →
      (x ∈ m → x ∈ m') ∧ (x ≠ (e.pre, e.sn, e.said) → x ∈ m' → x ∈ m) := by
    intro m m' hm
    rcases hm with rfl | rfl
    · exact ⟨id, fun _ => id⟩
    · rw [mem_escAdd]
      exact ⟨.inr, fun hne hx => hx.resolve_left hne⟩
  rcases hk with rfl | rfl | rfl
  · exact hgen h.ooes
  · exact hgen h.pses
  · exact hgen h.pwes

section

variable {env : Env} {ps gs : List Id} {md : Id → Option Id} {l : Bool} {p : Id} {L : List Msg}

/-- The `i`-th message waits in one of the escrows. -/
def InEsc (p : Id) (L : List Msg) (n : Node) (i : Nat) (hi : i < L.length) : Prop :=
  ∃ kd, Waits kd ∧ entry p L i hi ∈ n.db.entries kd

/-- State of a node that has been fed pieces of the log. -/
structure SInv (env : Env) (ps gs : List Id) (md : Id → Option Id) (l : Bool) (p : Id) (L : List Msg) (n : Node) (j : Nat) :
    Prop where
  jle : j ≤ L.length
  reached : Reached env (Msg.events L) n
  logs : LogsEq (inOrder env (Node.start ps gs md) l L j) n
  prefixes : n.prefixes = ps
  groups : n.groups = gs
  mid : n.mid = md
  mono : ∀ q d x, (inOrder env (Node.start ps gs md) l L j).db.evts q d = some x → n.db.evts q d = some x
  sub : ∀ i (hi : i < L.length), j ≤ i → (∀ s, s ∈ n.db.sigs p L[i].e.said → s ∈ L[i].ss) ∧
    (∀ s, s ∈ n.db.wigs p L[i].e.said → s ∈ L[i].ws) ∧ ∀ b, n.db.esrs p L[i].e.said = some b → b = l
  held : ∀ i (hi : i < L.length), j ≤ i → n.db.sigs p L[i].e.said ≠ [] → n.db.evts p L[i].e.said = some L[i].e ∧
    n.db.esrs p L[i].e.said = some l ∧ ∃ s, s ∈ n.db.sigs p L[i].e.said ∧
      Verifies env (keysAt env (Node.start ps gs md) l p L i) L[i].e s
  inesc : ∀ i (hi : i < L.length), j ≤ i → InEsc p L n i hi → n.db.sigs p L[i].e.said ≠ []

/-- No verifying signature of the `i`-th message is missing. -/
def Complete (env : Env) (ps gs : List Id) (md : Id → Option Id) (l : Bool) (p : Id) (L : List Msg) (i : Nat)
    (hi : i < L.length) (ss ws : List Sig) : Prop :=
  (∀ s, s ∈ L[i].ss → Verifies env (keysAt env (Node.start ps gs md) l p L i) L[i].e s → s ∈ ss) ∧
  ∀ s, s ∈ L[i].ws → Verifies env (witsAt env (Node.start ps gs md) l p L i) L[i].e s → s ∈ ws

theorem sinv_start (L : List Msg) : SInv env ps gs md l p L (Node.start ps gs md) 0 := by
  refine ⟨by omega, ⟨ps, gs, md, [], fun i hi => absurd hi (by simp), rfl⟩, ⟨rfl, rfl, rfl, rfl, rfl⟩, rfl, rfl, rfl,
    fun _ _ _ h => h, ?_, ?_, ?_⟩
  · intro i hi _; simp [Node.start, Db.empty]
  · intro i hi _ h; exact absurd rfl h
  · rintro i hi _ ⟨kd, _, hx⟩; cases kd <;> exact absurd hx (by simp [Node.start, Db.empty, Db.entries])

theorem entry_eq (hv : ValidLog env (Node.start ps gs md) l p L) (i : Nat) (hi : i < L.length) :
    (L[i].e.pre, L[i].e.sn, L[i].e.said) = entry p L i hi := by rw [hv.pre, hv.sn]; rfl

/-- Messages other than the one processed are as before. -/
theorem other (hnc : NoColl (Msg.events L)) (hv : ValidLog env (Node.start ps gs md) l p L) {a db : Db} (i : Nat)
    (hi : i < L.length) (hf : Frame L[i].e a db) (i' : Nat) (hi' : i' < L.length) (hne : i' ≠ i) :
    db.evts p L[i'].e.said = a.evts p L[i'].e.said ∧ db.sigs p L[i'].e.said = a.sigs p L[i'].e.said ∧
    db.wigs p L[i'].e.said = a.wigs p L[i'].e.said ∧ db.esrs p L[i'].e.said = a.esrs p L[i'].e.said ∧
    ∀ kd, Waits kd → (entry p L i' hi' ∈ db.entries kd ↔ entry p L i' hi' ∈ a.entries kd) := by
  have hkey : ¬ (p = L[i].e.pre ∧ L[i'].e.said = L[i].e.said) := fun hh => hne (said_inj hnc hv hi' hi hh.2)
  refine ⟨hf.evts _ _ hkey, hf.sigs _ _ hkey, hf.wigs _ _ hkey, hf.esrs _ _ hkey, ?_⟩
  intro kd hkd
  have := frame_entries hf hkd (entry p L i' hi')
  rw [entry_eq hv i hi] at this
  exact ⟨this.2 (fun h => hne (entry_inj h)), this.1⟩

/-- The part of the invariant about messages, for a node that differs in the stores of one earlier message only. -/
theorem SInv.rest (hnc : NoColl (Msg.events L)) (hv : ValidLog env (Node.start ps gs md) l p L) {n n' : Node} {j j' : Nat}
    (h : SInv env ps gs md l p L n j) (i : Nat) (hi : i < L.length) (hf : Frame L[i].e n.db n'.db) (hj : j ≤ j') (hij : i < j')
    (hjle : j' ≤ L.length) (hr : Reached env (Msg.events L) n') (hl : LogsEq (inOrder env (Node.start ps gs md) l L j') n')
    (hp : n'.prefixes = n.prefixes) (hg : n'.groups = n.groups) (hmd : n'.mid = n.mid)
    (hmono : ∀ q d x, (inOrder env (Node.start ps gs md) l L j').db.evts q d = some x → n'.db.evts q d = some x) :
    SInv env ps gs md l p L n' j' := by
  refine ⟨hjle, hr, hl, hp.trans h.prefixes, hg.trans h.groups, hmd.trans h.mid, hmono, ?_, ?_, ?_⟩
  · intro i' hi' hji'
    obtain ⟨f1, f2, f3, f4, f5⟩ := other hnc hv i hi hf i' hi' (by omega)
    rw [f2, f3, f4]; exact h.sub i' hi' (by omega)
  · intro i' hi' hji'
    obtain ⟨f1, f2, f3, f4, f5⟩ := other hnc hv i hi hf i' hi' (by omega)
    rw [f1, f2, f4]; exact h.held i' hi' (by omega)
  · rintro i' hi' hji' ⟨kd, hkd, hx⟩
    obtain ⟨f1, f2, f3, f4, f5⟩ := other hnc hv i hi hf i' hi' (by omega)
    rw [f2]; exact h.inesc i' hi' (by omega) ⟨kd, hkd, (f5 kd hkd).1 hx⟩

/-- A message already accepted changes nothing. -/
theorem SInv.replay (hnc : NoColl (Msg.events L)) (hv : ValidLog env (Node.start ps gs md) l p L) {n : Node} {j : Nat}
    (h : SInv env ps gs md l p L n j) (i : Nat) (hi : i < L.length) (hij : i < j) (ss ws : List Sig) (c : Option Couple)
    (eager l' : Bool) : SInv env ps gs md l p L (n.processEvent env L[i].e ss ws c eager l').1 j := by
  obtain ⟨m1, m2, m3, m4⟩ := evts_mono h.reached L[i].e ss ws c eager l'
  have hl : LogsEq (inOrder env (Node.start ps gs md) l L j) (n.processEvent env L[i].e ss ws c eager l').1 := by
    rcases prefix_proc hv h.jle h.reached.evtU.ok h.logs i hi ss ws c eager l' with h | ⟨h, _⟩
    · exact h
    · omega
  have hr := reached_proc (l := l') h.reached i hi ss ws c eager
  exact h.rest hnc hv i hi (frame_process env n L[i].e ss ws c eager l') (Nat.le_refl _) hij h.jle hr hl m2 m3 m4
    (fun q d x hx => m1 _ _ _ (h.mono q d x hx))

/-- An escrowed message. -/
theorem SInv.esc (hnc : NoColl (Msg.events L)) (hv : ValidLog env (Node.start ps gs md) l p L) {n : Node} {j : Nat}
    (h : SInv env ps gs md l p L n j) (i : Nat) (hi : i < L.length) (hij : j ≤ i) {a b : List Sig} {db : Db}
    (hf : Frame L[i].e n.db db) (hs : Same L[i].e n.db db) (he : Esced L[i].e a b l n.db db)
    (hr : Reached env (Msg.events L) { n with db := db }) (ha : ∀ s, s ∈ a → s ∈ L[i].ss) (hb : ∀ s, s ∈ b → s ∈ L[i].ws)
    (hver : ∃ s, s ∈ a ∧ Verifies env (keysAt env (Node.start ps gs md) l p L i) L[i].e s) :
    SInv env ps gs md l p L { n with db := db } j ∧ (∀ s, s ∈ a → s ∈ db.sigs p L[i].e.said) ∧
      ∀ s, s ∈ b → s ∈ db.wigs p L[i].e.said := by
  have e1 := he.sigs
  have e2 := he.wigs
  have e3 := he.esrs
  obtain ⟨y, e4⟩ := he.evts
  rw [hv.pre] at e1 e2 e3 e4
  have hevt : db.evts p L[i].e.said = some L[i].e := by
    have := hr.evtU _ _ _ e4
    rw [e4, hnc y L[i].e this.2.2 ⟨L[i], List.getElem_mem hi, rfl⟩ this.2.1]
  have hesr : db.esrs p L[i].e.said = some l := by
    rw [e3]
    unfold Db.esr
    rw [hv.pre]
    have hold := (h.sub i hi hij).2.2
    cases ho : n.db.esrs p L[i].e.said with
    | none => simp [upd2]
    | some b0 =>
      have hb0 := hold b0 ho
      subst hb0
      cases b0 <;> simp [ho]
  obtain ⟨s0, hs0, hv0⟩ := hver
  have hmem : ∀ s, s ∈ a → s ∈ db.sigs p L[i].e.said := fun s hs => by rw [e1, mem_ioPut]; exact .inr hs
  refine ⟨⟨h.jle, hr, LogsEq.trans h.logs ⟨hs.kels, hs.fels, hs.fons, hs.states, rfl⟩, h.prefixes, h.groups, h.mid,
    fun q d x hx => hs.mono _ _ _ (h.mono q d x hx), ?_, ?_, ?_⟩, hmem, fun s hs => by rw [e2, mem_ioPut]; exact .inr hs⟩
  · intro i' hi' hji'
    by_cases hii : i' = i
    · subst hii
      refine ⟨?_, ?_, ?_⟩
      · intro s hs
        simp only [e1, mem_ioPut] at hs
        exact hs.elim ((h.sub i' hi hij).1 s) (ha s)
      · intro s hs
        simp only [e2, mem_ioPut] at hs
        exact hs.elim ((h.sub i' hi hij).2.1 s) (hb s)
      · intro b hb
        simp only [hesr] at hb
        injection hb with hb; exact hb.symm
    · obtain ⟨f1, f2, f3, f4, f5⟩ := other hnc hv i hi hf i' hi' hii
      simp only [f2, f3, f4]; exact h.sub i' hi' hji'
  · intro i' hi' hji'
    by_cases hii : i' = i
    · subst hii; intro _; exact ⟨hevt, hesr, s0, hmem s0 hs0, hv0⟩
    · obtain ⟨f1, f2, f3, f4, f5⟩ := other hnc hv i hi hf i' hi' hii
      simp only [f1, f2, f4]; exact h.held i' hi' hji'
  · rintro i' hi' hji' ⟨kd, hkd, hx⟩
    by_cases hii : i' = i
    · subst hii
      intro h0
      have := hmem s0 hs0
      simp only at h0
      rw [h0] at this; exact absurd this (by simp)
    · obtain ⟨f1, f2, f3, f4, f5⟩ := other hnc hv i hi hf i' hi' hii
      simp only [f2]; exact h.inesc i' hi' hji' ⟨kd, hkd, (f5 kd hkd).1 hx⟩

end

end Verif.Kel
