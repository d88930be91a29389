import Verif.Grp.PropsAnchor

/-!
# Properties of delegations: completion, and the seals entered
-/

namespace Verif.Grp

open Verif.Kel (Id Dig Event Kever Seal Ilk upd upd2)

/-! ## C142 -/

/-- The event waits for publication, its publisher is idle, and it is the only one of its identifier. -/
structure Published (w : World) (e : Event) : Prop where
  waits : e ∈ w.dpub
  idle : ∃ b, w.pubs e.pre = some b ∧ b.idle = true
  alone : ∀ y, y ∈ w.dpwe ∨ y ∈ w.dune ∨ y ∈ w.dpub → y.pre = e.pre → y = e
  moved : e ∉ w.dpwe ∧ e ∉ w.dune

/-- Writes about identifiers other than `p`, of the Anchorer. -/
def Wr.offOf (p : Id) : Wr → Prop
  | .dpwePin y | .dunePin y | .dpubPut y => y.pre ≠ p
  | .dpweRem k | .duneRem k | .dpubRem k => k.1 ≠ p
  | .pubNew q | .pubFeed q _ | .pubDel q => q ≠ p
  | .cdelPut q _ _ => q ≠ p
  | _ => True

theorem Published.apply {w : World} {e : Event} (h : Published w e) {z : Wr} (hz : z.offOf e.pre) : Published (w.apply z) e := by
  obtain ⟨h1, h2, h3, h4⟩ := h
  cases z with
  | dpwePin y =>
    have hz : y.pre ≠ e.pre := hz
    refine ⟨h1, h2, fun u hu hp => ?_, fun hu => ?_, h4.2⟩
    · rcases hu with hu | hu
      · rcases mem_evPin.1 hu with rfl | hu
        · exact absurd hp hz
        · exact h3 u (.inl hu.1) hp
      · exact h3 u (.inr hu) hp
    · rcases mem_evPin.1 hu with rfl | hu
      · exact hz rfl
      · exact h4.1 hu.1
  | dunePin y =>
    have hz : y.pre ≠ e.pre := hz
    refine ⟨h1, h2, fun u hu hp => ?_, h4.1, fun hu => ?_⟩
    · rcases hu with hu | hu | hu
      · exact h3 u (.inl hu) hp
      · rcases mem_evPin.1 hu with rfl | hu
        · exact absurd hp hz
        · exact h3 u (.inr (.inl hu.1)) hp
      · exact h3 u (.inr (.inr hu)) hp
    · rcases mem_evPin.1 hu with rfl | hu
      · exact hz rfl
      · exact h4.2 hu.1
  | dpubPut y =>
    have hz : y.pre ≠ e.pre := hz
    refine ⟨evPut_keeps h1, h2, fun u hu hp => ?_, h4⟩
    rcases hu with hu | hu | hu
    · exact h3 u (.inl hu) hp
    · exact h3 u (.inr (.inl hu)) hp
    · rcases mem_evPut hu with rfl | hu
      · exact absurd hp hz
      · exact h3 u (.inr (.inr hu)) hp
  | dpweRem k =>
    refine ⟨h1, h2, fun u hu hp => ?_, fun hu => h4.1 (mem_evRem.1 hu).1, h4.2⟩
    rcases hu with hu | hu
    · exact h3 u (.inl (mem_evRem.1 hu).1) hp
    · exact h3 u (.inr hu) hp
  | duneRem k =>
    refine ⟨h1, h2, fun u hu hp => ?_, h4.1, fun hu => h4.2 (mem_evRem.1 hu).1⟩
    rcases hu with hu | hu | hu
    · exact h3 u (.inl hu) hp
    · exact h3 u (.inr (.inl (mem_evRem.1 hu).1)) hp
    · exact h3 u (.inr (.inr hu)) hp
  | dpubRem k =>
    refine ⟨mem_evRem.2 ⟨h1, fun hk => hz (by rw [← hk]; rfl)⟩, h2, fun u hu hp => ?_, h4⟩
    rcases hu with hu | hu | hu
    · exact h3 u (.inl hu) hp
    · exact h3 u (.inr (.inl hu)) hp
    · exact h3 u (.inr (.inr (mem_evRem.1 hu).1)) hp
  | pubNew q =>
    have hz : q ≠ e.pre := hz
    exact ⟨h1, by simpa [World.apply, upd, Ne.symm hz] using h2, h3, h4⟩
  | pubDel q =>
    have hz : q ≠ e.pre := hz
    exact ⟨h1, by simpa [World.apply, upd, Ne.symm hz] using h2, h3, h4⟩
  | pubFeed q n =>
    have hz : q ≠ e.pre := hz
    simp only [World.apply]
    split
    · exact ⟨h1, h2, h3, h4⟩
    · exact ⟨h1, by simpa [upd, Ne.symm hz] using h2, h3, h4⟩
  | cgmsPut y => simp only [World.apply]; split <;> exact ⟨h1, h2, h3, h4⟩
  | cdelPut q sn d => simp only [World.apply]; split <;> exact ⟨h1, h2, h3, h4⟩
  | _ => exact ⟨h1, h2, h3, h4⟩

theorem Published.writes {w : World} {e : Event} (h : Published w e) {ws : List Wr} (hz : ∀ z ∈ ws, z.offOf e.pre) : Published (w.applyAll ws) e :=
  writes_keep (P := fun w => Published w e) (fun _ _ h l => h.apply l) _ hz h

theorem dPartialWitness_off {w : World} {y : Event} {p : Id} (hy : y.pre ≠ p) (hw : ∀ q d s, w.node.db.evts q d = some s → s.pre = q) :
    ∀ z ∈ (dPartialWitness w y).1, z.offOf p := by
  unfold dPartialWitness
  split
  · simp
  split
  · split
    · simp
    split
    · simp
    split
    · simp
    split
    · simp
    split
    · simp
    split
    · simp
    · simp
    · rename_i s _ _ hs _
      have := hw _ _ _ hs
      simp [Wr.offOf, key, hy, this]
  · simp

theorem unanchored_off {env : Env} {w : World} {y : Event} {p : Id} (hy : y.pre ≠ p) : ∀ z ∈ (unanchored env w y).1, z.offOf p := by
  unfold unanchored
  split
  · simp
  split
  · simp
  split
  · simp
  split
  · simp
  dsimp only
  split
  · simp [Wr.offOf, key, hy]
  split <;> simp [Wr.offOf, key, hy]

theorem publication_off {w : World} {y : Event} {p : Id} (hy : y.pre ≠ p) : ∀ z ∈ (publication w y).1, z.offOf p := by
  unfold publication
  split
  · simp
  split
  · simp
  · simp [Wr.offOf, key, hy]

theorem cdel_isSome_all {w : World} {p : Id} {sn : Nat} (h : (w.cdel p sn).isSome = true) (ws : List Wr) : ((w.applyAll ws).cdel p sn).isSome = true :=
  writes_keep (P := fun w => (w.cdel p sn).isSome = true) (L := fun _ => True) (fun _ z h _ => cdel_isSome h z) ws (by simp) h

theorem publication_done {w : World} {e : Event} (h : ∃ b, w.pubs e.pre = some b ∧ b.idle = true) : ((w.applyAll (publication w e).1).cdel e.pre e.sn).isSome = true := by
  obtain ⟨b, hb, hi⟩ := h
  unfold publication
  rw [hb]
  simp only [hi]
  show (World.cdel (World.apply (World.apply (World.apply w (.pubDel e.pre)) (.dpubRem (key e))) (.cdelPut e.pre e.sn e.said)) e.pre e.sn).isSome = true
  generalize World.apply (World.apply w (.pubDel e.pre)) (.dpubRem (key e)) = w2
  simp only [World.apply]
  split
  · simp [upd2]
  · rename_i hc; rw [hc]; rfl

/-- C142. A delegated event whose approval was found and whose publisher has sent all is complete after the next pass of the Anchorer, if it is the only one of its identifier that
waits, unless the pass raises an exception. -/
theorem c142_completed {env : Env} {w : World} {e : Event} (h : Published w e) (hw : ∀ q d s, w.node.db.evts q d = some s → s.pre = q) (he : (anchor env w).2 = none) :
    ((w.step env .anchor).cdel e.pre e.sn).isSome = true := by
  obtain ⟨w1, w2, e1, n1, e2, n2, n3, e3⟩ := anchor_parts he
  show ((w.applyAll (anchor env w).1).cdel e.pre e.sn).isSome = true
  rw [e3]
  have f1 : Frame w w1 := e1 ▸ frame_applyAll _ _
  have p1 : Published w1 e := by
    rw [e1]
    refine pass_whole (P := fun w => Published w e) _ n1 (fun w' fr p y hy hn => p.writes (dPartialWitness_off ?_ (by rw [fr.evts]; exact hw))) h
    intro hp
    exact h.moved.1 (h.alone y (.inl hy) hp ▸ hy)
  have p2 : Published w2 e := by
    rw [e2]
    refine pass_whole (P := fun w => Published w e) _ n2 (fun w' fr p y hy hn => p.writes (unanchored_off ?_)) p1
    intro hp
    exact p1.moved.2 (p1.alone y (.inr (.inl hy)) hp ▸ hy)
  refine (pass_reach (P := fun w => (w.cdel e.pre e.sn).isSome = true ∨ Published w e) (Q := fun w => (w.cdel e.pre e.sn).isSome = true) _ n3 ?_ ?_ ?_ (.inr p2)).2
  · intro w' fr p y hy hn
    rcases p with p | p
    · exact .inl (cdel_isSome_all p _)
    · by_cases hp : y.pre = e.pre
      · have := p2.alone y (.inr (.inr hy)) hp
        subst this
        exact .inl (publication_done p.idle)
      · exact .inr (p.writes (publication_off hp))
  · intro w' fr _ hq y hy hn; exact cdel_isSome_all hq _
  · refine .inr ⟨e, p2.waits, fun w' fr p hn => ?_⟩
    rcases p with p | p
    · exact cdel_isSome_all p _
    · exact publication_done p.idle

/-- There is no publisher for `p`, and what is reported is as given. -/
structure Idle (p : Id) (c : Nat → Option Dig) (w : World) : Prop where
  gpse : ∀ y ∈ w.gpse, y.1 ≠ p
  pubs : w.pubs p = none
  cdel : w.cdel p = c

/-- Nobody asks for delegation of `p` again. -/
def NotAsked (p : Id) (_ : World) (i : Inp) : Prop := (∀ sn, i ≠ .delegation p sn) ∧ ∀ num d, i ≠ .start p num d

def Wr.noPub (p : Id) : Wr → Prop
  | .pubNew q => q ≠ p
  | .cdelPut q _ _ => q ≠ p
  | _ => True

theorem Idle.apply {p : Id} {c : Nat → Option Dig} {w : World} (h : Idle p c w) {z : Wr} (hz : z.noPub p) : Idle p c (w.apply z) := by
  cases z with
  | gpseRem q => exact ⟨fun y hy => h.gpse y (List.mem_filter.1 hy).1, h.pubs, h.cdel⟩
  | pubNew q =>
    have hz : q ≠ p := hz
    exact ⟨h.gpse, by simpa [World.apply, upd, Ne.symm hz] using h.pubs, h.cdel⟩
  | pubDel q =>
    refine ⟨h.gpse, ?_, h.cdel⟩
    simp only [World.apply, upd]
    split
    · rfl
    · exact h.pubs
  | pubFeed q n =>
    simp only [World.apply]
    split
    · exact h
    · rename_i b hb
      refine ⟨h.gpse, ?_, h.cdel⟩
      simp only [upd]
      rw [if_neg]
      · exact h.pubs
      · rintro rfl; rw [h.pubs] at hb; cases hb
  | cdelPut q sn d =>
    have hz : q ≠ p := hz
    simp only [World.apply]
    split
    · refine ⟨h.gpse, h.pubs, ?_⟩
      funext n
      simp only [upd2]
      rw [if_neg (fun he => hz he.1.symm)]
      exact congrFun h.cdel n
    · exact h
  | cgmsPut y => simp only [World.apply]; split <;> exact ⟨h.gpse, h.pubs, h.cdel⟩
  | _ => exact ⟨h.gpse, h.pubs, h.cdel⟩

theorem Idle.part {p : Id} {c : Nat → Option Dig} {w : World} (h : Idle p c w) {ws : List Wr} (hz : ∀ z ∈ ws, z.noPub p) (n : Nat) : Idle p c (w.applyAll (ws.take n)) :=
  writes_keep (P := Idle p c) (fun _ _ h l => h.apply l) _ (fun z hm => hz z (List.mem_of_mem_take hm)) h

theorem delegation_noPub {w : World} {p q : Id} {sn : Option Nat} (hq : q ≠ p) : ∀ z ∈ (delegation w q sn).1, z.noPub p := by
  intro x hx
  unfold delegation at hx
  split at hx
  · simp at hx
  split at hx
  · simp at hx; subst hx; exact hq
  split at hx
  · simp at hx; subst hx; exact hq
  split at hx
  · simp at hx; subst hx; exact hq
  dsimp only at hx
  split at hx
  · simp at hx; subst hx; exact hq
  split at hx
  · simp at hx; subst hx; exact hq
  · simp at hx; rcases hx with rfl | rfl | rfl
    · exact hq
    · trivial
    · trivial

theorem partialSigned_noPub {w : World} {p : Id} {x : Entry} (hq : x.1 ≠ p) : ∀ z ∈ (partialSigned w x).1, z.noPub p := by
  unfold partialSigned
  split
  · simp
  split
  · simp [Wr.noPub]
  split
  · simp [Wr.noPub]
  split
  · simp [Wr.noPub]
  split
  · simp [Wr.noPub]
  split
  · simp [Wr.noPub]
  split
  · split
    · split
      · rename_i ws e hd
        intro y hy
        rcases List.mem_cons.1 hy with rfl | hy
        · trivial
        · exact delegation_noPub hq y (by rw [hd]; exact hy)
      · rename_i ws hd
        intro y hy
        simp only [List.cons_append, List.mem_cons, List.mem_append, List.not_mem_nil, or_false] at hy
        rcases hy with rfl | hy | rfl
        · trivial
        · exact delegation_noPub hq y (by rw [hd]; exact hy)
        · trivial
    · simp [Wr.noPub]
  · split <;> simp [Wr.noPub]

theorem Idle.counsel {p : Id} {c : Nat → Option Dig} {w : World} (h : Idle p c w) (n : Nat) : Idle p c (w.applyAll ((counsel w).1.take n)) := by
  unfold Grp.counsel
  refine three_part (P := Idle p c) (a := World.gpse) (b := World.gdee) (c := World.gpwe) ?_ ?_ ?_ h n
  · intro w' _ hp x hx n; exact hp.part (partialSigned_noPub (h.gpse x hx)) n
  · intro _ _ _ w' _ hp x _ n
    refine hp.part ?_ n
    unfold delegateEsc
    split
    · simp
    split
    · simp
    split
    · simp
    · split <;> simp [Wr.noPub]
    · split
      · simp
      split <;> simp [Wr.noPub]
  · intro _ _ _ w' _ hp x _ n
    refine hp.part ?_ n
    unfold partialWitness
    split
    · simp
    split
    · simp
    split
    · simp
    split
    · split <;> simp [Wr.noPub]
    · simp

theorem Idle.anchor {env : Env} {p : Id} {c : Nat → Option Dig} {w : World} (h : Idle p c w) (n : Nat) : Idle p c (w.applyAll ((anchor env w).1.take n)) := by
  unfold Grp.anchor
  refine three_part (P := Idle p c) (a := World.dpwe) (b := World.dune) (c := World.dpub) ?_ ?_ ?_ h n
  · intro w' _ hp x _ n
    refine hp.part ?_ n
    unfold dPartialWitness
    split
    · simp
    split
    · split
      · simp
      split
      · simp
      split
      · simp
      split
      · simp
      split
      · simp
      split <;> simp [Wr.noPub]
    · simp
  · intro _ _ _ w' _ hp x _ n
    refine hp.part ?_ n
    unfold unanchored
    split
    · simp
    split
    · simp
    split
    · simp
    split
    · simp
    dsimp only
    split
    · simp [Wr.noPub]
    split <;> simp [Wr.noPub]
  · intro _ _ _ w' _ hp x _ n
    refine hp.part ?_ n
    unfold publication
    split
    · simp
    rename_i b hb
    split
    · simp
    · have : x.pre ≠ p := by rintro rfl; rw [hp.pubs] at hb; cases hb
      simp [Wr.noPub, this]

theorem Idle.step {env : Env} {p : Id} {c : Nat → Option Dig} {w : World} (h : Idle p c w) {i : Inp} (g : NotAsked p w i) : Idle p c (w.step env i) := by
  cases i with
  | start q num d =>
    simp only [World.step]
    split
    · refine ⟨fun y hy => ?_, h.pubs, h.cdel⟩
      rcases mem_entAdd.1 hy with rfl | hy
      · rintro rfl; exact g.2 num d rfl
      · exact h.gpse y hy
    · exact h
  | delegation q s =>
    have hq : q ≠ p := by rintro rfl; exact g.1 s rfl
    have := h.part (delegation_noPub (w := w) (sn := s) hq) (Grp.delegation w q s).1.length
    rw [take_all] at this; exact this
  | counsel => have := h.counsel (Grp.counsel w).1.length; rw [take_all] at this; exact this
  | anchor => have := h.anchor (env := env) (Grp.anchor env w).1.length; rw [take_all] at this; exact this
  | pubStart q =>
    simp only [World.step]
    split
    · rename_i b hb
      refine ⟨h.gpse, ?_, h.cdel⟩
      simp only [upd]
      rw [if_neg]
      · exact h.pubs
      · rintro rfl; rw [h.pubs] at hb; cases hb
    · exact h
  | pubDone q =>
    simp only [World.step]
    split
    · rename_i b hb
      refine ⟨h.gpse, ?_, h.cdel⟩
      simp only [upd]
      rw [if_neg]
      · exact h.pubs
      · rintro rfl; rw [h.pubs] at hb; cases hb
    · exact h
  | crashCounsel n => have := h.counsel n; exact ⟨this.gpse, rfl, this.cdel⟩
  | crashAnchor n => have := h.anchor (env := env) n; exact ⟨this.gpse, rfl, this.cdel⟩
  | restart => exact ⟨h.gpse, rfl, h.cdel⟩
  | _ => exact ⟨h.gpse, h.pubs, h.cdel⟩

/-- C142, where the code fails: as long as there is no publisher for an identifier no delegation of it is ever reported complete, whatever is approved, unless delegation is asked
for again. -/
theorem c142_stuck {env : Env} {p : Id} {w w' : World} (hs : ∀ y ∈ w.gpse, y.1 ≠ p) (hp : w.pubs p = none) (h : Hist env (NotAsked p) w w') (sn : Nat) :
    w'.cdel p sn = w.cdel p sn := by
  have h0 : Idle p (w.cdel p) w := ⟨hs, hp, rfl⟩
  have : Idle p (w.cdel p) w' := by
    clear hs hp
    induction h with
    | nil => exact h0
    | step i _ g ih => exact ih.step g
  exact congrFun this.cdel sn

/-- C142: there is no publisher after a restart, and none after a delegation of the identifier was completed. -/
theorem c142_no_publisher {env : Env} {w : World} {p : Id} : (w.step env .restart).pubs p = none ∧
    ∀ e, e.pre = p → (publication w e).1 ≠ [] → (w.applyAll (publication w e).1).pubs p = none := by
  refine ⟨rfl, fun e he hne => ?_⟩
  unfold publication at hne ⊢
  split at hne
  · simp at hne
  rename_i b hb
  split at hne
  · simp at hne
  rename_i hi
  rw [if_neg hi]
  show (World.apply (World.apply (World.apply w (.pubDel e.pre)) (.dpubRem (key e))) (.cdelPut e.pre e.sn e.said)).pubs p = none
  simp only [World.apply]
  split <;> simp [upd, he]

/-! ## C143 -/

/-- The own node holds an event of `dp` with the seal, at the place `c`. -/
def SealedAt (n : Kel.Node) (dp : Id) (s : Seal) (c : Kel.Couple) : Prop :=
  ∃ sn d e, lastAt n dp sn = some d ∧ n.db.evts dp d = some e ∧ s ∈ e.seals ∧ n.fullyWitnessed e = true ∧ c = (e.sn, e.said)

theorem findSeal_at {n : Kel.Node} {dp : Id} {s : Seal} {e : Event} (h : n.findSeal dp s = some e) : SealedAt n dp s (e.sn, e.said) := by
  have hm := List.mem_of_find?_eq_some h
  have hp := List.find?_some h
  simp only [Bool.and_eq_true, decide_eq_true_eq] at hp
  obtain ⟨sn, d, h1, h2⟩ := lastEvents_says hm
  exact ⟨sn, d, e, h1, h2, hp.1, hp.2, rfl⟩

/-- What is entered as place of approval is as before, or is that of an event that seals the event it is entered for. -/
def SealsRight (w w' : World) : Prop := ∀ p d c, w'.node.db.aess p d = some c → w.node.db.aess p d = some c ∨ ∃ dp sn, SealedAt w.node dp ⟨p, sn, d⟩ c

def Wr.sealRight (w : World) : Wr → Prop
  | .aessPin p d c => ∃ dp sn, SealedAt w.node dp ⟨p, sn, d⟩ c
  | _ => True

theorem SealsRight.apply {w w' : World} (h : SealsRight w w') {z : Wr} (hz : z.sealRight w) : SealsRight w (w'.apply z) := by
  intro p d c hc
  cases z with
  | aessPin q e c' =>
    simp only [World.apply, upd2] at hc
    split at hc
    · rename_i he; obtain ⟨rfl, rfl⟩ := he; injection hc with hc; subst hc; exact .inr hz
    · exact h p d c hc
  | cgmsPut y => simp only [World.apply] at hc; split at hc <;> exact h p d c hc
  | cdelPut q sn d => simp only [World.apply] at hc; split at hc <;> exact h p _ c hc
  | pubFeed q n => simp only [World.apply] at hc; split at hc <;> exact h p d c hc
  | _ => exact h p d c hc

theorem SealsRight.part {w w' : World} (h : SealsRight w w') {ws : List Wr} (hz : ∀ z ∈ ws, z.sealRight w) (n : Nat) : SealsRight w (w'.applyAll (ws.take n)) :=
  writes_keep (P := SealsRight w) (fun _ _ h l => h.apply l) _ (fun z hm => hz z (List.mem_of_mem_take hm)) h

theorem partialSigned_sealRight {v w : World} {x : Entry} : ∀ z ∈ (partialSigned w x).1, z.sealRight v := by
  have hd : ∀ {p sn}, ∀ z ∈ (delegation w p sn).1, z.sealRight v := by
    intro p sn z hz
    unfold delegation at hz
    split at hz
    · simp at hz
    split at hz
    · simp at hz; subst hz; trivial
    split at hz
    · simp at hz; subst hz; trivial
    split at hz
    · simp at hz; subst hz; trivial
    dsimp only at hz
    split at hz
    · simp at hz; subst hz; trivial
    split at hz
    · simp at hz; subst hz; trivial
    · simp at hz; rcases hz with rfl | rfl | rfl <;> trivial
  unfold partialSigned
  split
  · simp
  split
  · simp [Wr.sealRight]
  split
  · simp [Wr.sealRight]
  split
  · simp [Wr.sealRight]
  split
  · simp [Wr.sealRight]
  split
  · simp [Wr.sealRight]
  split
  · split
    · split
      · rename_i ws e he
        intro y hy
        rcases List.mem_cons.1 hy with rfl | hy
        · trivial
        · exact hd y (by rw [he]; exact hy)
      · rename_i ws he
        intro y hy
        simp only [List.cons_append, List.mem_cons, List.mem_append, List.not_mem_nil, or_false] at hy
        rcases hy with rfl | hy | rfl
        · trivial
        · exact hd y (by rw [he]; exact hy)
        · trivial
    · simp [Wr.sealRight]
  · split <;> simp [Wr.sealRight]

/-- C143, Counselor: the place of approval entered for an event is that of an event which seals it, at every moment of a pass. -/
theorem c143_counselor {w : World} (n : Nat) : SealsRight w (w.applyAll ((counsel w).1.take n)) := by
  unfold Grp.counsel
  refine three_part (P := SealsRight w) (a := World.gpse) (b := World.gdee) (c := World.gpwe) ?_ ?_ ?_ (fun _ _ _ h => .inl h) n
  · intro w' _ hp x hx n; exact hp.part partialSigned_sealRight n
  · intro _ _ _ w' fr hp x _ n
    refine hp.part ?_ n
    unfold delegateEsc
    split
    · simp
    split
    · simp
    split
    · simp
    · split <;> simp [Wr.sealRight]
    · split
      · simp
      rename_i dp _
      split
      · simp
      · rename_i de hde
        rw [fr.findSeal] at hde
        have : ∃ dp sn, SealedAt w.node dp ⟨x.1, sn, x.2.2⟩ (de.sn, de.said) := ⟨dp, _, findSeal_at hde⟩
        simp [Wr.sealRight, this]
  · intro _ _ _ w' _ hp x _ n
    refine hp.part ?_ n
    unfold partialWitness
    split
    · simp
    split
    · simp
    split
    · simp
    split
    · split <;> simp [Wr.sealRight]
    · simp

/-- Events that wait for approval, or will when their receipts are there. -/
def Awaits (w : World) (e : Event) : Prop := e ∈ w.dune ∨ ∃ y ∈ w.dpwe, w.node.db.evts y.pre y.said = some e

theorem dune_part {w w' : World} (h : ∀ e ∈ w'.dune, Awaits w e) {ws : List Wr} (hz : ∀ z ∈ ws, ∀ e, z = .dunePin e → Awaits w e) (n : Nat) :
    ∀ e ∈ (w'.applyAll (ws.take n)).dune, Awaits w e := by
  refine writes_keep (P := fun w' => ∀ e ∈ w'.dune, Awaits w e) (L := fun z => ∀ e, z = .dunePin e → Awaits w e) ?_ _ (fun z hm => hz z (List.mem_of_mem_take hm)) h
  intro w' z h hz e he
  cases z with
  | dunePin y =>
    rcases mem_evPin.1 he with rfl | he
    · exact hz _ rfl
    · exact h e he.1
  | duneRem k => exact h e (mem_evRem.1 he).1
  | cgmsPut y => simp only [World.apply] at he; split at he <;> exact h e he
  | cdelPut q sn d => simp only [World.apply] at he; split at he <;> exact h e he
  | pubFeed q n => simp only [World.apply] at he; split at he <;> exact h e he
  | _ => exact h e he

/-- C143, Anchorer, full statement: the same. Proved if each event that waits for approval is the last one of its identifier; the code enters the place of approval for the last event,
see `c143_other`. -/
theorem c143_anchorer_partial {env : Env} {w : World} (hl : ∀ e, Awaits w e → ∀ k, w.node.kevers e.pre = some k → k.pre = e.pre ∧ k.serder.said = e.said) (n : Nat) :
    SealsRight w (w.applyAll ((anchor env w).1.take n)) := by
  unfold Grp.anchor
  refine (three_part (P := fun w' => SealsRight w w' ∧ ∀ e ∈ w'.dune, Awaits w e)
    (a := World.dpwe) (b := World.dune) (c := World.dpub) ?_ ?_ ?_ ⟨fun _ _ _ h => .inl h, fun _ h => .inl h⟩ n).1
  · intro w' fr hp x hx n
    have : ∀ z ∈ (dPartialWitness w' x).1, z.sealRight w ∧ ∀ e, z = .dunePin e → Awaits w e := by
      unfold dPartialWitness
      split
      · simp
      split
      · split
        · simp
        split
        · simp
        split
        · simp
        split
        · simp
        split
        · simp
        split
        · simp
        · simp
        · rename_i s _ _ hs _
          rw [fr.evts] at hs
          have ha : Awaits w s := .inr ⟨x, hx, hs⟩
          intro z hz
          simp only [List.mem_cons, List.not_mem_nil, or_false] at hz
          rcases hz with rfl | rfl
          · exact ⟨trivial, fun e he => by cases he⟩
          · exact ⟨trivial, fun e he => by injection he with he; rw [← he]; exact ha⟩
      · simp
    exact ⟨hp.1.part (fun z hz => (this z hz).1) n, dune_part hp.2 (fun z hz => (this z hz).2) n⟩
  · intro w1 fr1 hp1 w' fr hp x hx n
    have hx := hp1.2 x hx
    have : ∀ z ∈ (unanchored env w' x).1, z.sealRight w ∧ ∀ e, z = .dunePin e → Awaits w e := by
      unfold unanchored
      split
      · simp
      rename_i k hk
      split
      · simp
      split
      · simp
      rename_i dk hdk
      split
      · simp
      rename_i de hde
      rw [fr.findSeal] at hde
      rw [fr.kevers] at hk
      obtain ⟨g1, g2⟩ := hl x hx k hk
      have ok : ∃ dp sn, SealedAt w.node dp ⟨k.pre, sn, k.serder.said⟩ (de.sn, de.said) := ⟨dk.pre, x.sn, by rw [g1, g2]; exact findSeal_at hde⟩
      dsimp only
      split
      · simp [Wr.sealRight, ok]
      split <;> simp [Wr.sealRight, ok]
    exact ⟨hp.1.part (fun z hz => (this z hz).1) n, dune_part hp.2 (fun z hz => (this z hz).2) n⟩
  · intro w1 fr1 hp1 w' fr hp x hx n
    have : ∀ z ∈ (publication w' x).1, z.sealRight w ∧ ∀ e, z = .dunePin e → Awaits w e := by
      unfold publication
      split
      · simp
      split <;> simp [Wr.sealRight]
    exact ⟨hp.1.part (fun z hz => (this z hz).1) n, dune_part hp.2 (fun z hz => (this z hz).2) n⟩

end Verif.Grp
