import Verif.Grp.Whole

/-!
# Properties of delegations: what is reported complete was approved, and no request is forgotten
-/

namespace Verif.Grp

open Verif.Kel (Id Dig Event Kever Seal Ilk upd upd2)

/-! ## Passes that may raise -/

theorem pass_full {α} {f : World → α → List Wr × Option Err} {P : World → Prop} {w : World} (xs : List α)
    (hP : ∀ w', Frame w w' → P w' → ∀ x ∈ xs, P (w'.applyAll (f w' x).1)) (h : P w) : P (w.applyAll (pass f w xs).1) := by
  suffices hs : ∀ ys w', (∀ y ∈ ys, y ∈ xs) → Frame w w' → P w' → P (w'.applyAll (pass f w' ys).1) from hs xs w (fun _ h => h) (.refl w) h
  intro ys
  induction ys with
  | nil => intro w' _ _ hw; exact hw
  | cons y ys ih =>
    intro w' hys fr hw
    have hy := hP w' fr hw y (hys y (by simp))
    rw [pass]
    split
    · rename_i ws e he; rw [he] at hy; exact hy
    · rename_i ws he
      rw [he] at hy
      have := ih (w'.applyAll ws) (fun y hy => hys y (by simp [hy])) (fr.trans (frame_applyAll _ _)) hy
      cases hr : pass f (w'.applyAll ws) ys with
      | mk r e' =>
        rw [hr] at this
        dsimp only
        rw [applyAll_append]
        exact this

theorem andThen_full {P : World → Prop} {w : World} {r : List Wr × Option Err} {f : World → List Wr × Option Err} (h1 : P (w.applyAll r.1))
    (h2 : ∀ w', Frame w w' → P w' → P (w'.applyAll (f w').1)) : P (w.applyAll (andThen r w f).1) := by
  obtain ⟨ws, e⟩ := r
  cases e with
  | some e => exact h1
  | none =>
    have := h2 (w.applyAll ws) (frame_applyAll _ _) h1
    simp only [andThen]
    rw [applyAll_append]
    exact this

theorem anchor_full {env : Env} {P : World → Prop} {w : World}
    (h1 : ∀ w', Frame w w' → P w' → ∀ x ∈ w.dpwe, P (w'.applyAll (dPartialWitness w' x).1))
    (h2 : ∀ w1, Frame w w1 → P w1 → ∀ w', Frame w w' → P w' → ∀ x ∈ w1.dune, P (w'.applyAll (unanchored env w' x).1))
    (h3 : ∀ w1, Frame w w1 → P w1 → ∀ w', Frame w w' → P w' → ∀ x ∈ w1.dpub, P (w'.applyAll (publication w' x).1)) (h : P w) :
    P (w.applyAll (anchor env w).1) := by
  refine andThen_full (andThen_full (pass_full _ h1 h) fun w1 fr p => pass_full _ (fun w' fr' p' x hx => h2 w1 fr p w' (fr.trans fr') p' x hx) p) fun w1 fr p => ?_
  exact pass_full _ (fun w' fr' p' x hx => h3 w1 fr p w' (fr.trans fr') p' x hx) p

/-! ## C140 -/

/-- What waits for publication, or is done, was approved. -/
structure AInv (A : Id → Nat → Dig → Prop) (w : World) : Prop where
  dpub : ∀ e ∈ w.dpub, A e.pre e.sn e.said
  cdel : ∀ p sn d, w.cdel p sn = some d → A p sn d

def Wr.fine (A : Id → Nat → Dig → Prop) : Wr → Prop
  | .dpubPut e => A e.pre e.sn e.said
  | .cdelPut p sn d => A p sn d
  | _ => True

theorem AInv.apply {A : Id → Nat → Dig → Prop} {w : World} (h : AInv A w) {z : Wr} (hz : z.fine A) : AInv A (w.apply z) := by
  cases z with
  | dpubPut e =>
    refine ⟨fun y hy => ?_, h.cdel⟩
    rcases mem_evPut hy with rfl | hy
    · exact hz
    · exact h.dpub y hy
  | dpubRem k => exact ⟨fun y hy => h.dpub y (mem_evRem.1 hy).1, h.cdel⟩
  | cdelPut p sn d =>
    simp only [World.apply]
    split
    · refine ⟨h.dpub, fun q n d' hc => ?_⟩
      simp only [upd2] at hc
      split at hc
      · rename_i he; obtain ⟨rfl, rfl⟩ := he; injection hc with hc; subst hc; exact hz
      · exact h.cdel q n d' hc
    · exact h
  | cgmsPut y => simp only [World.apply]; split <;> exact ⟨h.dpub, h.cdel⟩
  | pubFeed q n => simp only [World.apply]; split <;> exact ⟨h.dpub, h.cdel⟩
  | _ => exact ⟨h.dpub, h.cdel⟩

theorem AInv.part {A : Id → Nat → Dig → Prop} {w : World} (h : AInv A w) {ws : List Wr} (hz : ∀ z ∈ ws, z.fine A) (n : Nat) : AInv A (w.applyAll (ws.take n)) :=
  writes_keep (P := AInv A) (fun _ _ h l => h.apply l) _ (fun z hm => hz z (List.mem_of_mem_take hm)) h

theorem delegation_fine {A : Id → Nat → Dig → Prop} {w : World} {p : Id} {sn : Option Nat} : ∀ z ∈ (delegation w p sn).1, z.fine A := by
  intro x hx
  unfold delegation at hx
  split at hx
  · simp at hx
  split at hx
  · simp at hx; subst hx; trivial
  split at hx
  · simp at hx; subst hx; trivial
  split at hx
  · simp at hx; subst hx; trivial
  dsimp only at hx
  split at hx
  · simp at hx; subst hx; trivial
  split at hx
  · simp at hx; subst hx; trivial
  · simp at hx; rcases hx with rfl | rfl | rfl <;> trivial

theorem partialSigned_fine {A : Id → Nat → Dig → Prop} {w : World} {x : Entry} : ∀ z ∈ (partialSigned w x).1, z.fine A := by
  unfold partialSigned
  split
  · simp
  split
  · simp [Wr.fine]
  split
  · simp [Wr.fine]
  split
  · simp [Wr.fine]
  split
  · simp [Wr.fine]
  split
  · simp [Wr.fine]
  split
  · split
    · split
      · rename_i ws e hd
        intro y hy
        rcases List.mem_cons.1 hy with rfl | hy
        · trivial
        · exact delegation_fine y (by rw [hd]; exact hy)
      · rename_i ws hd
        intro y hy
        simp only [List.cons_append, List.mem_cons, List.mem_append, List.not_mem_nil, or_false] at hy
        rcases hy with rfl | hy | rfl
        · trivial
        · exact delegation_fine y (by rw [hd]; exact hy)
        · trivial
    · simp [Wr.fine]
  · split <;> simp [Wr.fine]

theorem waited_fine {A : Id → Nat → Dig → Prop} {w : World} {x : Entry} : (∀ z ∈ (delegateEsc w x).1, z.fine A) ∧ ∀ z ∈ (partialWitness w x).1, z.fine A := by
  constructor
  · unfold delegateEsc
    split
    · simp
    split
    · simp
    split
    · simp
    · split <;> simp [Wr.fine]
    · split
      · simp
      split <;> simp [Wr.fine]
  · unfold partialWitness
    split
    · simp
    split
    · simp
    split
    · simp
    split
    · split <;> simp [Wr.fine]
    · simp

theorem AInv.counsel {A : Id → Nat → Dig → Prop} {w : World} (h : AInv A w) (n : Nat) : AInv A (w.applyAll ((counsel w).1.take n)) := by
  unfold Grp.counsel
  refine three_part (P := AInv A) (a := World.gpse) (b := World.gdee) (c := World.gpwe) ?_ ?_ ?_ h n
  · intro w' _ p x _ n; exact p.part partialSigned_fine n
  · intro _ _ _ w' _ p x _ n; exact p.part waited_fine.1 n
  · intro _ _ _ w' _ p x _ n; exact p.part waited_fine.2 n

theorem Frame.approved {w w' : World} (fr : Frame w w') {e de : Event} {k : Kever} {dp : Id} {dk : Kever} (h1 : w'.node.kevers e.pre = some k) (h2 : k.delpre = some dp)
    (h3 : w'.node.kevers dp = some dk) (h4 : w'.node.findSeal dk.pre ⟨e.pre, e.sn, e.said⟩ = some de) : Approved w.node e.pre e.sn e.said := by
  rw [fr.kevers] at h1 h3
  rw [fr.findSeal] at h4
  exact ⟨k, dp, dk, h1, h2, h3, findSeal_says h4⟩

theorem unanchored_fine {A : Id → Nat → Dig → Prop} {env : Env} {w w' : World} (fr : Frame w w') (hA : ∀ p sn d, Approved w.node p sn d → A p sn d) {e : Event} :
    ∀ z ∈ (unanchored env w' e).1, z.fine A := by
  unfold unanchored
  split
  · simp
  rename_i k hk
  split
  · simp
  rename_i dp hd
  split
  · simp
  rename_i dk hdk
  split
  · simp
  rename_i de hde
  have := hA _ _ _ (fr.approved hk hd hdk hde)
  dsimp only
  split
  · simp [Wr.fine, this]
  split <;> simp [Wr.fine, this]

theorem AInv.anchor {A : Id → Nat → Dig → Prop} {env : Env} {w : World} (h : AInv A w) (hA : ∀ p sn d, Approved w.node p sn d → A p sn d) (n : Nat) :
    AInv A (w.applyAll ((anchor env w).1.take n)) := by
  unfold Grp.anchor
  refine three_part (P := AInv A) (a := World.dpwe) (b := World.dune) (c := World.dpub) ?_ ?_ ?_ h n
  · intro w' _ p x _ n
    refine p.part ?_ n
    unfold dPartialWitness
    split
    · simp
    split
    · split
      · simp
      split
      · simp
      split
      · simp
      split
      · simp
      split
      · simp
      split <;> simp [Wr.fine]
    · simp
  · intro _ _ _ w' fr p x _ n; exact p.part (unanchored_fine fr hA) n
  · intro w1 _ p1 w' fr p x hx n
    refine p.part ?_ n
    unfold publication
    split
    · simp
    split
    · simp
    · simp [Wr.fine, p1.dpub x hx]

theorem AInv.step {A : Id → Nat → Dig → Prop} {env : Env} {w : World} (ih : AInv A w) (hA : ∀ p sn d, Approved w.node p sn d → A p sn d) (i : Inp) :
    AInv A (w.step env i) := by
  cases i with
  | start q n e => simp only [World.step]; split <;> exact ⟨ih.dpub, ih.cdel⟩
  | delegation q s => have := ih.part (delegation_fine (w := w) (p := q) (sn := s)) (Grp.delegation w q s).1.length; rw [take_all] at this; exact this
  | counsel => have := ih.counsel (Grp.counsel w).1.length; rw [take_all] at this; exact this
  | anchor => have := ih.anchor (env := env) hA (Grp.anchor env w).1.length; rw [take_all] at this; exact this
  | pubStart q => simp only [World.step]; split <;> exact ⟨ih.dpub, ih.cdel⟩
  | pubDone q => simp only [World.step]; split <;> exact ⟨ih.dpub, ih.cdel⟩
  | crashCounsel n => have := ih.counsel n; exact ⟨this.dpub, this.cdel⟩
  | crashAnchor n => have := ih.anchor (env := env) hA n; exact ⟨this.dpub, this.cdel⟩
  | _ => exact ⟨ih.dpub, ih.cdel⟩

/-- C140. A delegated event that is reported complete was approved: there was a moment when the own node held the event of its delegator that seals it, the last one at its
number and fully witnessed. Whatever stops and exceptions come between. -/
theorem c140_approved {env : Env} {node : Kel.Node} {habs : Id → Option (Option Id)} {proxy : Bool} {w : World} (h : Hist env Any (World.start node habs proxy) w)
    {p : Id} {sn : Nat} {d : Dig} (hc : w.cdel p sn = some d) : Was env Any (World.start node habs proxy) w fun w1 => Approved w1.node p sn d := by
  have : AInv (fun p sn d => Was env Any (World.start node habs proxy) w fun w1 => Approved w1.node p sn d) w := by
    clear hc
    induction h with
    | nil => exact ⟨by intro e he; simp [World.start] at he, by intro p n d hd; simp [World.start] at hd⟩
    | @step w i h g ih =>
      refine AInv.step ⟨fun e he => (ih.dpub e he).next g, fun p n d hd => (ih.cdel p n d hd).next g⟩ ?_ i
      exact fun p sn d ha => ⟨w, h, .step i .nil g, ha⟩
  exact this.cdel p sn d hc

/-! ## C141 -/

/-- `ev` gives the event of an identifier with a digest: digests do not collide, and events are stored under their own identifier and digest. -/
structure Digests (ev : Id → Dig → Option Event) : Prop where
  own : ∀ p d e, ev p d = some e → e.pre = p ∧ e.said = d

/-- Passes of the Anchorer are not interrupted, the events of the node are those of `ev`. -/
def Steady (ev : Id → Dig → Option Event) (w : World) (i : Inp) : Prop :=
  (∀ n, i ≠ .crashAnchor n) ∧ ∀ p d e, w.node.db.evts p d = some e → ev p d = some e

/-- The request waits, or is complete. -/
def Asked (e : Event) (w : World) : Prop := e ∈ w.dpwe ∨ e ∈ w.dune ∨ e ∈ w.dpub ∨ (w.cdel e.pre e.sn).isSome = true

/-- The stores hold events of `ev`. -/
def FromEv (ev : Id → Dig → Option Event) (w : World) : Prop := ∀ y, y ∈ w.dpwe ∨ y ∈ w.dune ∨ y ∈ w.dpub → ev y.pre y.said = some y

def Wr.ofEv (ev : Id → Dig → Option Event) : Wr → Prop
  | .dpwePin y | .dunePin y | .dpubPut y => ev y.pre y.said = some y
  | _ => True

theorem FromEv.apply {ev : Id → Dig → Option Event} {w : World} (h : FromEv ev w) {z : Wr} (hz : z.ofEv ev) : FromEv ev (w.apply z) := by
  intro y hy
  cases z with
  | dpwePin x =>
    rcases hy with hy | hy
    · rcases mem_evPin.1 hy with rfl | hy
      · exact hz
      · exact h y (.inl hy.1)
    · exact h y (.inr hy)
  | dpweRem k =>
    rcases hy with hy | hy
    · exact h y (.inl (mem_evRem.1 hy).1)
    · exact h y (.inr hy)
  | dunePin x =>
    rcases hy with hy | hy | hy
    · exact h y (.inl hy)
    · rcases mem_evPin.1 hy with rfl | hy
      · exact hz
      · exact h y (.inr (.inl hy.1))
    · exact h y (.inr (.inr hy))
  | duneRem k =>
    rcases hy with hy | hy | hy
    · exact h y (.inl hy)
    · exact h y (.inr (.inl (mem_evRem.1 hy).1))
    · exact h y (.inr (.inr hy))
  | dpubPut x =>
    rcases hy with hy | hy | hy
    · exact h y (.inl hy)
    · exact h y (.inr (.inl hy))
    · rcases mem_evPut hy with rfl | hy
      · exact hz
      · exact h y (.inr (.inr hy))
  | dpubRem k =>
    rcases hy with hy | hy | hy
    · exact h y (.inl hy)
    · exact h y (.inr (.inl hy))
    · exact h y (.inr (.inr (mem_evRem.1 hy).1))
  | cgmsPut x => refine h y ?_; simp only [World.apply] at hy; split at hy <;> exact hy
  | cdelPut q sn d => refine h y ?_; simp only [World.apply] at hy; split at hy <;> exact hy
  | pubFeed q n => refine h y ?_; simp only [World.apply] at hy; split at hy <;> exact hy
  | _ => exact h y hy

theorem FromEv.writes {ev : Id → Dig → Option Event} {w : World} (h : FromEv ev w) {ws : List Wr} (hz : ∀ z ∈ ws, z.ofEv ev) : FromEv ev (w.applyAll ws) :=
  writes_keep (P := FromEv ev) (fun _ _ h l => h.apply l) _ hz h

/-- Writes that do not take the request away: those that add, and removals of other requests. -/
def Wr.spares (e : Event) : Wr → Prop
  | .dpweRem k | .duneRem k | .dpubRem k => k ≠ key e
  | .dpwePin y | .dunePin y => key y = key e → y = e
  | _ => True

theorem cdel_isSome {w : World} {p : Id} {sn : Nat} (h : (w.cdel p sn).isSome = true) (z : Wr) : ((w.apply z).cdel p sn).isSome = true := by
  cases z with
  | cdelPut q n d =>
    simp only [World.apply]
    split
    · simp only [upd2]; split <;> simp [h]
    · exact h
  | cgmsPut y => simp only [World.apply]; split <;> exact h
  | pubFeed q n => simp only [World.apply]; split <;> exact h
  | _ => exact h

theorem Asked.apply {e : Event} {w : World} (h : Asked e w) {z : Wr} (hz : z.spares e) : Asked e (w.apply z) := by
  have pin : ∀ {l : List Event} {y : Event}, (key y = key e → y = e) → e ∈ l → e ∈ evPin l y := by
    intro l y hy hl
    rw [mem_evPin]
    by_cases hk : key y = key e
    · exact .inl (hy hk).symm
    · exact .inr ⟨hl, fun h => hk h.symm⟩
  rcases h with h | h | h | h
  · cases z with
    | dpwePin y => exact .inl (pin hz h)
    | dpweRem k => exact .inl (mem_evRem.2 ⟨h, fun hk => hz hk.symm⟩)
    | cgmsPut y => simp only [World.apply]; split <;> exact .inl h
    | cdelPut q sn d => simp only [World.apply]; split <;> exact .inl h
    | pubFeed q n => simp only [World.apply]; split <;> exact .inl h
    | _ => exact .inl h
  · cases z with
    | dunePin y => exact .inr (.inl (pin hz h))
    | duneRem k => exact .inr (.inl (mem_evRem.2 ⟨h, fun hk => hz hk.symm⟩))
    | cgmsPut y => simp only [World.apply]; split <;> exact .inr (.inl h)
    | cdelPut q sn d => simp only [World.apply]; split <;> exact .inr (.inl h)
    | pubFeed q n => simp only [World.apply]; split <;> exact .inr (.inl h)
    | _ => exact .inr (.inl h)
  · cases z with
    | dpubPut y => exact .inr (.inr (.inl (evPut_keeps h)))
    | dpubRem k => exact .inr (.inr (.inl (mem_evRem.2 ⟨h, fun hk => hz hk.symm⟩)))
    | cgmsPut y => simp only [World.apply]; split <;> exact .inr (.inr (.inl h))
    | cdelPut q sn d => simp only [World.apply]; split <;> exact .inr (.inr (.inl h))
    | pubFeed q n => simp only [World.apply]; split <;> exact .inr (.inr (.inl h))
    | _ => exact .inr (.inr (.inl h))
  · exact .inr (.inr (.inr (cdel_isSome h z)))

theorem Asked.writes {e : Event} {w : World} (h : Asked e w) {ws : List Wr} (hz : ∀ z ∈ ws, z.spares e) : Asked e (w.applyAll ws) :=
  writes_keep (P := Asked e) (fun _ _ h l => h.apply l) _ hz h

theorem delegation_ofEv {ev : Id → Dig → Option Event} (hev : Digests ev) {w : World} (hw : ∀ p d e, w.node.db.evts p d = some e → ev p d = some e) {p : Id} {sn : Option Nat} :
    ∀ z ∈ (delegation w p sn).1, z.ofEv ev := by
  intro x hx
  unfold delegation at hx
  split at hx
  · simp at hx
  split at hx
  · simp at hx; subst hx; trivial
  split at hx
  · simp at hx; subst hx; trivial
  split at hx
  · simp at hx; subst hx; trivial
  dsimp only at hx
  split at hx
  · simp at hx; subst hx; trivial
  rename_i d hd
  split at hx
  · simp at hx; subst hx; trivial
  · rename_i e he
    simp at hx
    rcases hx with rfl | rfl | rfl
    · trivial
    · trivial
    · have := hw _ _ _ he
      obtain ⟨h1, h2⟩ := hev.own _ _ _ this
      show ev e.pre e.said = some e
      rw [h1, h2]; exact this

/-- Writes of the Counselor to the stores of the Anchorer only add. -/
def Wr.addOnly (ev : Id → Dig → Option Event) (z : Wr) : Prop := z.ofEv ev ∧ (∀ k, z ≠ .dpweRem k) ∧ (∀ k, z ≠ .duneRem k) ∧ (∀ k, z ≠ .dpubRem k)

theorem addOnly_spares {ev : Id → Dig → Option Event} {e : Event} (he : ev e.pre e.said = some e) {z : Wr} (hz : z.addOnly ev) : z.spares e := by
  obtain ⟨h1, h2, h3, h4⟩ := hz
  have same : ∀ y : Event, ev y.pre y.said = some y → key y = key e → y = e := by
    intro y hy hk
    injection hk with k1 k2
    rw [k1, k2, he] at hy
    injection hy with hy
    exact hy.symm
  cases z with
  | dpwePin y => exact same y h1
  | dunePin y => exact same y h1
  | dpweRem k => exact absurd rfl (h2 k)
  | duneRem k => exact absurd rfl (h3 k)
  | dpubRem k => exact absurd rfl (h4 k)
  | _ => trivial

theorem delegation_addOnly {ev : Id → Dig → Option Event} (hev : Digests ev) {w : World} (hw : ∀ p d e, w.node.db.evts p d = some e → ev p d = some e) {p : Id} {sn : Option Nat} :
    ∀ z ∈ (delegation w p sn).1, z.addOnly ev := by
  intro x hx
  refine ⟨delegation_ofEv hev hw x hx, ?_, ?_, ?_⟩ <;>
  · rintro k rfl
    unfold delegation at hx
    split at hx
    · simp at hx
    split at hx
    · simp at hx
    split at hx
    · simp at hx
    split at hx
    · simp at hx
    dsimp only at hx
    split at hx
    · simp at hx
    split at hx <;> simp at hx

theorem partialSigned_addOnly {ev : Id → Dig → Option Event} (hev : Digests ev) {w : World} (hw : ∀ p d e, w.node.db.evts p d = some e → ev p d = some e) {x : Entry} :
    ∀ z ∈ (partialSigned w x).1, z.addOnly ev := by
  unfold partialSigned
  split
  · simp
  split
  · simp [Wr.addOnly, Wr.ofEv]
  split
  · simp [Wr.addOnly, Wr.ofEv]
  split
  · simp [Wr.addOnly, Wr.ofEv]
  split
  · simp [Wr.addOnly, Wr.ofEv]
  split
  · simp [Wr.addOnly, Wr.ofEv]
  split
  · split
    · split
      · rename_i ws e hd
        intro y hy
        rcases List.mem_cons.1 hy with rfl | hy
        · simp [Wr.addOnly, Wr.ofEv]
        · exact delegation_addOnly hev hw y (by rw [hd]; exact hy)
      · rename_i ws hd
        intro y hy
        simp only [List.cons_append, List.mem_cons, List.mem_append, List.not_mem_nil, or_false] at hy
        rcases hy with rfl | hy | rfl
        · simp [Wr.addOnly, Wr.ofEv]
        · exact delegation_addOnly hev hw y (by rw [hd]; exact hy)
        · simp [Wr.addOnly, Wr.ofEv]
    · simp [Wr.addOnly, Wr.ofEv]
  · split <;> simp [Wr.addOnly, Wr.ofEv]

theorem waited_addOnly {ev : Id → Dig → Option Event} {w : World} {x : Entry} :
    (∀ z ∈ (delegateEsc w x).1, z.addOnly ev) ∧ ∀ z ∈ (partialWitness w x).1, z.addOnly ev := by
  constructor
  · unfold delegateEsc
    split
    · simp
    split
    · simp
    split
    · simp
    · split <;> simp [Wr.addOnly, Wr.ofEv]
    · split
      · simp
      split <;> simp [Wr.addOnly, Wr.ofEv]
  · unfold partialWitness
    split
    · simp
    split
    · simp
    split
    · simp
    split
    · split <;> simp [Wr.addOnly, Wr.ofEv]
    · simp

/-- The request is kept, the stores hold events of `ev`. -/
structure Kept (ev : Id → Dig → Option Event) (e : Event) (w : World) : Prop where
  asked : Asked e w
  fromEv : FromEv ev w

theorem Kept.part {ev : Id → Dig → Option Event} {e : Event} (he : ev e.pre e.said = some e) {w : World} (h : Kept ev e w) {ws : List Wr} (hz : ∀ z ∈ ws, z.addOnly ev) (n : Nat) :
    Kept ev e (w.applyAll (ws.take n)) :=
  ⟨h.asked.writes fun z hm => addOnly_spares he (hz z (List.mem_of_mem_take hm)), h.fromEv.writes fun z hm => (hz z (List.mem_of_mem_take hm)).1⟩

theorem Kept.counsel {ev : Id → Dig → Option Event} (hev : Digests ev) {e : Event} (he : ev e.pre e.said = some e) {w : World} (h : Kept ev e w)
    (hw : ∀ p d e, w.node.db.evts p d = some e → ev p d = some e) (n : Nat) : Kept ev e (w.applyAll ((counsel w).1.take n)) := by
  unfold Grp.counsel
  refine three_part (P := Kept ev e) (a := World.gpse) (b := World.gdee) (c := World.gpwe) ?_ ?_ ?_ h n
  · intro w' fr p x _ n; exact p.part he (partialSigned_addOnly hev (by rw [fr.evts]; exact hw)) n
  · intro _ _ _ w' _ p x _ n; exact p.part he waited_addOnly.1 n
  · intro _ _ _ w' _ p x _ n; exact p.part he waited_addOnly.2 n

theorem Kept.anchor {ev : Id → Dig → Option Event} (hev : Digests ev) {e : Event} (he : ev e.pre e.said = some e) {env : Env} {w : World} (h : Kept ev e w)
    (hw : ∀ p d e, w.node.db.evts p d = some e → ev p d = some e) : Kept ev e (w.applyAll (anchor env w).1) := by
  have same : ∀ y : Event, ev y.pre y.said = some y → key y = key e → y = e := by
    intro y hy hk
    injection hk with k1 k2
    rw [k1, k2, he] at hy
    injection hy with hy
    exact hy.symm
  refine anchor_full (P := Kept ev e) ?_ ?_ ?_ h
  · intro w' fr p y hy
    have hyev := h.fromEv y (.inl hy)
    unfold dPartialWitness
    split
    · exact p
    split
    · split
      · exact p
      split
      · exact p
      split
      · exact p
      split
      · exact p
      split
      · exact p
      split
      · exact p
      · exact p
      · rename_i s _ _ hs _
        have hs' := hw _ _ _ (by rw [← fr.evts]; exact hs)
        obtain ⟨k1, k2⟩ := hev.own _ _ _ hs'
        have hse : ev s.pre s.said = some s := by rw [k1, k2]; exact hs'
        refine ⟨?_, p.fromEv.writes (by simp [Wr.ofEv, hse])⟩
        by_cases hk : key y = key e
        · have := same y hyev hk
          subst this
          have : s = y := same s hse (by rw [key, key, k1, k2])
          subst this
          exact .inr (.inl (mem_evPin.2 (.inl rfl)))
        · refine p.asked.writes ?_
          intro z hz
          simp only [List.mem_cons, List.not_mem_nil, or_false] at hz
          rcases hz with rfl | rfl
          · exact hk
          · exact same s hse
    · exact p
  · intro w1 _ p1 w' fr p y hy
    have hyev := p1.fromEv y (.inr (.inl hy))
    have pin : ∀ (w' : World) (c : Id × Dig × Kel.Couple), Kept ev e w' → Kept ev e (w'.apply (.aessPin c.1 c.2.1 c.2.2)) := fun w' c h => ⟨h.asked.apply trivial, h.fromEv.apply trivial⟩
    have go : ∀ w', Kept ev e w' → Kept ev e (w'.applyAll [.dpubPut y, .duneRem (key y)]) := by
      intro w' p
      refine ⟨?_, p.fromEv.writes (by simp [Wr.ofEv, hyev])⟩
      by_cases hk : key y = key e
      · have := same y hyev hk
        subst this
        refine .inr (.inr (.inl ?_))
        exact evPut_has (fun u hu hk => same u (p.fromEv u (.inr (.inr hu))) hk)
      · refine p.asked.writes ?_
        intro z hz
        simp only [List.mem_cons, List.not_mem_nil, or_false] at hz
        rcases hz with rfl | rfl
        · trivial
        · exact hk
    unfold unanchored
    split
    · exact p
    rename_i k _
    split
    · exact p
    split
    · exact p
    split
    · exact p
    rename_i de _
    dsimp only
    have hp := pin w' (k.pre, k.serder.said, (de.sn, de.said)) p
    split
    · exact go _ hp
    split
    · exact hp
    · exact go _ ⟨hp.asked.apply (z := .pubFeed _ _) trivial, hp.fromEv.apply (z := .pubFeed _ _) trivial⟩
  · intro w1 _ p1 w' fr p y hy
    have hyev := p1.fromEv y (.inr (.inr hy))
    unfold publication
    split
    · exact p
    split
    · exact p
    refine ⟨?_, p.fromEv.writes (by simp [Wr.ofEv])⟩
    by_cases hk : key y = key e
    · have := same y hyev hk
      subst this
      refine .inr (.inr (.inr ?_))
      show (World.cdel (World.apply (World.apply (World.apply w' (.pubDel y.pre)) (.dpubRem (key y))) (.cdelPut y.pre y.sn y.said)) y.pre y.sn).isSome = true
      generalize World.apply (World.apply w' (.pubDel y.pre)) (.dpubRem (key y)) = w2
      simp only [World.apply]
      split
      · simp [upd2]
      · rename_i hc; rw [hc]; rfl
    · refine p.asked.writes ?_
      intro z hz
      simp only [List.mem_cons, List.not_mem_nil, or_false] at hz
      rcases hz with rfl | rfl | rfl
      · trivial
      · exact hk
      · trivial

theorem Kept.step {ev : Id → Dig → Option Event} (hev : Digests ev) {e : Event} (he : ev e.pre e.said = some e) {env : Env} {w : World} (h : Kept ev e w) {i : Inp}
    (g : Steady ev w i) : Kept ev e (w.step env i) := by
  cases i with
  | start q n d => simp only [World.step]; split <;> exact ⟨h.asked, h.fromEv⟩
  | delegation q s => have := h.part he (delegation_addOnly hev g.2 (p := q) (sn := s)) (Grp.delegation w q s).1.length; rw [take_all] at this; exact this
  | counsel => have := h.counsel hev he g.2 (Grp.counsel w).1.length; rw [take_all] at this; exact this
  | anchor => exact h.anchor hev he g.2
  | pubStart q => simp only [World.step]; split <;> exact ⟨h.asked, h.fromEv⟩
  | pubDone q => simp only [World.step]; split <;> exact ⟨h.asked, h.fromEv⟩
  | crashCounsel n => have := h.counsel hev he g.2 n; exact ⟨this.asked, this.fromEv⟩
  | crashAnchor n => exact absurd rfl (g.1 n)
  | _ => exact ⟨h.asked, h.fromEv⟩

theorem FromEv.hist {ev : Id → Dig → Option Event} (hev : Digests ev) {env : Env} {w w' : World} (h : Hist env (Steady ev) w w') (h0 : FromEv ev w) : FromEv ev w' := by
  induction h with
  | nil => exact h0
  | @step w i _ g ih =>
    have cz : ∀ n, FromEv ev (w.applyAll ((Grp.counsel w).1.take n)) := by
      intro n
      have go : ∀ {w' : World} {ws : List Wr}, FromEv ev w' → (∀ z ∈ ws, z.addOnly ev) → ∀ n, FromEv ev (w'.applyAll (ws.take n)) :=
        fun h hz n => h.writes fun z hm => (hz z (List.mem_of_mem_take hm)).1
      unfold Grp.counsel
      refine three_part (P := FromEv ev) (a := World.gpse) (b := World.gdee) (c := World.gpwe) ?_ ?_ ?_ ih n
      · intro w' fr p x _ n; exact go p (partialSigned_addOnly hev (by rw [fr.evts]; exact g.2)) n
      · intro _ _ _ w' _ p x _ n; exact go p waited_addOnly.1 n
      · intro _ _ _ w' _ p x _ n; exact go p waited_addOnly.2 n
    cases i with
    | start q n d => simp only [World.step]; split <;> exact ih
    | delegation q s => exact ih.writes (delegation_ofEv hev g.2)
    | counsel => have := cz (Grp.counsel w).1.length; rw [take_all] at this; exact this
    | anchor =>
      refine anchor_full (P := FromEv ev) ?_ ?_ ?_ ih
      · intro w' fr p y hy
        refine p.writes ?_
        unfold dPartialWitness
        split
        · simp
        split
        · split
          · simp
          split
          · simp
          split
          · simp
          split
          · simp
          split
          · simp
          split
          · simp
          · simp
          · rename_i s _ _ hs _
            have hs' := g.2 _ _ _ (by rw [← fr.evts]; exact hs)
            obtain ⟨k1, k2⟩ := hev.own _ _ _ hs'
            have hse : ev s.pre s.said = some s := by rw [k1, k2]; exact hs'
            simp [Wr.ofEv, hse]
        · simp
      · intro w1 _ p1 w' fr p y hy
        have hyev := p1 y (.inr (.inl hy))
        refine p.writes ?_
        unfold unanchored
        split
        · simp
        split
        · simp
        split
        · simp
        split
        · simp
        dsimp only
        split
        · simp [Wr.ofEv, hyev]
        split <;> simp [Wr.ofEv, hyev]
      · intro w1 _ p1 w' fr p y hy
        refine p.writes ?_
        unfold publication
        split
        · simp
        split <;> simp [Wr.ofEv]
    | pubStart q => simp only [World.step]; split <;> exact ih
    | pubDone q => simp only [World.step]; split <;> exact ih
    | crashCounsel n => exact cz n
    | crashAnchor n => exact absurd rfl (g.1 n)
    | _ => exact ih

/-- C141, full statement: a delegated event whose delegation was asked for waits, or has been completed, ever after. Proved for histories in which passes of the Anchorer are not
interrupted; they may raise exceptions. A pass that is interrupted loses the event: see `c141_crash`. -/
theorem c141_kept_partial {ev : Id → Dig → Option Event} (hev : Digests ev) {env : Env} {node : Kel.Node} {habs : Id → Option (Option Id)} {proxy : Bool} {w1 w : World}
    (h1 : Hist env (Steady ev) (World.start node habs proxy) w1) {p : Id} {sn : Option Nat} (g : Steady ev w1 (.delegation p sn)) {e : Event}
    (hd : Wr.dpwePin e ∈ (delegation w1 p sn).1) (h : Hist env (Steady ev) (w1.step env (.delegation p sn)) w) :
    e ∈ w.dpwe ∨ e ∈ w.dune ∨ e ∈ w.dpub ∨ (w.cdel e.pre e.sn).isSome = true := by
  have he : ev e.pre e.said = some e := delegation_ofEv hev g.2 _ hd
  have hf : FromEv ev w1 := FromEv.hist hev h1 (by intro y hy; simp [World.start] at hy)
  have h0 : Kept ev e (w1.step env (.delegation p sn)) := by
    refine ⟨?_, hf.writes (delegation_ofEv hev g.2)⟩
    have hw := delegation_addOnly hev g.2 (p := p) (sn := sn)
    show Asked e (w1.applyAll (delegation w1 p sn).1)
    revert hd hw
    generalize (delegation w1 p sn).1 = ws
    intro hd hw
    obtain ⟨a, b, rfl⟩ := List.append_of_mem hd
    rw [applyAll_append]
    show Asked e (((w1.applyAll a).apply (.dpwePin e)).applyAll b)
    refine Asked.writes (.inl (mem_evPin.2 (.inl rfl))) (fun z hz => addOnly_spares he (hw z (by simp [hz])))
  have : Kept ev e w := by
    clear hd
    induction h with
    | nil => exact h0
    | step i _ g ih => exact ih.step hev he g
  exact this.asked

end Verif.Grp
