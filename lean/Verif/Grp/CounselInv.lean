import Verif.Grp.Lemmas

/-!
# What the Counselor enters, and why
-/

namespace Verif.Grp

open Verif.Kel (Id Dig Event Kever Seal Ilk upd upd2)

/-- Past moments, as predicates of entries: `S` the event was started, `L` something was logged at its number, `D` it had all receipts, or its delegation was
complete. -/
structure Marks where
  S : Entry → Prop
  L : Entry → Prop
  D : Entry → Prop

/-- The stores hold only what is so marked. -/
structure CInv (m : Marks) (w : World) : Prop where
  gpse : ∀ x ∈ w.gpse, m.S x
  gdee : ∀ x ∈ w.gdee, m.S x ∧ m.L x
  gpwe : ∀ x ∈ w.gpwe, m.S x ∧ m.L x
  cgms : ∀ p n d, w.cgms p n = some d → m.S (p, n, d) ∧ m.L (p, n, d) ∧ m.D (p, n, d)

/-- Writes that are all right. -/
def Legit (m : Marks) : Wr → Prop
  | .gdeeAdd x => m.S x ∧ m.L x
  | .gpweAdd x => m.S x ∧ m.L x
  | .cgmsPut x => m.S x ∧ m.L x ∧ m.D x
  | _ => True

theorem CInv.mono {m m' : Marks} {w : World} (h : CInv m w) (hs : ∀ x, m.S x → m'.S x) (hl : ∀ x, m.L x → m'.L x) (hd : ∀ x, m.D x → m'.D x) : CInv m' w :=
  ⟨fun x hx => hs _ (h.gpse x hx), fun x hx => ⟨hs _ (h.gdee x hx).1, hl _ (h.gdee x hx).2⟩, fun x hx => ⟨hs _ (h.gpwe x hx).1, hl _ (h.gpwe x hx).2⟩,
    fun p n d hc => ⟨hs _ (h.cgms p n d hc).1, hl _ (h.cgms p n d hc).2.1, hd _ (h.cgms p n d hc).2.2⟩⟩

theorem CInv.apply {m : Marks} {w : World} (h : CInv m w) {x : Wr} (hl : Legit m x) : CInv m (w.apply x) := by
  cases x with
  | gpseRem p => exact ⟨fun x hx => h.gpse x (List.mem_filter.1 hx).1, h.gdee, h.gpwe, h.cgms⟩
  | gdeeAdd y =>
    refine ⟨h.gpse, fun x hx => ?_, h.gpwe, h.cgms⟩
    rcases mem_entAdd.1 hx with rfl | hx
    · exact hl
    · exact h.gdee x hx
  | gdeeRem p => exact ⟨h.gpse, fun x hx => h.gdee x (List.mem_filter.1 hx).1, h.gpwe, h.cgms⟩
  | gpweAdd y =>
    refine ⟨h.gpse, h.gdee, fun x hx => ?_, h.cgms⟩
    rcases mem_entAdd.1 hx with rfl | hx
    · exact hl
    · exact h.gpwe x hx
  | gpweRem p => exact ⟨h.gpse, h.gdee, fun x hx => h.gpwe x (List.mem_filter.1 hx).1, h.cgms⟩
  | cgmsPut y =>
    simp only [World.apply]
    split
    · refine ⟨h.gpse, h.gdee, h.gpwe, fun p n d hc => ?_⟩
      simp only [upd2] at hc
      split at hc
      · rename_i he
        obtain ⟨rfl, rfl⟩ := he
        injection hc with hc
        subst hc
        exact hl
      · exact h.cgms p n d hc
    · exact h
  | cdelPut p sn d => simp only [World.apply]; split <;> exact ⟨h.gpse, h.gdee, h.gpwe, h.cgms⟩
  | pubFeed p n => simp only [World.apply]; split <;> exact ⟨h.gpse, h.gdee, h.gpwe, h.cgms⟩
  | _ => exact ⟨h.gpse, h.gdee, h.gpwe, h.cgms⟩

theorem CInv.writes {m : Marks} {w : World} (h : CInv m w) {ws : List Wr} (hl : ∀ x ∈ ws, Legit m x) : CInv m (w.applyAll ws) :=
  writes_keep (fun _ _ h l => h.apply l) ws hl h

theorem delegation_legit {w : World} {p : Id} {sn : Option Nat} {m : Marks} : ∀ x ∈ (delegation w p sn).1, Legit m x := by
  intro x hx
  unfold delegation at hx
  split at hx
  · simp at hx
  split at hx
  · simp at hx; subst hx; trivial
  split at hx
  · simp at hx; subst hx; trivial
  split at hx
  · simp at hx; subst hx; trivial
  dsimp only at hx
  split at hx
  · simp at hx; subst hx; trivial
  split at hx
  · simp at hx; subst hx; trivial
  · simp at hx; rcases hx with rfl | rfl | rfl <;> trivial

theorem partialSigned_legit {w : World} {m : Marks} {x : Entry} (hs : m.S x) (hl : (lastAt w.node x.1 x.2.1.num).isSome → m.L x) :
    ∀ y ∈ (partialSigned w x).1, Legit m y := by
  unfold partialSigned
  split
  · simp
  rename_i sd hsd
  have hL : m.L x := hl (by rw [hsd]; rfl)
  split
  · simp [Legit]
  split
  · simp [Legit]
  split
  · simp [Legit]
  split
  · simp [Legit]
  split
  · simp [Legit]
  split
  · split
    · split
      · rename_i ws e hd
        intro y hy
        rcases List.mem_cons.1 hy with rfl | hy
        · trivial
        · exact delegation_legit y (by rw [hd]; exact hy)
      · rename_i ws hd
        intro y hy
        simp only [List.cons_append, List.mem_cons, List.mem_append, List.mem_singleton, List.not_mem_nil, or_false] at hy
        rcases hy with rfl | hy | rfl
        · trivial
        · exact delegation_legit y (by rw [hd]; exact hy)
        · exact ⟨hs, hL⟩
    · simp [Legit, hs, hL]
  · split <;> simp [Legit, hs, hL]

/-- An entry can be done because the delegation is complete. -/
def ByDelegate (w : World) (x : Entry) : Prop := ∃ k, w.node.kevers x.1 = some k ∧ elected w x.1 k = .ok true ∧ (w.cdel x.1 k.sn).isSome = true

theorem delegateEsc_legit {w : World} {m : Marks} {x : Entry} (hs : m.S x) (hl : m.L x) (hd : ByDelegate w x → m.D x) :
    ∀ y ∈ (delegateEsc w x).1, Legit m y := by
  unfold delegateEsc
  split
  · simp
  split
  · simp
  rename_i k hk
  split
  · simp
  · rename_i hel
    split
    · rename_i hc
      have := hd ⟨k, hk, hel, hc⟩
      simp [Legit, hs, hl, this]
    · simp
  · split
    · simp
    split
    · simp
    · simp [Legit, hs, hl]

theorem partialWitness_legit {w : World} {m : Marks} {x : Entry} (hs : m.S x) (hl : m.L x) (hd : Receipted w.node x.1 x.2.2 → m.D x) :
    ∀ y ∈ (partialWitness w x).1, Legit m y := by
  unfold partialWitness
  split
  · simp
  rename_i k hk
  split
  · simp
  split
  · simp
  split
  · rename_i hw
    split
    · simp
    · have := hd ⟨k, hk, hw⟩
      simp [Legit, hs, hl, this]
  · simp

theorem legit_take {m : Marks} {ws : List Wr} (h : ∀ y ∈ ws, Legit m y) (n : Nat) : ∀ y ∈ ws.take n, Legit m y := fun y hy => h y (List.mem_of_mem_take hy)

/-! ## `cdel` is not changed by the Counselor -/

def Wr.noCdel : Wr → Prop
  | .cdelPut _ _ _ => False
  | _ => True

theorem apply_cdel {w : World} {x : Wr} (h : x.noCdel) : (w.apply x).cdel = w.cdel := by
  cases x with
  | cdelPut => exact h.elim
  | cgmsPut y => simp only [World.apply]; split <;> rfl
  | pubFeed p n => simp only [World.apply]; split <;> rfl
  | _ => rfl

theorem applyAll_cdel {w : World} {ws : List Wr} (h : ∀ x ∈ ws, x.noCdel) : (w.applyAll ws).cdel = w.cdel :=
  writes_keep (P := fun w' => w'.cdel = w.cdel) (fun _ _ h l => (apply_cdel l).trans h) ws h rfl

theorem delegation_noCdel {w : World} {p : Id} {sn : Option Nat} : ∀ x ∈ (delegation w p sn).1, x.noCdel := by
  intro x hx
  unfold delegation at hx
  split at hx
  · simp at hx
  split at hx
  · simp at hx; subst hx; trivial
  split at hx
  · simp at hx; subst hx; trivial
  split at hx
  · simp at hx; subst hx; trivial
  dsimp only at hx
  split at hx
  · simp at hx; subst hx; trivial
  split at hx
  · simp at hx; subst hx; trivial
  · simp at hx; rcases hx with rfl | rfl | rfl <;> trivial

theorem partialSigned_noCdel {w : World} {x : Entry} : ∀ y ∈ (partialSigned w x).1, y.noCdel := by
  unfold partialSigned
  split
  · simp
  split
  · simp [Wr.noCdel]
  split
  · simp [Wr.noCdel]
  split
  · simp [Wr.noCdel]
  split
  · simp [Wr.noCdel]
  split
  · simp [Wr.noCdel]
  split
  · split
    · split
      · rename_i ws e hd
        intro y hy
        rcases List.mem_cons.1 hy with rfl | hy
        · trivial
        · exact delegation_noCdel y (by rw [hd]; exact hy)
      · rename_i ws hd
        intro y hy
        simp only [List.cons_append, List.mem_cons, List.mem_append, List.mem_singleton, List.not_mem_nil, or_false] at hy
        rcases hy with rfl | hy | rfl
        · trivial
        · exact delegation_noCdel y (by rw [hd]; exact hy)
        · trivial
    · simp [Wr.noCdel]
  · split <;> simp [Wr.noCdel]

theorem delegateEsc_noCdel {w : World} {x : Entry} : ∀ y ∈ (delegateEsc w x).1, y.noCdel := by
  unfold delegateEsc
  split
  · simp
  split
  · simp
  split
  · simp
  · split <;> simp [Wr.noCdel]
  · split
    · simp
    split <;> simp [Wr.noCdel]

theorem partialWitness_noCdel {w : World} {x : Entry} : ∀ y ∈ (partialWitness w x).1, y.noCdel := by
  unfold partialWitness
  split
  · simp
  split
  · simp
  split
  · simp
  split
  · split <;> simp [Wr.noCdel]
  · simp

theorem noCdel_take {ws : List Wr} (h : ∀ y ∈ ws, Wr.noCdel y) (n : Nat) : ∀ y ∈ ws.take n, Wr.noCdel y := fun y hy => h y (List.mem_of_mem_take hy)

/-- A pass of the Counselor, or any part of one, enters only what is so marked: `L` by the log and `D` by receipts and delegations as they are when the pass begins. -/
theorem CInv.counsel {m : Marks} {w : World} (h : CInv m w) (hl : ∀ x ∈ w.gpse, (lastAt w.node x.1 x.2.1.num).isSome → m.L x)
    (hd : ∀ x, ByDelegate w x → m.D x) (hd' : ∀ x, Receipted w.node x.1 x.2.2 → m.D x) (n : Nat) : CInv m (w.applyAll ((counsel w).1.take n)) := by
  unfold Grp.counsel
  refine (three_part (P := fun w' => CInv m w' ∧ w'.cdel = w.cdel) (a := World.gpse) (b := World.gdee) (c := World.gpwe) ?_ ?_ ?_ ⟨h, rfl⟩ n).1
  · intro w' fr p x hx n
    exact ⟨p.1.writes (legit_take (partialSigned_legit (h.gpse x hx) (by rw [fr.last]; exact hl x hx)) n),
      (applyAll_cdel (noCdel_take partialSigned_noCdel n)).trans p.2⟩
  · intro w1 fr1 p1 w' fr p x hx n
    obtain ⟨s, l⟩ := p1.1.gdee x hx
    refine ⟨p.1.writes (legit_take (delegateEsc_legit s l ?_) n), (applyAll_cdel (noCdel_take delegateEsc_noCdel n)).trans p.2⟩
    rintro ⟨k, h1, h2, h3⟩
    exact hd x ⟨k, by rw [← fr.kevers]; exact h1, by rw [← fr.elected]; exact h2, by rw [← p.2]; exact h3⟩
  · intro w1 fr1 p1 w' fr p x hx n
    obtain ⟨s, l⟩ := p1.1.gpwe x hx
    refine ⟨p.1.writes (legit_take (partialWitness_legit s l ?_) n), (applyAll_cdel (noCdel_take partialWitness_noCdel n)).trans p.2⟩
    rintro ⟨k, h1, h2⟩
    exact hd' x ⟨k, by rw [← fr.kevers]; exact h1, by rw [← fr.wigs]; exact h2⟩

/-! ## The Anchorer writes nothing of the Counselor -/

theorem dPartialWitness_legit {w : World} {m : Marks} {e : Event} : ∀ y ∈ (dPartialWitness w e).1, Legit m y := by
  unfold dPartialWitness
  split
  · simp
  split
  · split
    · simp
    split
    · simp
    split
    · simp
    split
    · simp
    split
    · simp
    split <;> simp [Legit]
  · simp

theorem unanchored_legit {env : Env} {w : World} {m : Marks} {e : Event} : ∀ y ∈ (unanchored env w e).1, Legit m y := by
  unfold unanchored
  split
  · simp
  split
  · simp
  split
  · simp
  split
  · simp
  dsimp only
  split
  · simp [Legit]
  split <;> simp [Legit]

theorem publication_legit {w : World} {m : Marks} {e : Event} : ∀ y ∈ (publication w e).1, Legit m y := by
  unfold publication
  split
  · simp
  split <;> simp [Legit]

theorem CInv.anchor {env : Env} {m : Marks} {w : World} (h : CInv m w) (n : Nat) : CInv m (w.applyAll ((anchor env w).1.take n)) := by
  unfold Grp.anchor
  refine three_part (P := CInv m) (a := World.dpwe) (b := World.dune) (c := World.dpub) ?_ ?_ ?_ h n
  · intro w' _ p x _ n; exact p.writes (legit_take dPartialWitness_legit n)
  · intro _ _ _ w' _ p x _ n; exact p.writes (legit_take unanchored_legit n)
  · intro _ _ _ w' _ p x _ n; exact p.writes (legit_take publication_legit n)

/-! ## Histories -/

theorem take_all {α} (l : List α) : l.take l.length = l := List.take_length

/-- Inputs other than `start` and passes of the Counselor. -/
theorem CInv.step {env : Env} {m : Marks} {w : World} (h : CInv m w) (i : Inp) (hstart : ∀ p num d, i = .start p num d → startOk w p num = true → m.S (p, num, d))
    (hl : (i = .counsel ∨ ∃ n, i = .crashCounsel n) → ∀ x ∈ w.gpse, (lastAt w.node x.1 x.2.1.num).isSome → m.L x)
    (hd : ∀ x, ByDelegate w x → m.D x) (hd' : ∀ x, Receipted w.node x.1 x.2.2 → m.D x) : CInv m (w.step env i) := by
  cases i with
  | start p num d =>
    simp only [World.step]
    split
    · rename_i hs
      refine ⟨fun x hx => ?_, h.gdee, h.gpwe, h.cgms⟩
      rcases mem_entAdd.1 hx with rfl | hx
      · exact hstart p num d rfl hs
      · exact h.gpse x hx
    · exact h
  | delegation p sn => exact h.writes delegation_legit
  | counsel =>
    have := h.counsel (hl (.inl rfl)) hd hd' (Grp.counsel w).1.length
    rw [take_all] at this; exact this
  | anchor =>
    have := h.anchor (env := env) (Grp.anchor env w).1.length
    rw [take_all] at this; exact this
  | cReceipted => exact ⟨h.gpse, h.gdee, h.gpwe, h.cgms⟩
  | aReceipted => exact ⟨h.gpse, h.gdee, h.gpwe, h.cgms⟩
  | pubStart p => simp only [World.step]; split <;> exact ⟨h.gpse, h.gdee, h.gpwe, h.cgms⟩
  | pubDone p => simp only [World.step]; split <;> exact ⟨h.gpse, h.gdee, h.gpwe, h.cgms⟩
  | node n => exact ⟨h.gpse, h.gdee, h.gpwe, h.cgms⟩
  | crashCounsel n =>
    have := h.counsel (hl (.inr ⟨n, rfl⟩)) hd hd' n
    exact ⟨this.gpse, this.gdee, this.gpwe, this.cgms⟩
  | crashAnchor n =>
    have := h.anchor (env := env) n
    exact ⟨this.gpse, this.gdee, this.gpwe, this.cgms⟩
  | restart => exact ⟨h.gpse, h.gdee, h.gpwe, h.cgms⟩

end Verif.Grp
