import Verif.Grp.CounselInv

/-!
# Passes that are not interrupted
-/

namespace Verif.Grp

open Verif.Kel (Id Dig Event Kever Seal Ilk upd upd2)

/-- What every entry keeps is kept by a pass, and what one entry brings about and every entry keeps is there at the end. -/
theorem pass_reach {α} {f : World → α → List Wr × Option Err} {P Q : World → Prop} {w : World} (xs : List α) (he : (pass f w xs).2 = none)
    (hP : ∀ w', Frame w w' → P w' → ∀ x ∈ xs, (f w' x).2 = none → P (w'.applyAll (f w' x).1))
    (hQ : ∀ w', Frame w w' → P w' → Q w' → ∀ x ∈ xs, (f w' x).2 = none → Q (w'.applyAll (f w' x).1))
    (hR : Q w ∨ ∃ x ∈ xs, ∀ w', Frame w w' → P w' → (f w' x).2 = none → Q (w'.applyAll (f w' x).1)) (h : P w) :
    P (w.applyAll (pass f w xs).1) ∧ Q (w.applyAll (pass f w xs).1) := by
  suffices hs : ∀ ys w', (∀ y ∈ ys, y ∈ xs) → Frame w w' → P w' → (pass f w' ys).2 = none →
      (Q w' ∨ ∃ x ∈ ys, ∀ w', Frame w w' → P w' → (f w' x).2 = none → Q (w'.applyAll (f w' x).1)) →
      P (w'.applyAll (pass f w' ys).1) ∧ Q (w'.applyAll (pass f w' ys).1) from hs xs w (fun _ h => h) (.refl w) h he hR
  intro ys
  induction ys with
  | nil =>
    intro w' _ _ hw _ hq
    refine ⟨hw, ?_⟩
    rcases hq with hq | ⟨x, hx, _⟩
    · exact hq
    · simp at hx
  | cons y ys ih =>
    intro w' hys fr hw he hq
    rw [pass] at he ⊢
    split at he
    · simp at he
    rename_i ws hf
    have hf2 : (f w' y).2 = none := by rw [hf]
    have hf1 : (f w' y).1 = ws := by rw [hf]
    have hp := hP w' fr hw y (hys y (by simp)) hf2
    rw [hf1] at hp
    cases hr : pass f (w'.applyAll ws) ys with
    | mk r e' =>
      rw [hr] at he
      dsimp only at he ⊢
      subst he
      rw [applyAll_append]
      have := ih (w'.applyAll ws) (fun y hy => hys y (by simp [hy])) (fr.trans (frame_applyAll _ _)) hp (by rw [hr]) (by
        rcases hq with hq | ⟨x, hx, hx2⟩
        · exact .inl (hf1 ▸ hQ w' fr hw hq y (hys y (by simp)) hf2)
        · rcases List.mem_cons.1 hx with rfl | hx
          · exact .inl (hf1 ▸ hx2 w' fr hw hf2)
          · exact .inr ⟨x, hx, hx2⟩)
      rw [hr] at this
      exact this

theorem pass_whole {α} {f : World → α → List Wr × Option Err} {P : World → Prop} {w : World} (xs : List α) (he : (pass f w xs).2 = none)
    (hP : ∀ w', Frame w w' → P w' → ∀ x ∈ xs, (f w' x).2 = none → P (w'.applyAll (f w' x).1)) (h : P w) : P (w.applyAll (pass f w xs).1) :=
  (pass_reach (Q := fun _ => True) xs he hP (by intros; trivial) (.inl trivial) h).1

theorem andThen_none {r : List Wr × Option Err} {w : World} {f : World → List Wr × Option Err} (h : (andThen r w f).2 = none) :
    r.2 = none ∧ (f (w.applyAll r.1)).2 = none ∧ (andThen r w f).1 = r.1 ++ (f (w.applyAll r.1)).1 := by
  obtain ⟨ws, e⟩ := r
  cases e with
  | some e => simp [andThen] at h
  | none => exact ⟨rfl, h, rfl⟩

/-- A pass of the Counselor that raises nothing, part by part. -/
theorem counsel_parts {w : World} (h : (counsel w).2 = none) : ∃ w1 w2, w1 = w.applyAll (pass partialSigned w w.gpse).1 ∧ (pass partialSigned w w.gpse).2 = none ∧
    w2 = w1.applyAll (pass delegateEsc w1 w1.gdee).1 ∧ (pass delegateEsc w1 w1.gdee).2 = none ∧ (pass partialWitness w2 w2.gpwe).2 = none ∧
    w.applyAll (counsel w).1 = w2.applyAll (pass partialWitness w2 w2.gpwe).1 := by
  obtain ⟨h1, h2, h3⟩ := andThen_none h
  obtain ⟨h4, h5, h6⟩ := andThen_none h1
  refine ⟨_, _, rfl, h4, rfl, h5, ?_, ?_⟩
  · rw [h6, applyAll_append] at h2; exact h2
  · rw [counsel, h3, applyAll_append, h6, applyAll_append]

/-- A pass of the Anchorer that raises nothing, part by part. -/
theorem anchor_parts {env : Env} {w : World} (h : (anchor env w).2 = none) : ∃ w1 w2, w1 = w.applyAll (pass dPartialWitness w w.dpwe).1 ∧
    (pass dPartialWitness w w.dpwe).2 = none ∧
    w2 = w1.applyAll (pass (unanchored env) w1 w1.dune).1 ∧ (pass (unanchored env) w1 w1.dune).2 = none ∧ (pass publication w2 w2.dpub).2 = none ∧
    w.applyAll (anchor env w).1 = w2.applyAll (pass publication w2 w2.dpub).1 := by
  obtain ⟨h1, h2, h3⟩ := andThen_none h
  obtain ⟨h4, h5, h6⟩ := andThen_none h1
  refine ⟨_, _, rfl, h4, rfl, h5, ?_, ?_⟩
  · rw [h6, applyAll_append] at h2; exact h2
  · rw [anchor, h3, applyAll_append, h6, applyAll_append]

/-! ## Where an event is -/

/-- Completed. -/
theorem apply_cgms {w : World} {p : Id} {num : Num} {d : Dig} (hw : w.cgms p num = some d) (x : Wr) : (w.apply x).cgms p num = some d := by
  cases x with
  | cgmsPut y =>
    simp only [World.apply]
    split
    · rename_i hn
      simp only [Kel.upd2]
      split
      · rename_i he; obtain ⟨h1, h2⟩ := he; rw [← h1, ← h2, hw] at hn; simp at hn
      · exact hw
    · exact hw
  | cdelPut q sn d => simp only [World.apply]; split <;> exact hw
  | pubFeed q n => simp only [World.apply]; split <;> exact hw
  | _ => exact hw

theorem applyAll_cgms {w : World} {p : Id} {num : Num} {d : Dig} (hw : w.cgms p num = some d) (ws : List Wr) : (w.applyAll ws).cgms p num = some d :=
  writes_keep (P := fun w => w.cgms p num = some d) (L := fun _ => True) (fun _ x h _ => apply_cgms h x) ws (by simp) hw

/-- Writes about entry `y` only. -/
def Wr.onlyOf (y : Entry) : Wr → Prop
  | .gpseRem p => p = y.1
  | .gdeeAdd z => z = y
  | .gdeeRem p => p = y.1
  | .gpweAdd z => z = y
  | .gpweRem p => p = y.1
  | .cgmsPut z => z = y
  | _ => True

/-- The event waits alone in its group, or is complete. -/
def Held (x : Entry) (w : World) : Prop := (Waits w x ∧ w.cgms x.1 x.2.1 = none ∧ ∀ y, Waits w y → y.1 = x.1 → y = x) ∨ w.cgms x.1 x.2.1 = some x.2.2

/-- Writes about another group. -/
theorem Held.other {x y : Entry} {w : World} (h : Held x w) (hne : y.1 ≠ x.1) {z : Wr} (hz : z.onlyOf y) : Held x (w.apply z) := by
  rcases h with ⟨h1, h2, h3⟩ | h
  case inr => exact .inr (apply_cgms h z)
  have hfil : ∀ l : List Entry, x ∈ l → x ∈ l.filter fun z => decide (z.1 ≠ y.1) := fun l hl => List.mem_filter.2 ⟨hl, by simpa using fun h => hne h.symm⟩
  have hadd : ∀ {l : List Entry} {u : Entry}, u ∈ entAdd l y → u.1 = x.1 → u ∈ l := by
    intro l u hu he
    rcases mem_entAdd.1 hu with rfl | hu
    · exact absurd he hne
    · exact hu
  refine .inl ?_
  cases z with
  | gpseRem p =>
    have hz : p = y.1 := hz
    subst hz
    refine ⟨?_, h2, fun u hu => h3 u ?_⟩
    · rcases h1 with h | h | h
      · exact .inl (hfil _ h)
      · exact .inr (.inl h)
      · exact .inr (.inr h)
    · rcases hu with h | h | h
      · exact .inl (List.mem_filter.1 h).1
      · exact .inr (.inl h)
      · exact .inr (.inr h)
  | gdeeRem p =>
    have hz : p = y.1 := hz
    subst hz
    refine ⟨?_, h2, fun u hu => h3 u ?_⟩
    · rcases h1 with h | h | h
      · exact .inl h
      · exact .inr (.inl (hfil _ h))
      · exact .inr (.inr h)
    · rcases hu with h | h | h
      · exact .inl h
      · exact .inr (.inl (List.mem_filter.1 h).1)
      · exact .inr (.inr h)
  | gpweRem p =>
    have hz : p = y.1 := hz
    subst hz
    refine ⟨?_, h2, fun u hu => h3 u ?_⟩
    · rcases h1 with h | h | h
      · exact .inl h
      · exact .inr (.inl h)
      · exact .inr (.inr (hfil _ h))
    · rcases hu with h | h | h
      · exact .inl h
      · exact .inr (.inl h)
      · exact .inr (.inr (List.mem_filter.1 h).1)
  | gdeeAdd z =>
    have hz : z = y := hz
    subst hz
    refine ⟨?_, h2, fun u hu he => h3 u ?_ he⟩
    · rcases h1 with h | h | h
      · exact .inl h
      · exact .inr (.inl (mem_entAdd.2 (.inr h)))
      · exact .inr (.inr h)
    · rcases hu with h | h | h
      · exact .inl h
      · exact .inr (.inl (hadd h he))
      · exact .inr (.inr h)
  | gpweAdd z =>
    have hz : z = y := hz
    subst hz
    refine ⟨?_, h2, fun u hu he => h3 u ?_ he⟩
    · rcases h1 with h | h | h
      · exact .inl h
      · exact .inr (.inl h)
      · exact .inr (.inr (mem_entAdd.2 (.inr h)))
    · rcases hu with h | h | h
      · exact .inl h
      · exact .inr (.inl h)
      · exact .inr (.inr (hadd h he))
  | cgmsPut z =>
    have hz : z = y := hz
    subst hz
    simp only [World.apply]
    split
    · exact ⟨h1, by simp only [upd2]; rw [if_neg (fun h => hne h.1.symm)]; exact h2, h3⟩
    · exact ⟨h1, h2, h3⟩
  | cdelPut q sn d => simp only [World.apply]; split <;> exact ⟨h1, h2, h3⟩
  | pubFeed q n => simp only [World.apply]; split <;> exact ⟨h1, h2, h3⟩
  | _ => exact ⟨h1, h2, h3⟩

theorem Held.others {x y : Entry} {w : World} (h : Held x w) (hne : y.1 ≠ x.1) {ws : List Wr} (hz : ∀ z ∈ ws, z.onlyOf y) : Held x (w.applyAll ws) :=
  writes_keep (P := Held x) (fun _ _ h hz => h.other hne hz) ws hz h

/-- Only the entry itself waits in its group. -/
def Alone (x : Entry) (w : World) : Prop := ∀ y, Waits w y → y.1 = x.1 → y = x

theorem Alone.apply {x : Entry} {w : World} (h : Alone x w) {z : Wr} (hz : z.onlyOf x) : Alone x (w.apply z) := by
  have hadd : ∀ {l : List Entry} {u : Entry}, u ∈ entAdd l x → u = x ∨ u ∈ l := fun hu => mem_entAdd.1 hu
  intro u hu he
  cases z with
  | gpseRem p =>
    refine h u ?_ he
    rcases hu with h | h | h
    · exact .inl (List.mem_filter.1 h).1
    · exact .inr (.inl h)
    · exact .inr (.inr h)
  | gdeeRem p =>
    refine h u ?_ he
    rcases hu with h | h | h
    · exact .inl h
    · exact .inr (.inl (List.mem_filter.1 h).1)
    · exact .inr (.inr h)
  | gpweRem p =>
    refine h u ?_ he
    rcases hu with h | h | h
    · exact .inl h
    · exact .inr (.inl h)
    · exact .inr (.inr (List.mem_filter.1 h).1)
  | gdeeAdd z =>
    have hz : z = x := hz
    subst hz
    rcases hu with h' | h' | h'
    · exact h u (.inl h') he
    · rcases hadd h' with rfl | h'
      · rfl
      · exact h u (.inr (.inl h')) he
    · exact h u (.inr (.inr h')) he
  | gpweAdd z =>
    have hz : z = x := hz
    subst hz
    rcases hu with h' | h' | h'
    · exact h u (.inl h') he
    · exact h u (.inr (.inl h')) he
    · rcases hadd h' with rfl | h'
      · rfl
      · exact h u (.inr (.inr h')) he
  | cgmsPut z => refine h u ?_ he; simp only [World.apply] at hu; split at hu <;> exact hu
  | cdelPut q sn d => refine h u ?_ he; simp only [World.apply] at hu; split at hu <;> exact hu
  | pubFeed q n => refine h u ?_ he; simp only [World.apply] at hu; split at hu <;> exact hu
  | _ => exact h u hu he

theorem Alone.writes {x : Entry} {w : World} (h : Alone x w) {ws : List Wr} (hz : ∀ z ∈ ws, z.onlyOf x) : Alone x (w.applyAll ws) :=
  writes_keep (P := Alone x) (fun _ _ h hz => h.apply hz) ws hz h

def Wr.notPut : Wr → Prop
  | .cgmsPut _ => False
  | _ => True

theorem apply_notPut {w : World} {z : Wr} (hz : z.notPut) : (w.apply z).cgms = w.cgms := by
  cases z with
  | cgmsPut => exact hz.elim
  | cdelPut q sn d => simp only [World.apply]; split <;> rfl
  | pubFeed q n => simp only [World.apply]; split <;> rfl
  | _ => rfl

theorem applyAll_notPut {w : World} {ws : List Wr} (hz : ∀ z ∈ ws, Wr.notPut z) : (w.applyAll ws).cgms = w.cgms :=
  writes_keep (P := fun w' => w'.cgms = w.cgms) (fun _ _ h l => (apply_notPut l).trans h) ws hz rfl

/-- The entry is moved to another escrow. -/
theorem Held.moved {x : Entry} {w : World} (h : Held x w) {ws : List Wr} {z : Wr} (hz : z = .gdeeAdd x ∨ z = .gpweAdd x) (ho : ∀ z ∈ ws, z.onlyOf x)
    (hp : ∀ z ∈ ws, z.notPut) : Held x (w.applyAll (ws ++ [z])) := by
  rcases h with ⟨_, h2, h3⟩ | h
  case inr => exact .inr (applyAll_cgms h _)
  have hal : ∀ z' ∈ ws ++ [z], z'.onlyOf x := by
    intro z' hz'
    rcases List.mem_append.1 hz' with h | h
    · exact ho z' h
    · simp at h; subst h; rcases hz with rfl | rfl <;> rfl
  have hnp : ∀ z' ∈ ws ++ [z], z'.notPut := by
    intro z' hz'
    rcases List.mem_append.1 hz' with h | h
    · exact hp z' h
    · simp at h; subst h; rcases hz with rfl | rfl <;> trivial
  refine .inl ⟨?_, by rw [applyAll_notPut hnp]; exact h2, Alone.writes h3 hal⟩
  rw [applyAll_append]
  rcases hz with rfl | rfl
  · exact .inr (.inl (mem_entAdd.2 (.inl rfl)))
  · exact .inr (.inr (mem_entAdd.2 (.inl rfl)))

/-- The entry is complete. -/
theorem Held.put {x : Entry} {w : World} (h : Held x w) {ws : List Wr} (hp : ∀ z ∈ ws, z.notPut) :
    (w.applyAll (ws ++ [.cgmsPut x])).cgms x.1 x.2.1 = some x.2.2 := by
  rcases h with ⟨_, h2, _⟩ | h
  case inr => exact applyAll_cgms h _
  rw [applyAll_append]
  have : (w.applyAll ws).cgms x.1 x.2.1 = none := by rw [applyAll_notPut hp]; exact h2
  show ((w.applyAll ws).apply (.cgmsPut x)).cgms x.1 x.2.1 = _
  simp only [World.apply, this]
  simp [upd2]

/-! ## What the parts do to an entry -/

theorem delegation_neutral {w : World} {p : Id} {sn : Option Nat} : ∀ z ∈ (delegation w p sn).1, (∀ y, z.onlyOf y) ∧ z.notPut := by
  intro x hx
  unfold delegation at hx
  split at hx
  · simp at hx
  split at hx
  · simp at hx; subst hx; exact ⟨fun _ => trivial, trivial⟩
  split at hx
  · simp at hx; subst hx; exact ⟨fun _ => trivial, trivial⟩
  split at hx
  · simp at hx; subst hx; exact ⟨fun _ => trivial, trivial⟩
  dsimp only at hx
  split at hx
  · simp at hx; subst hx; exact ⟨fun _ => trivial, trivial⟩
  split at hx
  · simp at hx; subst hx; exact ⟨fun _ => trivial, trivial⟩
  · simp at hx; rcases hx with rfl | rfl | rfl <;> exact ⟨fun _ => trivial, trivial⟩

/-- An entry that waits for signatures stays, is moved on, or is dropped: the latter if there are no signatures. -/
inductive Signed (w : World) (x : Entry) : List Wr → Prop
  | stays : Signed w x []
  | nosigs (sd : Dig) (h : lastAt w.node x.1 x.2.1.num = some sd) (hs : w.node.db.sigs x.1 sd = []) : Signed w x [.gpseRem x.1]
  | moved (ws : List Wr) (z : Wr) (hz : z = .gdeeAdd x ∨ z = .gpweAdd x) (ho : ∀ y ∈ ws, y.onlyOf x) (hp : ∀ y ∈ ws, y.notPut) : Signed w x (ws ++ [z])

theorem minIndex_none {l : List Kel.Sig} (h : minIndex l = none) : l = [] := by
  cases l with
  | nil => rfl
  | cons a l => simp only [minIndex] at h; split at h <;> cases h

theorem partialSigned_did {w : World} {x : Entry} (h : (partialSigned w x).2 = none) : Signed w x (partialSigned w x).1 := by
  unfold partialSigned at h ⊢
  split
  · exact .stays
  rename_i sd hsd
  rw [hsd] at h
  dsimp only at h
  split
  · rename_i hh; rw [hh] at h; cases h
  rename_i hb hh
  rw [hh] at h
  dsimp only at h
  split
  · rename_i hk; rw [hk] at h; cases h
  rename_i k hk
  rw [hk] at h
  dsimp only at h
  split
  · rename_i hm; exact .nosigs sd hsd (minIndex_none hm)
  rename_i i hi
  rw [hi] at h
  dsimp only at h
  split
  · rename_i hm; rw [hm] at h; cases h
  rename_i mk hm
  rw [hm] at h
  dsimp only at h
  split
  · rename_i hki; rw [hki] at h; cases h
  rename_i ki hki
  rw [hki] at h
  dsimp only at h
  split
  · rename_i hc
    rw [if_pos hc] at h
    split
    · rename_i he
      rw [if_pos he] at h
      split
      · rename_i hd; rw [hd] at h; cases h
      · rename_i ws hd
        have hn := delegation_neutral (w := w) (p := x.1) (sn := some x.2.1.num)
        rw [hd] at hn
        refine .moved (.gpseRem x.1 :: ws) (.gdeeAdd x) (.inl rfl) ?_ ?_
        · intro y hy
          rcases List.mem_cons.1 hy with rfl | hy
          · exact rfl
          · exact (hn y hy).1 x
        · intro y hy
          rcases List.mem_cons.1 hy with rfl | hy
          · trivial
          · exact (hn y hy).2
    · exact .moved [.gpseRem x.1] (.gdeeAdd x) (.inl rfl) (by simp [Wr.onlyOf]) (by simp [Wr.notPut])
  · split
    · exact .moved [.gpseRem x.1, .cmsg x.1 x.2.1.num] (.gpweAdd x) (.inr rfl) (by simp [Wr.onlyOf]) (by simp [Wr.notPut])
    · exact .moved [.gpseRem x.1] (.gpweAdd x) (.inr rfl) (by simp [Wr.onlyOf]) (by simp [Wr.notPut])

/-- An entry that waits for approval or receipts stays, is moved on, or is completed. -/
inductive Waited (x : Entry) : List Wr → Prop
  | stays : Waited x []
  | moved (ws : List Wr) (ho : ∀ y ∈ ws, y.onlyOf x) (hp : ∀ y ∈ ws, y.notPut) : Waited x (ws ++ [.gpweAdd x])
  | done (ws : List Wr) (ho : ∀ y ∈ ws, y.onlyOf x) (hp : ∀ y ∈ ws, y.notPut) : Waited x (ws ++ [.cgmsPut x])

theorem delegateEsc_did {w : World} {x : Entry} : Waited x (delegateEsc w x).1 := by
  unfold delegateEsc
  split
  · exact .stays
  split
  · exact .stays
  split
  · exact .stays
  · split
    · exact .done [.gdeeRem x.1] (by simp [Wr.onlyOf]) (by simp [Wr.notPut])
    · exact .stays
  · split
    · exact .stays
    split
    · exact .stays
    · exact .moved [_, .gdeeRem x.1, .gdeeRem x.1] (by simp [Wr.onlyOf]) (by simp [Wr.notPut])

theorem partialWitness_did {w : World} {x : Entry} : Waited x (partialWitness w x).1 := by
  unfold partialWitness
  split
  · exact .stays
  split
  · exact .stays
  split
  · exact .stays
  split
  · split
    · exact .stays
    · exact .done [.gpweRem x.1] (by simp [Wr.onlyOf]) (by simp [Wr.notPut])
  · exact .stays

theorem Signed.only {w : World} {x : Entry} {ws : List Wr} (h : Signed w x ws) : ∀ z ∈ ws, z.onlyOf x := by
  cases h with
  | stays => simp
  | nosigs => simp [Wr.onlyOf]
  | moved ws z hz ho hp =>
    intro y hy
    rcases List.mem_append.1 hy with h | h
    · exact ho y h
    · simp at h; subst h; rcases hz with rfl | rfl <;> rfl

theorem Waited.only {x : Entry} {ws : List Wr} (h : Waited x ws) : ∀ z ∈ ws, z.onlyOf x := by
  cases h with
  | stays => simp
  | moved ws ho hp =>
    intro y hy
    rcases List.mem_append.1 hy with h | h
    · exact ho y h
    · simp at h; subst h; rfl
  | done ws ho hp =>
    intro y hy
    rcases List.mem_append.1 hy with h | h
    · exact ho y h
    · simp at h; subst h; rfl

theorem Held.waited {x y : Entry} {w : World} (h : Held x w) (hy : y.1 = x.1 → y = x) {ws : List Wr} (hw : Waited y ws) : Held x (w.applyAll ws) := by
  by_cases he : y.1 = x.1
  · have := hy he
    subst this
    cases hw with
    | stays => exact h
    | moved ws ho hp => exact h.moved (.inr rfl) ho hp
    | done ws ho hp => exact .inr (h.put hp)
  · exact h.others he hw.only

theorem Held.signed {x y : Entry} {w : World} (h : Held x w) (hy : y.1 = x.1 → y = x) {ws : List Wr} (hw : Signed w y ws)
    (hs : ∀ p sn sd, lastAt w.node p sn = some sd → w.node.db.sigs p sd ≠ []) : Held x (w.applyAll ws) := by
  by_cases he : y.1 = x.1
  · have := hy he
    subst this
    cases hw with
    | stays => exact h
    | nosigs sd h1 h2 => exact absurd h2 (hs _ _ _ h1)
    | moved ws z hz ho hp => exact h.moved hz ho hp
  · exact h.others he hw.only

/-- A pass of the Counselor keeps events, or completes them. -/
theorem Held.counsel {x : Entry} {w : World} (h : Held x w) (he : (counsel w).2 = none)
    (hs : ∀ p sn sd, lastAt w.node p sn = some sd → w.node.db.sigs p sd ≠ []) : Held x (w.applyAll (counsel w).1) := by
  have key : ∀ {w1 w' : World}, Held x w1 → (w1.cgms x.1 x.2.1 ≠ some x.2.2 → ∀ y, Waits w1 y → y.1 = x.1 → y = x) := by
    intro w1 w' h1 hc
    rcases h1 with ⟨_, _, h⟩ | h
    · exact h
    · exact absurd h hc
  obtain ⟨w1, w2, e1, n1, e2, n2, n3, e3⟩ := counsel_parts he
  have a1 : Held x w1 := by
    rw [e1]
    by_cases hc : w.cgms x.1 x.2.1 = some x.2.2
    · exact .inr (applyAll_cgms hc _)
    refine pass_whole (P := Held x) _ n1 (fun w' fr h' y hy hn => ?_) h
    exact h'.signed (key (w' := w') h hc y (.inl hy)) (partialSigned_did hn) (by rw [fr.sigs]; intro p sn sd hl; rw [fr.last] at hl; exact hs p sn sd hl)
  have a2 : Held x w2 := by
    rw [e2]
    by_cases hc : w1.cgms x.1 x.2.1 = some x.2.2
    · exact .inr (applyAll_cgms hc _)
    exact pass_whole (P := Held x) _ n2 (fun w' fr h' y hy hn => h'.waited (key (w' := w') a1 hc y (.inr (.inl hy))) delegateEsc_did) a1
  rw [e3]
  by_cases hc : w2.cgms x.1 x.2.1 = some x.2.2
  · exact .inr (applyAll_cgms hc _)
  exact pass_whole (P := Held x) _ n3 (fun w' fr h' y hy hn => h'.waited (key (w' := w') a2 hc y (.inr (.inr hy))) partialWitness_did) a2

/-- The Anchorer does nothing to the events of the Counselor. -/
def Wr.deleg : Wr → Prop
  | .gpseRem _ | .gdeeAdd _ | .gdeeRem _ | .gpweAdd _ | .gpweRem _ | .cgmsPut _ => False
  | _ => True

theorem Held.deleg {x : Entry} {w : World} (h : Held x w) {z : Wr} (hz : z.deleg) : Held x (w.apply z) := by
  cases z with
  | gpseRem => exact hz.elim
  | gdeeAdd => exact hz.elim
  | gdeeRem => exact hz.elim
  | gpweAdd => exact hz.elim
  | gpweRem => exact hz.elim
  | cgmsPut => exact hz.elim
  | cdelPut q sn d => simp only [World.apply]; split <;> exact h
  | pubFeed q n => simp only [World.apply]; split <;> exact h
  | _ => exact h

theorem delegation_deleg {w : World} {p : Id} {sn : Option Nat} : ∀ z ∈ (delegation w p sn).1, z.deleg := by
  intro x hx
  unfold delegation at hx
  split at hx
  · simp at hx
  split at hx
  · simp at hx; subst hx; trivial
  split at hx
  · simp at hx; subst hx; trivial
  split at hx
  · simp at hx; subst hx; trivial
  dsimp only at hx
  split at hx
  · simp at hx; subst hx; trivial
  split at hx
  · simp at hx; subst hx; trivial
  · simp at hx; rcases hx with rfl | rfl | rfl <;> trivial

theorem dPartialWitness_deleg {w : World} {e : Event} : ∀ y ∈ (dPartialWitness w e).1, y.deleg := by
  unfold dPartialWitness
  split
  · simp
  split
  · split
    · simp
    split
    · simp
    split
    · simp
    split
    · simp
    split
    · simp
    split <;> simp [Wr.deleg]
  · simp

theorem unanchored_deleg {env : Env} {w : World} {e : Event} : ∀ y ∈ (unanchored env w e).1, y.deleg := by
  unfold unanchored
  split
  · simp
  split
  · simp
  split
  · simp
  split
  · simp
  dsimp only
  split
  · simp [Wr.deleg]
  split <;> simp [Wr.deleg]

theorem publication_deleg {w : World} {e : Event} : ∀ y ∈ (publication w e).1, y.deleg := by
  unfold publication
  split
  · simp
  split <;> simp [Wr.deleg]

/-- What writes of the Anchorer keep is kept by any part of a pass of the Anchorer. -/
theorem anchor_keeps {env : Env} {P : World → Prop} (hP : ∀ w x, P w → Wr.deleg x → P (w.apply x)) {w : World} (h : P w) (n : Nat) :
    P (w.applyAll ((anchor env w).1.take n)) := by
  have go : ∀ {ws : List Wr} {w' : World}, (∀ y ∈ ws, Wr.deleg y) → P w' → ∀ n, P (w'.applyAll (ws.take n)) :=
    fun hd hp n => writes_keep hP _ (fun y hy => hd y (List.mem_of_mem_take hy)) hp
  unfold Grp.anchor
  refine three_part (P := P) (a := World.dpwe) (b := World.dune) (c := World.dpub) ?_ ?_ ?_ h n
  · intro w' _ p x _ n; exact go dPartialWitness_deleg p n
  · intro _ _ _ w' _ p x _ n; exact go unanchored_deleg p n
  · intro _ _ _ w' _ p x _ n; exact go publication_deleg p n

theorem anchor_keeps_all {env : Env} {P : World → Prop} (hP : ∀ w x, P w → Wr.deleg x → P (w.apply x)) {w : World} (h : P w) : P (w.applyAll (anchor env w).1) := by
  have := anchor_keeps (env := env) hP h (anchor env w).1.length
  rwa [take_all] at this

end Verif.Grp
