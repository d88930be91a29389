import Verif.Iss.Spec
import Verif.Vry.Inv

/-!
# Lemmas on passes and writes
-/

namespace Verif.Iss

open Verif.Kel (Id Dig Couple upd upd2)
open Verif.Vry (VNode VEnv VInp Cred Anchor)

theorem Hist.trans {env : VEnv} {G} {w0 w1 w2 : World} (h : Hist env G w0 w1) (h' : Hist env G w1 w2) : Hist env G w0 w2 := by
  induction h' with
  | nil => exact h
  | step i _ g ih => exact .step i ih g

theorem Hist.mono {env : VEnv} {G G' : World → Inp → Prop} (hg : ∀ w i, G w i → G' w i) {w0 w : World} (h : Hist env G w0 w) : Hist env G' w0 w := by
  induction h with
  | nil => exact .nil
  | step i _ g ih => exact .step i ih (hg _ _ g)

theorem Was.next {env : VEnv} {G} {w0 w : World} {Q : World → Prop} (h : Was env G w0 w Q) {i : Inp} (g : G w i) : Was env G w0 (w.step env i) Q := by
  obtain ⟨w1, h1, h2, hq⟩ := h
  exact ⟨w1, h1, h2.trans (.step i .nil g), hq⟩

theorem Asked.next {env : VEnv} {G} {w0 w : World} {Q : World → Ask → Prop} (h : Asked env G w0 w Q) {i : Inp} (g : G w i) : Asked env G w0 (w.step env i) Q := by
  obtain ⟨w1, j, a, h1, h2, h3, h4⟩ := h
  exact ⟨w1, j, a, h1, h2, h3.trans (.step i .nil g), h4⟩

theorem applyAll_append (w : World) (a b : List Wr) : w.applyAll (a ++ b) = (w.applyAll a).applyAll b := List.foldl_append

/-! ## Stores -/

theorem mem_ins {κ β : Type} {lt : κ → κ → Bool} {x y : κ × β} {l : List (κ × β)} : y ∈ ins lt x l ↔ y = x ∨ y ∈ l := by
  induction l with
  | nil => simp [ins]
  | cons z l ih =>
    rw [ins]
    split
    · simp
    · rw [List.mem_cons, ih, List.mem_cons]; grind

theorem mem_setAdd {κ β : Type} [DecidableEq κ] [DecidableEq β] {lt : κ → κ → Bool} {x y : κ × β} {l : List (κ × β)} : y ∈ setAdd lt l x ↔ y = x ∨ y ∈ l := by
  rw [setAdd]
  split
  · grind
  · exact mem_ins

theorem mem_onePut {κ β : Type} [DecidableEq κ] {lt : κ → κ → Bool} {x y : κ × β} {l : List (κ × β)} (h : y ∈ onePut lt l x) : y = x ∨ y ∈ l := by
  rw [onePut] at h
  split at h
  · exact .inr h
  · exact mem_ins.1 h

theorem onePut_keeps {κ β : Type} [DecidableEq κ] {lt : κ → κ → Bool} {x y : κ × β} {l : List (κ × β)} (h : y ∈ l) : y ∈ onePut lt l x := by
  rw [onePut]
  split
  · exact h
  · exact mem_ins.2 (.inr h)

theorem mem_remKey {κ β : Type} [DecidableEq κ] {l : List (κ × β)} {k : κ} {y : κ × β} : y ∈ remKey l k ↔ y ∈ l ∧ y.1 ≠ k := by simp [remKey]

/-! ## What writes leave alone -/

/-- Everything the treatment of an entry depends on, apart from the stores of the workflow itself: only source seals are added to the node. -/
structure Frame (w w' : World) : Prop where
  v : ∃ x, w'.v = { w.v with t := { w.v.t with reg := { w.v.t.reg with ancs := x } } }
  habs : w'.habs = w.habs
  regs : w'.regs = w.regs
  cgms : w'.cgms = w.cgms
  rcues : w'.rcues = w.rcues
  pcues : w'.pcues = w.pcues

theorem Frame.refl (w : World) : Frame w w := ⟨⟨_, rfl⟩, rfl, rfl, rfl, rfl, rfl⟩

theorem Frame.trans {a b c : World} (h : Frame a b) (h' : Frame b c) : Frame a c := by
  obtain ⟨⟨x, hx⟩, h1, h2, h3, h4, h5⟩ := h
  obtain ⟨⟨y, hy⟩, g1, g2, g3, g4, g5⟩ := h'
  exact ⟨⟨y, by rw [hy, hx]⟩, g1.trans h1, g2.trans h2, g3.trans h3, g4.trans h4, g5.trans h5⟩

theorem frame_apply (w : World) (x : Wr) : Frame w (w.apply x) := by
  cases x with
  | ancPut p d c =>
    simp only [World.apply, anchorMsg]
    split <;> exact ⟨⟨_, rfl⟩, rfl, rfl, rfl, rfl, rfl⟩
  | ctelPut k d => simp only [World.apply]; split <;> exact ⟨⟨_, rfl⟩, rfl, rfl, rfl, rfl, rfl⟩
  | ccrdPut d c => simp only [World.apply]; split <;> exact ⟨⟨_, rfl⟩, rfl, rfl, rfl, rfl, rfl⟩
  | _ => exact ⟨⟨_, rfl⟩, rfl, rfl, rfl, rfl, rfl⟩

theorem frame_applyAll (w : World) (ws : List Wr) : Frame w (w.applyAll ws) := by
  induction ws generalizing w with
  | nil => exact .refl w
  | cons x ws ih => exact (frame_apply w x).trans (ih _)

theorem Frame.node {w w' : World} (h : Frame w w') : w'.v.t.node = w.v.t.node := by
  obtain ⟨x, hx⟩ := h.v
  rw [hx]

theorem Frame.tels {w w' : World} (h : Frame w w') : w'.v.t.reg.tels = w.v.t.reg.tels := by
  obtain ⟨x, hx⟩ := h.v
  rw [hx]

theorem Frame.s {w w' : World} (h : Frame w w') : w'.v.s = w.v.s := by
  obtain ⟨x, hx⟩ := h.v
  rw [hx]

/-- What is true at first and kept by every part of the treatment of every entry is true after any part of a pass. -/
theorem pass_part {α} {f : World → α → List Wr × Option Grp.Err} {P : World → Prop} {w : World} (xs : List α)
    (hstep : ∀ w', Frame w w' → P w' → ∀ x ∈ xs, ∀ n, P (w'.applyAll ((f w' x).1.take n))) (h : P w) (n : Nat) :
    P (w.applyAll ((pass f w xs).1.take n)) := by
  suffices hs : ∀ ys w', (∀ y ∈ ys, y ∈ xs) → Frame w w' → P w' → ∀ n, P (w'.applyAll ((pass f w' ys).1.take n)) from hs xs w (fun _ h => h) (.refl w) h n
  intro ys
  induction ys with
  | nil => intro w' _ _ hw n; simpa [pass, World.applyAll] using hw
  | cons y ys ih =>
    intro w' hys fr hw n
    have hy := hstep w' fr hw y (hys y (by simp))
    rw [pass]
    split
    · rename_i ws e he; rw [he] at hy; exact hy n
    · rename_i ws he
      rw [he] at hy
      cases hr : pass f (w'.applyAll ws) ys with
      | mk r e' =>
        dsimp only
        rw [List.take_append, applyAll_append]
        by_cases hn : n ≤ ws.length
        · rw [show n - ws.length = 0 by omega]; exact hy n
        · rw [List.take_of_length_le (by omega)]
          have := ih (w'.applyAll ws) (fun y hy => hys y (by simp [hy])) (fr.trans (frame_applyAll _ _))
            (by have := hy ws.length; simpa using this) (n - ws.length)
          rw [hr] at this; exact this

/-- What is kept by the whole treatment of every entry is true after a whole pass. -/
theorem pass_whole {α} {f : World → α → List Wr × Option Grp.Err} {P : World → Prop} {w : World} (xs : List α)
    (hstep : ∀ w', Frame w w' → P w' → ∀ x ∈ xs, P (w'.applyAll (f w' x).1)) (h : P w) : P (w.applyAll (pass f w xs).1) := by
  suffices hs : ∀ ys w', (∀ y ∈ ys, y ∈ xs) → Frame w w' → P w' → P (w'.applyAll (pass f w' ys).1) from hs xs w (fun _ h => h) (.refl w) h
  intro ys
  induction ys with
  | nil => intro w' _ _ hw; exact hw
  | cons y ys ih =>
    intro w' hys fr hw
    have hy := hstep w' fr hw y (hys y (by simp))
    rw [pass]
    split
    · rename_i ws e he; rw [he] at hy; exact hy
    · rename_i ws he
      rw [he] at hy
      cases hr : pass f (w'.applyAll ws) ys with
      | mk r e' =>
        dsimp only
        rw [applyAll_append]
        have := ih (w'.applyAll ws) (fun y hy => hys y (by simp [hy])) (fr.trans (frame_applyAll _ _)) hy
        rw [hr] at this; exact this

/-- A pass that raises nothing reaches every entry. -/
theorem pass_reach {α} {f : World → α → List Wr × Option Grp.Err} {Q : World → Prop} {w : World} (xs : List α) (he : (pass f w xs).2 = none)
    (hkeep : ∀ w', Frame w w' → Q w' → ∀ x ∈ xs, Q (w'.applyAll (f w' x).1))
    (hR : Q w ∨ ∃ x ∈ xs, ∀ w', Frame w w' → (f w' x).2 = none → Q (w'.applyAll (f w' x).1)) : Q (w.applyAll (pass f w xs).1) := by
  rcases hR with h | ⟨x, hx, hR⟩
  · exact pass_whole xs hkeep h
  suffices hs : ∀ ys w', (∀ y ∈ ys, y ∈ xs) → Frame w w' → (pass f w' ys).2 = none → x ∈ ys → Q (w'.applyAll (pass f w' ys).1) from
    hs xs w (fun _ h => h) (.refl w) he hx
  intro ys
  induction ys with
  | nil => intro w' _ _ _ hx; cases hx
  | cons y ys ih =>
    intro w' hys fr he hx
    rw [pass] at he ⊢
    cases hf : f w' y with
    | mk ws e =>
      rw [hf] at he
      cases e with
      | some e => cases he
      | none =>
        dsimp only at he ⊢
        have hsub : ∀ z ∈ ys, z ∈ xs := fun z hz => hys z (by simp [hz])
        have fr' := fr.trans (frame_applyAll w' ws)
        cases hr : pass f (w'.applyAll ws) ys with
        | mk r e' =>
          rw [hr] at he
          dsimp only at he ⊢
          rw [applyAll_append]
          rcases List.mem_cons.1 hx with rfl | hx
          · have hq : Q (w'.applyAll ws) := by have := hR w' fr (by rw [hf]); rwa [hf] at this
            have := pass_whole (P := Q) ys (fun w'' fr'' hq z hz => hkeep w'' (fr'.trans fr'') hq z (hsub z hz)) hq
            rw [hr] at this; exact this
          · have := ih (w'.applyAll ws) hsub fr' (by rw [hr]; exact he) hx
            rw [hr] at this; exact this

theorem andThen_part {P : World → Prop} {w : World} {r : List Wr × Option Grp.Err} {f : World → List Wr × Option Grp.Err}
    (h1 : ∀ n, P (w.applyAll (r.1.take n))) (h2 : ∀ w', Frame w w' → P w' → ∀ n, P (w'.applyAll ((f w').1.take n))) (n : Nat) :
    P (w.applyAll ((andThen r w f).1.take n)) := by
  obtain ⟨ws, e⟩ := r
  cases e with
  | some e => exact h1 n
  | none =>
    simp only [andThen]
    have hf := h2 (w.applyAll ws) (frame_applyAll _ _) (by have := h1 ws.length; simpa using this)
    rw [List.take_append, applyAll_append]
    by_cases hn : n ≤ ws.length
    · rw [show n - ws.length = 0 by omega]; exact h1 n
    · rw [List.take_of_length_le (by omega)]; exact hf _

theorem andThen_whole {P : World → Prop} {w : World} {r : List Wr × Option Grp.Err} {f : World → List Wr × Option Grp.Err}
    (h1 : P (w.applyAll r.1)) (h2 : ∀ w', Frame w w' → P w' → P (w'.applyAll (f w').1)) : P (w.applyAll (andThen r w f).1) := by
  obtain ⟨ws, e⟩ := r
  cases e with
  | some e => exact h1
  | none =>
    simp only [andThen]
    rw [applyAll_append]
    exact h2 _ (frame_applyAll _ _) h1

/-- What each part of the treatment of each entry keeps, passes of the Registrar keep, cut off or not. -/
theorem registrar_part {P : World → Prop} {w : World}
    (hf : ∀ w', Frame w w' → P w' → ∀ x ∈ w.tpwe, ∀ n, P (w'.applyAll ((witness w' x).1.take n)))
    (hg : ∀ w1, Frame w w1 → P w1 → ∀ w', Frame w w' → P w' → ∀ x ∈ w1.tmse, ∀ n, P (w'.applyAll ((multisig w' x).1.take n)))
    (hh : ∀ w1, Frame w w1 → P w1 → ∀ w', Frame w w' → P w' → ∀ x ∈ w1.tede, ∀ n, P (w'.applyAll ((disseminate w' x).1.take n)))
    (h0 : P w) (n : Nat) : P (w.applyAll ((registrar w).1.take n)) := by
  refine andThen_part (fun n => andThen_part (fun n => pass_part _ hf h0 n) (fun w1 fr1 p1 n => ?_) n) (fun w1 fr1 p1 n => ?_) n
  · exact pass_part _ (fun w' fr' p' x hx n => hg w1 fr1 p1 w' (fr1.trans fr') p' x hx n) p1 n
  · exact pass_part _ (fun w' fr' p' x hx n => hh w1 fr1 p1 w' (fr1.trans fr') p' x hx n) p1 n

/-- What the treatment of each entry keeps, whole passes of the Registrar keep. -/
theorem registrar_whole {P : World → Prop} {w : World}
    (hf : ∀ w', Frame w w' → P w' → ∀ x ∈ w.tpwe, P (w'.applyAll (witness w' x).1))
    (hg : ∀ w1, Frame w w1 → P w1 → ∀ w', Frame w w' → P w' → ∀ x ∈ w1.tmse, P (w'.applyAll (multisig w' x).1))
    (hh : ∀ w1, Frame w w1 → P w1 → ∀ w', Frame w w' → P w' → ∀ x ∈ w1.tede, P (w'.applyAll (disseminate w' x).1))
    (h0 : P w) : P (w.applyAll (registrar w).1) := by
  refine andThen_whole (andThen_whole (pass_whole _ hf h0) (fun w1 fr1 p1 => ?_)) (fun w1 fr1 p1 => ?_)
  · exact pass_whole _ (fun w' fr' p' x hx => hg w1 fr1 p1 w' (fr1.trans fr') p' x hx) p1
  · exact pass_whole _ (fun w' fr' p' x hx => hh w1 fr1 p1 w' (fr1.trans fr') p' x hx) p1

/-- What is kept by every write of some kind is kept by lists of such writes. -/
theorem writes_keep {P : World → Prop} {L : Wr → Prop} (hw : ∀ w x, P w → L x → P (w.apply x)) (ws : List Wr) (hl : ∀ x ∈ ws, L x) {w : World} (h : P w) :
    P (w.applyAll ws) := by
  induction ws generalizing w with
  | nil => exact h
  | cons x ws ih => exact ih (fun y hy => hl y (by simp [hy])) (hw w x h (hl x (by simp)))

/-- The parts of a pass of the Registrar that raises nothing. -/
theorem registrar_parts {w : World} (he : (registrar w).2 = none) : ∃ w1 w2, w1 = w.applyAll (pass witness w w.tpwe).1 ∧ (pass witness w w.tpwe).2 = none ∧
    w2 = w1.applyAll (pass multisig w1 w1.tmse).1 ∧ (pass multisig w1 w1.tmse).2 = none ∧ (pass disseminate w2 w2.tede).2 = none ∧
    w.applyAll (registrar w).1 = w2.applyAll (pass disseminate w2 w2.tede).1 := by
  unfold registrar at he ⊢
  cases h1 : pass witness w w.tpwe with
  | mk ws e =>
    cases e with
    | some e => rw [h1] at he; simp [andThen] at he
    | none =>
      rw [h1] at he
      simp only [andThen] at he ⊢
      cases h2 : pass multisig (w.applyAll ws) (w.applyAll ws).tmse with
      | mk ws2 e2 =>
        rw [h2] at he
        cases e2 with
        | some e => simp at he
        | none =>
          dsimp only at he ⊢
          rw [applyAll_append] at he ⊢
          refine ⟨_, _, rfl, trivial, rfl, by rw [h2], ?_, ?_⟩
          · rw [h2]
            cases h3 : pass disseminate ((w.applyAll ws).applyAll ws2) ((w.applyAll ws).applyAll ws2).tede with
            | mk ws3 e3 => rw [h3] at he; exact he
          · rw [h2]
            cases h3 : pass disseminate ((w.applyAll ws).applyAll ws2) ((w.applyAll ws).applyAll ws2).tede with
            | mk ws3 e3 => dsimp only; rw [applyAll_append, h3]

end Verif.Iss
