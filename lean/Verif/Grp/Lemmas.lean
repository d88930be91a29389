import Verif.Grp.Spec

/-!
# Lemmas on passes and writes
-/

namespace Verif.Grp

open Verif.Kel (Id Dig Event Kever Seal Ilk upd upd2)

theorem Hist.trans {env : Env} {G} {w0 w1 w2 : World} (h : Hist env G w0 w1) (h' : Hist env G w1 w2) : Hist env G w0 w2 := by
  induction h' with
  | nil => exact h
  | step i _ g ih => exact .step i ih g

theorem Hist.mono {env : Env} {G G' : World → Inp → Prop} (hg : ∀ w i, G w i → G' w i) {w0 w : World} (h : Hist env G w0 w) : Hist env G' w0 w := by
  induction h with
  | nil => exact .nil
  | step i _ g ih => exact .step i ih (hg _ _ g)

theorem Was.later {env : Env} {G} {w0 w w' : World} {Q : World → Prop} (h : Was env G w0 w Q) (h' : Hist env G w w') : Was env G w0 w' Q := by
  obtain ⟨w1, h1, h2, hq⟩ := h
  exact ⟨w1, h1, h2.trans h', hq⟩

theorem Was.next {env : Env} {G} {w0 w : World} {Q : World → Prop} (h : Was env G w0 w Q) {i : Inp} (g : G w i) : Was env G w0 (w.step env i) Q :=
  h.later (.step i .nil g)

theorem Was.mono {env : Env} {G} {w0 w : World} {Q Q' : World → Prop} (h : Was env G w0 w Q) (hq : ∀ w, Q w → Q' w) : Was env G w0 w Q' := by
  obtain ⟨w1, h1, h2, h3⟩ := h
  exact ⟨w1, h1, h2, hq _ h3⟩

theorem applyAll_append (w : World) (a b : List Wr) : w.applyAll (a ++ b) = (w.applyAll a).applyAll b := List.foldl_append

/-! ## Stores -/

theorem mem_entIns {x y : Entry} {l : List Entry} : y ∈ entIns x l ↔ y = x ∨ y ∈ l := by
  induction l with
  | nil => simp [entIns]
  | cons z l ih =>
    rw [entIns]
    split
    · simp
    · rw [List.mem_cons, ih, List.mem_cons]; grind

theorem mem_entAdd {x y : Entry} {l : List Entry} : y ∈ entAdd l x ↔ y = x ∨ y ∈ l := by
  rw [entAdd]
  split
  · grind
  · exact mem_entIns

theorem mem_evIns {e y : Event} {l : List Event} : y ∈ evIns e l ↔ y = e ∨ y ∈ l := by
  induction l with
  | nil => simp [evIns]
  | cons z l ih =>
    rw [evIns]
    split
    · simp
    · rw [List.mem_cons, ih, List.mem_cons]; grind

theorem mem_evRem {l : List Event} {k : Id × Dig} {y : Event} : y ∈ evRem l k ↔ y ∈ l ∧ key y ≠ k := by simp [evRem]

theorem mem_evPin {l : List Event} {e y : Event} : y ∈ evPin l e ↔ y = e ∨ (y ∈ l ∧ key y ≠ key e) := by
  rw [evPin, mem_evIns, mem_evRem]

theorem mem_evPut {l : List Event} {e y : Event} (h : y ∈ evPut l e) : y = e ∨ y ∈ l := by
  rw [evPut] at h
  split at h
  · exact .inr h
  · exact mem_evIns.1 h

theorem evPut_keeps {l : List Event} {e y : Event} (h : y ∈ l) : y ∈ evPut l e := by
  rw [evPut]
  split
  · exact h
  · exact mem_evIns.2 (.inr h)

theorem evPut_has {l : List Event} {e : Event} (h : ∀ y ∈ l, key y = key e → y = e) : e ∈ evPut l e := by
  rw [evPut]
  split
  · rename_i hk
    obtain ⟨y, hy, he⟩ := List.mem_map.1 hk
    exact h y hy he ▸ hy
  · exact mem_evIns.2 (.inl rfl)

/-! ## Passes -/

/-- Parts that passes leave alone, or of which they change only the authorizing seals. -/
structure Frame (w w' : World) : Prop where
  node : ∃ aess, w'.node = { w.node with db := { w.node.db with aess := aess } }
  habs : w'.habs = w.habs
  proxy : w'.proxy = w.proxy
  ccues : w'.ccues = w.ccues
  acues : w'.acues = w.acues

theorem Frame.refl (w : World) : Frame w w := ⟨⟨_, rfl⟩, rfl, rfl, rfl, rfl⟩

theorem Frame.trans {a b c : World} (h : Frame a b) (h' : Frame b c) : Frame a c := by
  obtain ⟨⟨x, hx⟩, h1, h2, h3, h4⟩ := h
  obtain ⟨⟨y, hy⟩, g1, g2, g3, g4⟩ := h'
  exact ⟨⟨y, by rw [hy, hx]⟩, g1.trans h1, g2.trans h2, g3.trans h3, g4.trans h4⟩

theorem frame_apply (w : World) (x : Wr) : Frame w (w.apply x) := by
  cases x with
  | aessPin p d c => exact ⟨⟨_, rfl⟩, rfl, rfl, rfl, rfl⟩
  | cgmsPut x => simp only [World.apply]; split <;> exact ⟨⟨_, rfl⟩, rfl, rfl, rfl, rfl⟩
  | cdelPut p sn d => simp only [World.apply]; split <;> exact ⟨⟨_, rfl⟩, rfl, rfl, rfl, rfl⟩
  | pubFeed p n => simp only [World.apply]; split <;> exact ⟨⟨_, rfl⟩, rfl, rfl, rfl, rfl⟩
  | _ => exact ⟨⟨_, rfl⟩, rfl, rfl, rfl, rfl⟩

theorem frame_applyAll (w : World) (ws : List Wr) : Frame w (w.applyAll ws) := by
  induction ws generalizing w with
  | nil => exact .refl w
  | cons x ws ih => exact (frame_apply w x).trans (ih _)

theorem Frame.last {w w' : World} (h : Frame w w') (p : Id) (sn : Nat) : lastAt w'.node p sn = lastAt w.node p sn := by
  obtain ⟨x, hx⟩ := h.node
  rw [hx]; rfl

theorem Frame.kevers {w w' : World} (h : Frame w w') : w'.node.kevers = w.node.kevers := by
  obtain ⟨x, hx⟩ := h.node
  rw [hx]

theorem Frame.wigs {w w' : World} (h : Frame w w') : w'.node.db.wigs = w.node.db.wigs := by
  obtain ⟨x, hx⟩ := h.node
  rw [hx]

theorem Frame.sigs {w w' : World} (h : Frame w w') : w'.node.db.sigs = w.node.db.sigs := by
  obtain ⟨x, hx⟩ := h.node
  rw [hx]

theorem Frame.evts {w w' : World} (h : Frame w w') : w'.node.db.evts = w.node.db.evts := by
  obtain ⟨x, hx⟩ := h.node
  rw [hx]

theorem lastEvents_aess (db : Kel.Db) (x) (p : Id) (fuel sn : Nat) :
    Kel.lastEvents { db with aess := x } p fuel sn = Kel.lastEvents db p fuel sn := by
  induction fuel generalizing sn with
  | zero => rfl
  | succ f ih =>
    simp only [Kel.lastEvents]
    split
    · rfl
    · split
      · exact ih _
      · rw [ih]

theorem Frame.findSeal {w w' : World} (h : Frame w w') (p : Id) (s : Seal) : w'.node.findSeal p s = w.node.findSeal p s := by
  obtain ⟨x, hx⟩ := h.node
  rw [hx]
  simp only [Kel.Node.findSeal]
  rw [lastEvents_aess]
  rfl

theorem Frame.memberKey {w w' : World} (h : Frame w w') (p : Id) : memberKey w' p = memberKey w p := by
  rw [Grp.memberKey, Grp.memberKey, h.habs, h.kevers]

theorem Frame.elected {w w' : World} (h : Frame w w') (p : Id) (k : Kever) : elected w' p k = elected w p k := by
  rw [Grp.elected, Grp.elected, h.memberKey]

/-- What is true at first and kept by every part of the treatment of every entry is true after any part of a pass. -/
theorem pass_part {α} {f : World → α → List Wr × Option Err} {P : World → Prop} {w : World} (xs : List α)
    (hstep : ∀ w', Frame w w' → P w' → ∀ x ∈ xs, ∀ n, P (w'.applyAll ((f w' x).1.take n))) (h : P w) (n : Nat) :
    P (w.applyAll ((pass f w xs).1.take n)) := by
  suffices hs : ∀ ys w', (∀ y ∈ ys, y ∈ xs) → Frame w w' → P w' → ∀ n, P (w'.applyAll ((pass f w' ys).1.take n)) from hs xs w (fun _ h => h) (.refl w) h n
  intro ys
  induction ys with
  | nil => intro w' _ _ hw n; simpa [pass, World.applyAll] using hw
  | cons y ys ih =>
    intro w' hys fr hw n
    have hy := hstep w' fr hw y (hys y (by simp))
    rw [pass]
    split
    · rename_i ws e he; rw [he] at hy; exact hy n
    · rename_i ws he
      rw [he] at hy
      cases hr : pass f (w'.applyAll ws) ys with
      | mk r e' =>
        dsimp only
        rw [List.take_append, applyAll_append]
        by_cases hn : n ≤ ws.length
        · rw [show n - ws.length = 0 by omega]; exact hy n
        · rw [List.take_of_length_le (by omega)]
          have := ih (w'.applyAll ws) (fun y hy => hys y (by simp [hy])) (fr.trans (frame_applyAll _ _))
            (by have := hy ws.length; simpa using this) (n - ws.length)
          rw [hr] at this; exact this

theorem andThen_part {P : World → Prop} {w : World} {r : List Wr × Option Err} {f : World → List Wr × Option Err}
    (h1 : ∀ n, P (w.applyAll (r.1.take n))) (h2 : ∀ w', Frame w w' → P w' → ∀ n, P (w'.applyAll ((f w').1.take n))) (n : Nat) :
    P (w.applyAll ((andThen r w f).1.take n)) := by
  obtain ⟨ws, e⟩ := r
  cases e with
  | some e => exact h1 n
  | none =>
    simp only [andThen]
    have hf := h2 (w.applyAll ws) (frame_applyAll _ _) (by have := h1 ws.length; simpa using this)
    rw [List.take_append, applyAll_append]
    by_cases hn : n ≤ ws.length
    · rw [show n - ws.length = 0 by omega]; exact h1 n
    · rw [List.take_of_length_le (by omega)]; exact hf _

/-- The same of a pass in three parts, each over a store as it is when its turn comes. -/
theorem three_part {P : World → Prop} {α β γ : Type} {w : World} {f : World → α → List Wr × Option Err} {g : World → β → List Wr × Option Err}
    {h : World → γ → List Wr × Option Err} {a : World → List α} {b : World → List β} {c : World → List γ}
    (hf : ∀ w', Frame w w' → P w' → ∀ x ∈ a w, ∀ n, P (w'.applyAll ((f w' x).1.take n)))
    (hg : ∀ w1, Frame w w1 → P w1 → ∀ w', Frame w w' → P w' → ∀ x ∈ b w1, ∀ n, P (w'.applyAll ((g w' x).1.take n)))
    (hh : ∀ w1, Frame w w1 → P w1 → ∀ w', Frame w w' → P w' → ∀ x ∈ c w1, ∀ n, P (w'.applyAll ((h w' x).1.take n)))
    (h0 : P w) (n : Nat) :
    P (w.applyAll ((andThen (andThen (pass f w (a w)) w fun w1 => pass g w1 (b w1)) w fun w2 => pass h w2 (c w2)).1.take n)) := by
  refine andThen_part (fun n => andThen_part (fun n => pass_part _ hf h0 n) (fun w1 fr1 p1 n => ?_) n) (fun w1 fr1 p1 n => ?_) n
  · exact pass_part _ (fun w' fr' p' x hx n => hg w1 fr1 p1 w' (fr1.trans fr') p' x hx n) p1 n
  · exact pass_part _ (fun w' fr' p' x hx n => hh w1 fr1 p1 w' (fr1.trans fr') p' x hx n) p1 n

/-- What is kept by every write of some kind is kept by lists of such writes. -/
theorem writes_keep {P : World → Prop} {L : Wr → Prop} (hw : ∀ w x, P w → L x → P (w.apply x)) (ws : List Wr) (hl : ∀ x ∈ ws, L x) {w : World} (h : P w) :
    P (w.applyAll ws) := by
  induction ws generalizing w with
  | nil => exact h
  | cons x ws ih => exact ih (fun y hy => hl y (by simp [hy])) (hw w x h (hl x (by simp)))

/-! ## What a search finds -/

theorem lastEvents_says {db : Kel.Db} {p : Id} {fuel sn : Nat} {e : Event} (h : e ∈ Kel.lastEvents db p fuel sn) :
    ∃ sn' d, (db.kels p sn').getLast? = some d ∧ db.evts p d = some e := by
  induction fuel generalizing sn with
  | zero => simp [Kel.lastEvents] at h
  | succ f ih =>
    simp only [Kel.lastEvents] at h
    split at h
    · simp at h
    · rename_i d hd
      split at h
      · exact ih h
      · rename_i e' he
        rcases List.mem_cons.1 h with rfl | h
        · exact ⟨sn, d, hd, he⟩
        · exact ih h

theorem findSeal_says {n : Kel.Node} {dp : Id} {s : Seal} {e : Event} (h : n.findSeal dp s = some e) : Sealed n dp s := by
  have hm := List.mem_of_find?_eq_some h
  have hp := List.find?_some h
  simp only [Bool.and_eq_true, decide_eq_true_eq] at hp
  obtain ⟨sn, d, h1, h2⟩ := lastEvents_says hm
  exact ⟨sn, d, e, h1, h2, hp.1, hp.2⟩

end Verif.Grp
