import Verif.Grp.CounselInv

/-!
# Properties of group events: what is reported complete
-/

namespace Verif.Grp

open Verif.Kel (Id Dig Event Kever Seal Ilk)

/-- What the Counselor reports is marked by the history. -/
theorem counsel_hist {env : Env} {G : World → Inp → Prop} {Q : World → Entry → Prop} (hG : ∀ w i, G w i → (i = .counsel ∨ ∃ n, i = .crashCounsel n) →
      ∀ x ∈ w.gpse, (lastAt w.node x.1 x.2.1.num).isSome → Q w x)
    {node : Kel.Node} {habs : Id → Option (Option Id)} {proxy : Bool} {w : World} (h : Hist env G (World.start node habs proxy) w) :
    CInv ⟨fun x => ∃ w1, Hist env G (World.start node habs proxy) w1 ∧ startOk w1 x.1 x.2.1 = true ∧ Hist env G (w1.step env (.start x.1 x.2.1 x.2.2)) w,
      fun x => Was env G (World.start node habs proxy) w (Q · x),
      fun x => Was env G (World.start node habs proxy) w fun w1 => Receipted w1.node x.1 x.2.2 ∨ ByDelegate w1 x⟩ w := by
  induction h with
  | nil =>
    refine ⟨?_, ?_, ?_, ?_⟩
    · intro x hx; simp [World.start] at hx
    · intro x hx; simp [World.start] at hx
    · intro x hx; simp [World.start] at hx
    · intro p n d hx; simp [World.start] at hx
  | @step w i h g ih =>
    have now : Hist env G w (w.step env i) := .step i .nil g
    refine CInv.step (ih.mono ?_ ?_ ?_) i ?_ ?_ ?_ ?_
    · rintro x ⟨w1, a, b, c⟩; exact ⟨w1, a, b, .step i c g⟩
    · rintro x hx; exact hx.next g
    · rintro x hx; exact hx.next g
    · rintro p num d rfl hs; exact ⟨w, h, hs, .nil⟩
    · intro hi x hx hs; exact ⟨w, h, now, hG w i g hi x hx hs⟩
    · intro x hx; exact ⟨w, h, now, .inr hx⟩
    · intro x hx; exact ⟨w, h, now, .inl hx⟩

/-- C137. A group event that is reported complete was started, and something was logged at its number. Then it had as many receipts as its group has witnesses, or the
own member has the first key and the delegation of the last event of the group was complete. -/
theorem c137_reported {env : Env} {node : Kel.Node} {habs : Id → Option (Option Id)} {proxy : Bool} {w : World} (h : Hist env Any (World.start node habs proxy) w)
    {p : Id} {num : Num} {d : Dig} (hc : w.cgms p num = some d) :
    (∃ w1, Hist env Any (World.start node habs proxy) w1 ∧ startOk w1 p num = true ∧ Hist env Any (w1.step env (.start p num d)) w) ∧
    Was env Any (World.start node habs proxy) w (fun w1 => (lastAt w1.node p num.num).isSome = true) ∧
    Was env Any (World.start node habs proxy) w (fun w1 => Receipted w1.node p d ∨
      ∃ k, w1.node.kevers p = some k ∧ elected w1 p k = .ok true ∧ (w1.cdel p k.sn).isSome = true) :=
  (counsel_hist (G := Any) (Q := fun w x => (lastAt w.node x.1 x.2.1.num).isSome = true) (fun _ _ _ _ _ _ h => h) h).cgms p num d hc

/-- C137, full statement: a group event that is reported complete has been logged. Proved if what is logged at the number of a started event is that event; the code does not
compare them, see `c137_other`. -/
theorem c137_logged_partial {env : Env} {node : Kel.Node} {habs : Id → Option (Option Id)} {proxy : Bool} {w : World}
    (h : Hist env Genuine (World.start node habs proxy) w) {p : Id} {num : Num} {d : Dig} (hc : w.cgms p num = some d) :
    Was env Genuine (World.start node habs proxy) w fun w1 => lastAt w1.node p num.num = some d := by
  refine ((counsel_hist (G := Genuine) (Q := fun w x => lastAt w.node x.1 x.2.1.num = some x.2.2) ?_ h).cgms p num d hc).2.1
  intro w i g hi x hx hs
  cases hl : lastAt w.node x.1 x.2.1.num with
  | none => rw [hl] at hs; simp at hs
  | some sd => rw [g hi x hx sd hl]

/-- C137: what has been reported once is reported ever after, with the same digest. -/
theorem c137_stable {env : Env} {G} {w w' : World} (h : Hist env G w w') {p : Id} {num : Num} {d : Dig} (hc : w.cgms p num = some d) : w'.cgms p num = some d := by
  have one : ∀ (w : World) (x : Wr), w.cgms p num = some d → (w.apply x).cgms p num = some d := by
    intro w x hw
    cases x with
    | cgmsPut y =>
      simp only [World.apply]
      split
      · rename_i hn
        simp only [Kel.upd2]
        split
        · rename_i he; obtain ⟨h1, h2⟩ := he; rw [← h1, ← h2, hw] at hn; simp at hn
        · exact hw
      · exact hw
    | cdelPut q sn d => simp only [World.apply]; split <;> exact hw
    | pubFeed q n => simp only [World.apply]; split <;> exact hw
    | _ => exact hw
  have all : ∀ (w : World) (ws : List Wr), w.cgms p num = some d → (w.applyAll ws).cgms p num = some d :=
    fun w ws hw => writes_keep (P := fun w => w.cgms p num = some d) (L := fun _ => True) (fun w x h _ => one w x h) ws (by simp) hw
  induction h with
  | nil => exact hc
  | step i _ _ ih =>
    cases i with
    | start q n e => simp only [World.step]; split <;> exact ih
    | delegation q sn => exact all _ _ ih
    | counsel => exact all _ _ ih
    | anchor => exact all _ _ ih
    | pubStart q => simp only [World.step]; split <;> exact ih
    | pubDone q => simp only [World.step]; split <;> exact ih
    | crashCounsel n => exact all _ _ ih
    | crashAnchor n => exact all _ _ ih
    | _ => exact ih

/-- C137: `complete` says so. -/
theorem c137_complete {stored : Option Dig} {d : Dig} : completed stored (some d) = .ok true ↔ stored = some d := by
  unfold completed
  cases stored with
  | none => simp
  | some c => simp

end Verif.Grp
