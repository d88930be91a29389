import Verif.Oobi.Model

/-! # Lemmas about introductions -/

namespace Verif.Oobi

open Verif.Krm

theorem mem_pin {κ ν : Type} [DecidableEq κ] {t : Tab κ ν} {k : κ} {v : ν} {e : κ × ν} (h : e ∈ Tab.pin t k v) : e = (k, v) ∨ e ∈ t := by
  induction t with
  | nil => simp [Tab.pin] at h; exact Or.inl h
  | cons a t ih =>
    unfold Tab.pin at h
    split at h
    · rcases List.mem_cons.1 h with h | h
      · exact Or.inl h
      · exact Or.inr (by simp [h])
    · rcases List.mem_cons.1 h with h | h
      · exact Or.inr (by simp [h])
      · rcases ih h with h | h
        · exact Or.inl h
        · exact Or.inr (by simp [h])

theorem mem_put {κ ν : Type} [DecidableEq κ] {t : Tab κ ν} {k : κ} {v : ν} {e : κ × ν} (h : e ∈ Tab.put t k v) : e = (k, v) ∨ e ∈ t := by
  unfold Tab.put at h
  split at h
  · exact Or.inr h
  · exact mem_pin h

theorem mem_rem {κ ν : Type} [DecidableEq κ] {t : Tab κ ν} {k : κ} {e : κ × ν} (h : e ∈ Tab.rem t k) : e ∈ t := (List.mem_filter.1 h).1

theorem put_isSome {κ ν : Type} [DecidableEq κ] (t : Tab κ ν) (k : κ) (v : ν) : (Tab.get (Tab.put t k v) k).isSome = true := by
  rw [get_put]
  cases h : Tab.get t k <;> simp

theorem put_mono {κ ν : Type} [DecidableEq κ] (t : Tab κ ν) (k : κ) (v : ν) {k' : κ} {v' : ν} (h : Tab.get t k' = some v') :
    Tab.get (Tab.put t k v) k' = some v' := by
  rw [get_put, if_neg, h]
  rintro ⟨rfl, h0⟩
  rw [h] at h0; cases h0

theorem put_mono' {κ ν : Type} [DecidableEq κ] (t : Tab κ ν) (k : κ) (v : ν) {k' : κ} (h : (Tab.get t k').isSome = true) :
    (Tab.get (Tab.put t k v) k').isSome = true := by
  obtain ⟨v', h⟩ := Option.isSome_iff_exists.1 h
  rw [put_mono t k v h]; rfl

theorem pin_isSome {κ ν : Type} [DecidableEq κ] (t : Tab κ ν) (k : κ) (v : ν) {k' : κ} (h : k = k' ∨ (Tab.get t k').isSome = true) :
    (Tab.get (Tab.pin t k v) k').isSome = true := by
  rw [get_pin]
  split
  · rfl
  · rcases h with h | h
    · contradiction
    · exact h

theorem rem_isSome {κ ν : Type} [DecidableEq κ] (t : Tab κ ν) (k : κ) {k' : κ} (h : k ≠ k') (h' : (Tab.get t k').isSome = true) :
    (Tab.get (Tab.rem t k) k').isSome = true := by
  rw [get_rem, if_neg h]; exact h'

/-- The URL is in some table: it waits, is requested, is to be asked again, has its parts asked for, or has a result. -/
def Held (w : World) (u : Url) : Prop :=
  (Tab.get w.oobis u).isSome = true ∨ (Tab.get w.coobi u).isSome = true ∨ (Tab.get w.eoobi u).isSome = true ∨
    (Tab.get w.moobi u).isSome = true ∨ (Tab.get w.roobi u).isSome = true

/-- What every part of a pass keeps. -/
structure Tr (conn : Url → Bool) (w w' : World) : Prop where
  held : ∀ u, conn u = true → Held w u → Held w' u
  roobi : ∀ u r, Tab.get w.roobi u = some r → Tab.get w'.roobi u = some r
  moobi : ∀ u, (Tab.get w.moobi u).isSome = true → (Tab.get w'.moobi u).isSome = true

theorem Tr.refl (conn : Url → Bool) (w : World) : Tr conn w w := ⟨fun _ _ h => h, fun _ _ h => h, fun _ h => h⟩

theorem Tr.trans {conn : Url → Bool} {a b c : World} (h : Tr conn a b) (h' : Tr conn b c) : Tr conn a c :=
  ⟨fun u hu x => h'.held u hu (h.held u hu x), fun u r x => h'.roobi u r (h.roobi u r x), fun u x => h'.moobi u (h.moobi u x)⟩

/-- If the tables are the same but for one URL, which is held, and results stay. -/
theorem Tr.of {conn : Url → Bool} {w w' : World} (url : Url)
    (h : ∀ u, u ≠ url → Held w u → Held w' u) (hu : conn url = true → Held w' url)
    (hr : ∀ u r, Tab.get w.roobi u = some r → Tab.get w'.roobi u = some r)
    (hm : ∀ u, (Tab.get w.moobi u).isSome = true → (Tab.get w'.moobi u).isSome = true) : Tr conn w w' :=
  ⟨fun u hc hh => if h0 : u = url then h0 ▸ hu (h0 ▸ hc) else h u h0 hh, hr, hm⟩

theorem tr_request {conn : Url → Bool} (w : World) (url : Url) (r : Rec) : Tr conn w (request conn w url r) := by
  unfold request
  split
  · refine Tr.of url ?_ (fun _ => Or.inr (Or.inl ?_)) (fun _ _ h => h) (fun _ h => h)
    · rintro u hu (h | h | h)
      · exact Or.inl (rem_isSome _ _ (Ne.symm hu) h)
      · exact Or.inr (Or.inl (pin_isSome _ _ _ (Or.inr h)))
      · exact Or.inr (Or.inr h)
    · exact pin_isSome _ _ _ (Or.inl rfl)
  · rename_i hc
    refine Tr.of url ?_ (fun h => absurd h hc) (fun _ _ h => h) (fun _ h => h)
    rintro u hu (h | h)
    · exact Or.inl (rem_isSome _ _ (Ne.symm hu) h)
    · exact Or.inr h

theorem tr_finish {conn : Url → Bool} (w : World) (url : Url) (r : Rec) (s : Result) : Tr conn w (finish w url r s) := by
  unfold finish
  refine Tr.of url ?_ (fun _ => Or.inr (Or.inr (Or.inr (Or.inr (put_isSome _ _ _))))) (fun u r h => put_mono _ _ _ h) (fun _ h => h)
  rintro u hu (h | h | h | h | h)
  · exact Or.inl h
  · exact Or.inr (Or.inl (rem_isSome _ _ (Ne.symm hu) h))
  · exact Or.inr (Or.inr (Or.inl h))
  · exact Or.inr (Or.inr (Or.inr (Or.inl h)))
  · exact Or.inr (Or.inr (Or.inr (Or.inr (put_mono' _ _ _ h))))

/-- Worlds with the same tables of URLs. -/
theorem Tr.same {conn : Url → Bool} {w w' : World} (h1 : w'.oobis = w.oobis) (h2 : w'.coobi = w.coobi) (h3 : w'.eoobi = w.eoobi)
    (h4 : w'.moobi = w.moobi) (h5 : w'.roobi = w.roobi) : Tr conn w w' :=
  ⟨fun u _ h => by unfold Held at h ⊢; rw [h1, h2, h3, h4, h5]; exact h, fun u r h => by rw [h5]; exact h, fun u h => by rw [h4]; exact h⟩

theorem tr_cue {conn : Url → Bool} {w w' : World} (url : Url) (s : Option Result) (h : Tr conn w w') : Tr conn w (cue w' url s) :=
  h.trans (Tr.same rfl rfl rfl rfl rfl)

theorem tr_schemaIs {conn : Url → Bool} (E : Env) (w : World) (url : Url) (r : Rec) (b : Body) (s : Said) : Tr conn w (schemaIs E w url r b s).1 := by
  unfold schemaIs
  split
  · exact Tr.trans (Tr.same (w' := { w with schema := Tab.pin w.schema s b }) rfl rfl rfl rfl rfl) (tr_finish _ _ _ _)
  · exact tr_finish _ _ _ _

theorem foldl_put_mono (f : Url → Rec) : ∀ (us : List Url) (t : Tab Url Rec) (u : Url), (Tab.get t u).isSome = true →
    (Tab.get (us.foldl (fun t u => Tab.put t u (f u)) t) u).isSome = true
  | [], _, _, h => h
  | v :: us, t, u, h => by rw [List.foldl_cons]; exact foldl_put_mono f us _ u (put_mono' _ _ _ h)

theorem tr_multi {conn : Url → Bool} (now : Nat) (w : World) (url : Url) (r : Rec) (aid : Id) (urls : List Url) :
    Tr conn w (multi now w url r aid urls) := by
  unfold multi
  split
  · refine tr_cue _ _ (Tr.of url ?_ (fun _ => Or.inr (Or.inr (Or.inr (Or.inl (put_isSome _ _ _))))) (fun _ _ h => h) (fun u h => put_mono' _ _ _ h))
    rintro u hu (h | h | h | h | h)
    · exact Or.inl (foldl_put_mono (fun _ => { date := some now, alias? := r.alias?, cid := r.cid }) urls _ u h)
    · exact Or.inr (Or.inl (rem_isSome _ _ (Ne.symm hu) h))
    · exact Or.inr (Or.inr (Or.inl h))
    · exact Or.inr (Or.inr (Or.inr (Or.inl (put_mono' _ _ _ h))))
    · exact Or.inr (Or.inr (Or.inr (Or.inr h)))
  · exact tr_cue _ _ (Tr.refl _ _)

theorem tr_settle {conn : Url → Bool} (E : Env) (now : Nat) (w : World) (url : Url) (r : Rec) (x : Resp) : Tr conn w (settle E now w url r x).1 := by
  unfold settle
  split
  · refine Tr.of url ?_ (fun _ => Or.inr (Or.inr (Or.inl (pin_isSome _ _ _ (Or.inl rfl))))) (fun _ _ h => h) (fun _ h => h)
    rintro u hu (h | h | h | h)
    · exact Or.inl h
    · exact Or.inr (Or.inl (rem_isSome _ _ (Ne.symm hu) h))
    · exact Or.inr (Or.inr (Or.inl (pin_isSome _ _ _ (Or.inr h))))
    · exact Or.inr (Or.inr (Or.inr h))
  · split
    · exact tr_cue _ _ (tr_finish _ _ _ _)
    · cases x.ctype with
      | missing => exact Tr.refl _ _
      | cesr =>
        dsimp only
        refine tr_cue _ _ (Tr.trans ?_ (tr_finish _ _ _ _))
        split
        · exact Tr.same rfl rfl rfl rfl rfl
        · exact Tr.same rfl rfl rfl rfl rfl
      | schema =>
        dsimp only
        cases E.schemer x.body with
        | some s => exact tr_cue _ _ (tr_schemaIs _ _ _ _ _ _)
        | none => exact tr_cue _ _ (tr_finish _ _ _ _)
      | json =>
        dsimp only
        cases E.schemer x.body with
        | some s => exact tr_schemaIs _ _ _ _ _ _
        | none =>
          dsimp only
          cases E.reply x.body with
          | bad => exact tr_finish _ _ _ _
          | notRpy => exact tr_cue _ _ (tr_finish _ _ _ _)
          | multi aid urls => exact tr_multi _ _ _ _ _ _
          | other => exact tr_cue _ _ (tr_finish _ _ _ _)
      | other => exact tr_cue _ _ (tr_finish _ _ _ _)

theorem tr_oobiOne {conn : Url → Bool} (E : Env) (w : World) (url : Url) (r : Rec) : Tr conn w (oobiOne' E conn w url r).1 := by
  unfold oobiOne' oobiOne
  by_cases hs : E.splits url = true
  · rw [if_pos hs]; exact Tr.refl _ _
  · rw [if_neg hs]
    split
    · rename_i w' h
      split at h
      · rename_i hr
        injection h with h
        subst h
        refine Tr.of url ?_ (fun _ => ?_) (fun _ _ h => h) (fun _ h => h)
        · rintro u hu (h | h)
          · exact Or.inl (rem_isSome _ _ (Ne.symm hu) h)
          · exact Or.inr h
        · refine Or.inr (Or.inr (Or.inr (Or.inr ?_)))
          simp only [Bool.and_eq_true] at hr
          cases hg : Tab.get w.roobi url with
          | none => rw [hg] at hr; simp at hr
          | some f => simp [hg]
      · cases hk : E.kind url with
        | bad => rw [hk] at h; injection h with h; subst h; exact Tr.refl _ _
        | none => rw [hk] at h; injection h with h; subst h; exact Tr.refl _ _
        | self => rw [hk] at h; injection h with h; subst h; exact tr_request _ _ _
        | full c ro ei => rw [hk] at h; injection h with h; subst h; exact tr_request _ _ _
        | data s => rw [hk] at h; injection h with h; subst h; exact tr_request _ _ _
        | known c => rw [hk] at h; injection h with h; subst h; exact tr_request _ _ _
    · exact Tr.refl _ _

theorem tr_clientOne {conn : Url → Bool} (E : Env) (now : Nat) (w : World) (url : Url) (r : Rec) : Tr conn w (clientOne E conn now w url r).1 := by
  unfold clientOne
  split
  · exact Tr.refl _ _
  · split
    · exact tr_request _ _ _
    · exact Tr.refl _ _
    · rename_i x xs _
      exact Tr.trans (Tr.same (w' := { w with clients := Tab.pin w.clients url xs }) rfl rfl rfl rfl rfl) (tr_settle _ _ _ _ _ _)

theorem tr_retryOne {conn : Url → Bool} (E : Env) (now : Nat) (w : World) (url : Url) (r : Rec) : Tr conn w (retryOne E now w url r).1 := by
  unfold retryOne
  split
  · exact Tr.refl _ _
  · split
    · exact Tr.refl _ _
    · split
      · refine Tr.of url ?_ (fun _ => Or.inl (pin_isSome _ _ _ (Or.inl rfl))) (fun _ _ h => h) (fun _ h => h)
        rintro u hu (h | h | h | h)
        · exact Or.inl (pin_isSome _ _ _ (Or.inr h))
        · exact Or.inr (Or.inl h)
        · exact Or.inr (Or.inr (Or.inl (rem_isSome _ _ (Ne.symm hu) h)))
        · exact Or.inr (Or.inr (Or.inr h))
      · exact Tr.refl _ _

theorem tr_moobiOne {conn : Url → Bool} (E : Env) (w : World) (url : Url) (r : Rec) : Tr conn w (moobiOne E w url r).1 := by
  unfold moobiOne
  split
  · exact Tr.refl _ _
  · split
    · exact Tr.refl _ _
    · exact tr_finish _ _ _ _

theorem tr_loop {conn : Url → Bool} {f : World → Url → Rec → World × Option Err} (hf : ∀ w u r, Tr conn w (f w u r).1) :
    ∀ (es : List (Url × Rec)) (w : World), Tr conn w (loop f es w).1
  | [], w => Tr.refl _ _
  | (u, r) :: es, w => by
    unfold loop
    have h := hf w u r
    revert h
    generalize f w u r = x
    obtain ⟨w', e⟩ := x
    intro h
    cases e with
    | some e => exact h
    | none => exact h.trans (tr_loop hf es w')

theorem tr_flows {conn : Url → Bool} (E : Env) (now : Nat) (w : World) : Tr conn w (flows E conn now w).1 := by
  unfold flows
  have h1 := tr_loop (conn := conn) (f := oobiOne' E conn) (tr_oobiOne E) w.oobis w
  revert h1
  generalize loop (oobiOne' E conn) w.oobis w = x
  obtain ⟨w1, e⟩ := x
  intro h1
  cases e with
  | some e => exact h1
  | none =>
    dsimp only
    have h2 := h1.trans (tr_loop (conn := conn) (f := clientOne E conn now) (tr_clientOne E now) w1.coobi w1)
    revert h2
    generalize loop (clientOne E conn now) w1.coobi w1 = x
    obtain ⟨w2, e⟩ := x
    intro h2
    cases e with
    | some e => exact h2
    | none =>
      dsimp only
      have h3 := h2.trans (tr_loop (conn := conn) (f := retryOne E now) (tr_retryOne E now) w2.eoobi w2)
      revert h3
      generalize loop (retryOne E now) w2.eoobi w2 = x
      obtain ⟨w3, e⟩ := x
      intro h3
      cases e with
      | some e => exact h3
      | none => exact h3.trans (tr_loop (conn := conn) (f := moobiOne E) (tr_moobiOne E) w3.moobi w3)

theorem roobi_step (E : Env) (w : World) (s : Step) {u : Url} {r : Rec} (h : Tab.get w.roobi u = some r) : Tab.get (step E w s).roobi u = some r := by
  cases s with
  | ask => exact h
  | pin => exact h
  | introduce a c v d =>
    simp only [step, introduce]
    split
    · exact h
    · split <;> exact h
  | answer v x => simp only [step]; split <;> exact h
  | pass conn now => exact (tr_flows (conn := conn) E now w).roobi u r h
  | restart => exact h

theorem held_step (E : Env) (w : World) (s : Step) {u : Url} (hs : ∀ conn now, s = .pass conn now → conn u = true) (h : Held w u) : Held (step E w s) u := by
  have hput : ∀ v r, Held { w with oobis := Tab.put w.oobis v r } u := by
    intro v r
    rcases h with h | h
    · exact Or.inl (put_mono' _ _ _ h)
    · exact Or.inr h
  cases s with
  | ask v r => exact hput v r
  | pin v r =>
    rcases h with h | h
    · exact Or.inl (pin_isSome _ _ _ (Or.inr h))
    · exact Or.inr h
  | introduce a c v d =>
    simp only [step, introduce]
    split
    · exact h
    · split
      · exact h
      · exact hput v _
  | answer v x => simp only [step]; split <;> exact h
  | pass conn now => exact (tr_flows (conn := conn) E now w).held u (hs conn now rfl) h
  | restart => exact h

end Verif.Oobi
