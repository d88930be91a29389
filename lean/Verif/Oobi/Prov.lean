import Verif.Oobi.Props

/-! # Where schemas, aliases and results come from -/

namespace Verif.Oobi

open Verif.Krm

/-- The SAID is that in the path of the URL, or was given when the URL was asked for. -/
def SaidOf (E : Env) (A : Url → Rec → Prop) (u : Url) (s : Said) : Prop := E.kind u = .data s ∨ ∃ r, A u r ∧ r.said = some s

/-- The alias was given with some URL that was asked for, or is hinted by one that is requested. -/
def AliasOf (E : Env) (A : Url → Rec → Prop) (a : Alias) : Prop := ∃ u, E.name u = some a ∨ ∃ r, A u r ∧ r.alias? = some a

/-- A record of a URL. -/
def RecOk (E : Env) (A : Url → Rec → Prop) (u : Url) (r : Rec) : Prop :=
  (∀ s, r.said = some s → SaidOf E A u s) ∧ ∀ a, r.alias? = some a → AliasOf E A a

structure Inv (E : Env) (A : Url → Rec → Prop) (w : World) : Prop where
  oobis : ∀ e, e ∈ w.oobis → RecOk E A e.1 e.2
  coobi : ∀ e, e ∈ w.coobi → RecOk E A e.1 e.2
  eoobi : ∀ e, e ∈ w.eoobi → RecOk E A e.1 e.2
  moobi : ∀ e, e ∈ w.moobi → RecOk E A e.1 e.2
  schema : ∀ e, e ∈ w.schema → E.schemer e.2 = some e.1 ∧ ∃ u, SaidOf E A u e.1
  contacts : ∀ e, e ∈ w.contacts → AliasOf E A e.2.1

variable {E : Env} {A : Url → Rec → Prop}

theorem pin_all {κ ν : Type} [DecidableEq κ] {t : Tab κ ν} {P : κ × ν → Prop} {k : κ} {v : ν} (h : ∀ e, e ∈ t → P e) (hv : P (k, v)) :
    ∀ e, e ∈ Tab.pin t k v → P e := fun e he => (mem_pin he).elim (fun h0 => h0 ▸ hv) (h e)

theorem put_all {κ ν : Type} [DecidableEq κ] {t : Tab κ ν} {P : κ × ν → Prop} {k : κ} {v : ν} (h : ∀ e, e ∈ t → P e) (hv : P (k, v)) :
    ∀ e, e ∈ Tab.put t k v → P e := fun e he => (mem_put he).elim (fun h0 => h0 ▸ hv) (h e)

theorem rem_all {κ ν : Type} [DecidableEq κ] {t : Tab κ ν} {P : κ × ν → Prop} {k : κ} (h : ∀ e, e ∈ t → P e) :
    ∀ e, e ∈ Tab.rem t k → P e := fun e he => h e (mem_rem he)

theorem foldl_put_all {P : Url × Rec → Prop} (v : Rec) (hv : ∀ u, P (u, v)) : ∀ (us : List Url) (t : Tab Url Rec), (∀ e, e ∈ t → P e) →
    ∀ e, e ∈ us.foldl (fun t u => Tab.put t u v) t → P e
  | [], _, h => h
  | u :: us, t, h => by rw [List.foldl_cons]; exact foldl_put_all v hv us _ (put_all h (hv u))

theorem hint_ok {u : Url} {r : Rec} (h : RecOk E A u r) : RecOk E A u (hint E u r) := by
  unfold hint
  cases hr : r.alias? with
  | some a => exact h
  | none => exact ⟨h.1, fun a ha => ⟨u, Or.inl ha⟩⟩

theorem inv_request {conn : Url → Bool} {w : World} (h : Inv E A w) {u : Url} {r : Rec} (hr : RecOk E A u r) : Inv E A (request conn w u r) := by
  unfold request
  split
  · exact ⟨rem_all h.oobis, pin_all h.coobi hr, h.eoobi, h.moobi, h.schema, h.contacts⟩
  · exact ⟨rem_all h.oobis, h.coobi, h.eoobi, h.moobi, h.schema, h.contacts⟩

theorem inv_finish {w : World} (h : Inv E A w) (u : Url) (r : Rec) (s : Result) : Inv E A (finish w u r s) :=
  ⟨h.oobis, rem_all h.coobi, h.eoobi, h.moobi, h.schema, h.contacts⟩

theorem inv_cue {w : World} (h : Inv E A w) (u : Url) (s : Option Result) : Inv E A (cue w u s) :=
  ⟨h.oobis, h.coobi, h.eoobi, h.moobi, h.schema, h.contacts⟩

theorem inv_oobiOne {conn : Url → Bool} {w : World} (h : Inv E A w) {u : Url} {r : Rec} (hr : RecOk E A u r) : Inv E A (oobiOne' E conn w u r).1 := by
  unfold oobiOne' oobiOne
  by_cases hs : E.splits u = true
  · rw [if_pos hs]; exact h
  · rw [if_neg hs]
    split
    · rename_i w' hw
      split at hw
      · injection hw with hw
        subst hw
        exact ⟨rem_all h.oobis, h.coobi, h.eoobi, h.moobi, h.schema, h.contacts⟩
      · cases hk : E.kind u with
        | bad => rw [hk] at hw; injection hw with hw; subst hw; exact h
        | none => rw [hk] at hw; injection hw with hw; subst hw; exact h
        | self => rw [hk] at hw; injection hw with hw; subst hw; exact inv_request h (hint_ok hr)
        | full c ro ei => rw [hk] at hw; injection hw with hw; subst hw; exact inv_request h (hint_ok ⟨hr.1, hr.2⟩)
        | data s =>
          rw [hk] at hw; injection hw with hw; subst hw
          refine inv_request h ⟨fun s' hs' => ?_, hr.2⟩
          injection hs' with hs'
          subst hs'
          exact Or.inl hk
        | known c => rw [hk] at hw; injection hw with hw; subst hw; exact inv_request h (hint_ok ⟨hr.1, hr.2⟩)
    · exact h

theorem inv_schemaIs {w : World} (h : Inv E A w) {u : Url} {r : Rec} (hr : RecOk E A u r) {b : Body} {s : Said} (hb : E.schemer b = some s) :
    Inv E A (schemaIs E w u r b s).1 := by
  unfold schemaIs
  split
  · rename_i hs
    have h1 : Inv E A { w with schema := Tab.pin w.schema s b } :=
      ⟨h.oobis, h.coobi, h.eoobi, h.moobi, pin_all h.schema ⟨hb, u, hr.1 s hs⟩, h.contacts⟩
    exact inv_finish h1 _ _ _
  · exact inv_finish h _ _ _

theorem inv_settle {now : Nat} {w : World} (h : Inv E A w) {u : Url} {r : Rec} (hr : RecOk E A u r) (x : Resp) : Inv E A (settle E now w u r x).1 := by
  unfold settle
  split
  · exact ⟨h.oobis, rem_all h.coobi, pin_all h.eoobi hr, h.moobi, h.schema, h.contacts⟩
  · split
    · exact inv_cue (inv_finish h _ _ _) _ _
    · cases x.ctype with
      | missing => exact h
      | cesr =>
        dsimp only
        refine inv_cue (inv_finish ?_ _ _ _) _ _
        have ha : ∀ a, (match x.aid with | some a => { r with cid := some a } | none => r).alias? = some a → AliasOf E A a := by
          cases x.aid <;> exact hr.2
        split
        · rename_i a i h1 _
          exact ⟨h.oobis, h.coobi, h.eoobi, h.moobi, h.schema, pin_all h.contacts (ha a h1)⟩
        · exact ⟨h.oobis, h.coobi, h.eoobi, h.moobi, h.schema, h.contacts⟩
      | schema =>
        dsimp only
        cases hs : E.schemer x.body with
        | some s => exact inv_cue (inv_schemaIs h hr hs) _ _
        | none => exact inv_cue (inv_finish h _ _ _) _ _
      | json =>
        dsimp only
        cases hs : E.schemer x.body with
        | some s => exact inv_schemaIs h hr hs
        | none =>
          dsimp only
          cases E.reply x.body with
          | bad => exact inv_finish h _ _ _
          | notRpy => exact inv_cue (inv_finish h _ _ _) _ _
          | multi aid urls =>
            dsimp only
            unfold multi
            split
            · have h1 : Inv E A { w with
                  oobis := urls.foldl (fun t v => Tab.put t v { date := some now, alias? := r.alias?, cid := r.cid }) w.oobis,
                  coobi := Tab.rem w.coobi u, moobi := Tab.put w.moobi u { r with urls := urls } } :=
                ⟨foldl_put_all { date := some now, alias? := r.alias?, cid := r.cid } (fun v => ⟨fun s hs => (by cases hs), hr.2⟩) urls _ h.oobis,
                  rem_all h.coobi, h.eoobi, put_all h.moobi hr, h.schema, h.contacts⟩
              exact inv_cue h1 _ _
            · exact inv_cue h _ _
          | other => exact inv_cue (inv_finish h _ _ _) _ _
      | other => exact inv_cue (inv_finish h _ _ _) _ _

theorem inv_clientOne {conn : Url → Bool} {now : Nat} {w : World} (h : Inv E A w) {u : Url} {r : Rec} (hr : RecOk E A u r) :
    Inv E A (clientOne E conn now w u r).1 := by
  unfold clientOne
  split
  · exact h
  · split
    · exact inv_request h hr
    · exact h
    · rename_i x xs _
      have h1 : Inv E A { w with clients := Tab.pin w.clients u xs } := ⟨h.oobis, h.coobi, h.eoobi, h.moobi, h.schema, h.contacts⟩
      exact inv_settle h1 hr _

theorem inv_retryOne {now : Nat} {w : World} (h : Inv E A w) {u : Url} {r : Rec} (hr : RecOk E A u r) : Inv E A (retryOne E now w u r).1 := by
  unfold retryOne
  split
  · exact h
  · split
    · exact h
    · split
      · exact ⟨pin_all h.oobis ⟨hr.1, hr.2⟩, h.coobi, rem_all h.eoobi, h.moobi, h.schema, h.contacts⟩
      · exact h

theorem inv_moobiOne {w : World} (h : Inv E A w) {u : Url} {r : Rec} (_ : RecOk E A u r) : Inv E A (moobiOne E w u r).1 := by
  unfold moobiOne
  split
  · exact h
  · split
    · exact h
    · exact inv_finish h _ _ _

theorem inv_loop {f : World → Url → Rec → World × Option Err} (hf : ∀ w u r, Inv E A w → RecOk E A u r → Inv E A (f w u r).1) :
    ∀ (es : List (Url × Rec)) (w : World), Inv E A w → (∀ e, e ∈ es → RecOk E A e.1 e.2) → Inv E A (loop f es w).1
  | [], w, h, _ => h
  | (u, r) :: es, w, h, he => by
    unfold loop
    have h := hf w u r h (he (u, r) (by simp))
    revert h
    generalize f w u r = x
    obtain ⟨w', e⟩ := x
    intro h
    cases e with
    | some e => exact h
    | none => exact inv_loop hf es w' h (fun e he' => he e (by simp [he']))

theorem inv_flows {conn : Url → Bool} {now : Nat} {w : World} (h : Inv E A w) : Inv E A (flows E conn now w).1 := by
  unfold flows
  have h1 := inv_loop (f := oobiOne' E conn) (fun w u r h hr => inv_oobiOne h hr) w.oobis w h h.oobis
  revert h1
  generalize loop (oobiOne' E conn) w.oobis w = x
  obtain ⟨w1, e⟩ := x
  intro h1
  cases e with
  | some e => exact h1
  | none =>
    dsimp only at h1 ⊢
    have h2 := inv_loop (f := clientOne E conn now) (fun w u r h hr => inv_clientOne h hr) w1.coobi w1 h1 h1.coobi
    revert h2
    generalize loop (clientOne E conn now) w1.coobi w1 = x
    obtain ⟨w2, e⟩ := x
    intro h2
    cases e with
    | some e => exact h2
    | none =>
      dsimp only at h2 ⊢
      have h3 := inv_loop (f := retryOne E now) (fun w u r h hr => inv_retryOne h hr) w2.eoobi w2 h2 h2.eoobi
      revert h3
      generalize loop (retryOne E now) w2.eoobi w2 = x
      obtain ⟨w3, e⟩ := x
      intro h3
      cases e with
      | some e => exact h3
      | none => exact inv_loop (f := moobiOne E) (fun w u r h hr => inv_moobiOne h hr) w3.moobi w3 h3 h3.moobi

/-- What was asked for in a history. -/
def Asked (ss : List Step) (u : Url) (r : Rec) : Prop :=
  Step.ask u r ∈ ss ∨ Step.pin u r ∈ ss ∨ ∃ cid date, Step.introduce true cid u date ∈ ss ∧ r = { cid := some cid, date := some date }

theorem inv_run (E : Env) : ∀ (ss : List Step) (w : World), (∀ u r, Asked ss u r → A u r) → Inv E A w → Inv E A (run E w ss)
  | [], _, _, h => h
  | s :: ss, w, ha, h => by
    unfold run
    rw [List.foldl_cons]
    refine inv_run E ss _ (fun u r hu => ha u r ?_) ?_
    · rcases hu with hu | hu | ⟨c, d, hu, hr⟩
      · exact Or.inl (by simp [hu])
      · exact Or.inr (Or.inl (by simp [hu]))
      · exact Or.inr (Or.inr ⟨c, d, by simp [hu], hr⟩)
    · have hrec : ∀ u r, Asked (s :: ss) u r → RecOk E A u r := fun u r hu =>
        ⟨fun x hx => Or.inr ⟨r, ha u r hu, hx⟩, fun a hx => ⟨u, Or.inr ⟨r, ha u r hu, hx⟩⟩⟩
      cases s with
      | ask v r => exact ⟨put_all h.oobis (hrec v r (Or.inl (by simp))), h.coobi, h.eoobi, h.moobi, h.schema, h.contacts⟩
      | pin v r => exact ⟨pin_all h.oobis (hrec v r (Or.inr (Or.inl (by simp)))), h.coobi, h.eoobi, h.moobi, h.schema, h.contacts⟩
      | introduce a c v d =>
        simp only [step, introduce]
        split
        · exact h
        · split
          · exact h
          · rename_i hna
            have : a = true := by cases a <;> simp_all
            subst this
            exact ⟨put_all h.oobis (hrec v _ (Or.inr (Or.inr ⟨c, d, by simp, rfl⟩))), h.coobi, h.eoobi, h.moobi, h.schema, h.contacts⟩
      | answer v x =>
        simp only [step]
        split
        · exact h
        · exact ⟨h.oobis, h.coobi, h.eoobi, h.moobi, h.schema, h.contacts⟩
      | pass conn now => exact inv_flows h
      | restart => exact ⟨h.oobis, h.coobi, h.eoobi, h.moobi, h.schema, h.contacts⟩

theorem inv_empty : Inv E A {} :=
  ⟨(by intro e h; cases h), (by intro e h; cases h), (by intro e h; cases h), (by intro e h; cases h), (by intro e h; cases h), (by intro e h; cases h)⟩

/-- **C184.** Every schema got by introductions has the SAID it is stored under, and that is the SAID in a URL, or was asked for. -/
theorem c184_schema (E : Env) (ss : List Step) (s : Said) (b : Body) (h : Tab.get (run E {} ss).schema s = some b) :
    E.schemer b = some s ∧ ∃ u, E.kind u = .data s ∨ ∃ r, Asked ss u r ∧ r.said = some s :=
  (inv_run E ss {} (fun _ _ h => h) inv_empty).schema (s, b) (get_mem h)

/-- **C185 (partial).** Every alias entered for a contact by introductions was given with a URL that was asked for, or is hinted by a URL.
Missing: that it is given to the identifier introduced. The server that answers names the identifier (`c185_hijacked`). -/
theorem c185_alias_partial (E : Env) (ss : List Step) (i : Id) (a : Alias) (u : Url) (h : Tab.get (run E {} ss).contacts i = some (a, u)) :
    ∃ v, E.name v = some a ∨ ∃ r, Asked ss v r ∧ r.alias? = some a :=
  (inv_run E ss {} (fun _ _ h => h) inv_empty).contacts (i, (a, u)) (get_mem h)

/-- The result of several URLs. -/
theorem together_iff (w : World) : ∀ (us : List Url),
    (together w us = none ↔ ∃ u, u ∈ us ∧ Tab.get w.roobi u = none) ∧
    (together w us = some .failed ↔ (∀ u, u ∈ us → (Tab.get w.roobi u).isSome = true) ∧ ∃ u r, u ∈ us ∧ Tab.get w.roobi u = some r ∧ r.state = some .failed)
  | [] => by simp [together]
  | u :: us => by
    obtain ⟨i1, i2⟩ := together_iff w us
    unfold together
    cases hu : Tab.get w.roobi u with
    | none => simp [hu]
    | some r =>
      dsimp only
      cases ht : together w us with
      | none =>
        obtain ⟨v, hv, hn⟩ := i1.1 ht
        refine ⟨⟨fun _ => ⟨v, by simp [hv], hn⟩, fun _ => rfl⟩, ⟨fun h => (by cases h), fun h => ?_⟩⟩
        have := h.1 v (by simp [hv])
        rw [hn] at this; cases this
      | some s =>
        have hall : ∀ v, v ∈ us → (Tab.get w.roobi v).isSome = true := by
          intro v hv
          cases hg : Tab.get w.roobi v with
          | some _ => rfl
          | none => rw [i1.2 ⟨v, hv, hg⟩] at ht; cases ht
        refine ⟨⟨fun h => (by cases h), ?_⟩, ?_⟩
        · rintro ⟨v, hv, hn⟩
          rcases List.mem_cons.1 hv with rfl | hv
          · rw [hu] at hn; cases hn
          · have := hall v hv; rw [hn] at this; cases this
        · constructor
          · intro h
            refine ⟨fun v hv => ?_, ?_⟩
            · rcases List.mem_cons.1 hv with rfl | hv
              · rw [hu]; rfl
              · exact hall v hv
            · by_cases hf : r.state = some .failed
              · exact ⟨u, r, by simp, hu, hf⟩
              · dsimp only at h
                rw [if_neg hf] at h
                rw [h] at ht
                obtain ⟨_, v, r', hv, h1, h2⟩ := i2.1 ht
                exact ⟨v, r', by simp [hv], h1, h2⟩
          · rintro ⟨_, v, r', hv, h1, h2⟩
            dsimp only
            by_cases hf : r.state = some .failed
            · rw [if_pos hf]
            · rw [if_neg hf]
              rcases List.mem_cons.1 hv with rfl | hv
              · rw [hu] at h1; injection h1 with h1; subst h1; exact absurd h2 hf
              · rw [← ht]; exact i2.2 ⟨hall, v, r', hv, h1, h2⟩

/-- **C186.** A URL that stands for several has a result after its turn in a pass exactly when all of them have one (if it had none before), and it is
failed exactly when one of them is. -/
theorem c186_multi (E : Env) (w : World) (u : Url) (r : Rec) (hs : E.splits u = false) (hu : Tab.get w.roobi u = none) :
    ((Tab.get (moobiOne E w u r).1.roobi u).isSome = true ↔ ∀ v, v ∈ r.urls → (Tab.get w.roobi v).isSome = true) ∧
    ∀ f, Tab.get (moobiOne E w u r).1.roobi u = some f →
      (f.state = some .failed ↔ ∃ v g, v ∈ r.urls ∧ Tab.get w.roobi v = some g ∧ g.state = some .failed) ∧
      (f.state = some .failed ∨ f.state = some .resolved) := by
  obtain ⟨i1, i2⟩ := together_iff w r.urls
  unfold moobiOne
  rw [if_neg (by simp [hs])]
  cases ht : together w r.urls with
  | none =>
    dsimp only
    refine ⟨⟨fun h => (by rw [hu] at h; cases h), fun h => ?_⟩, fun f hf => by rw [hu] at hf; cases hf⟩
    obtain ⟨v, hv, hn⟩ := i1.1 ht
    have := h v hv; rw [hn] at this; cases this
  | some s =>
    have hall : ∀ v, v ∈ r.urls → (Tab.get w.roobi v).isSome = true := by
      intro v hv
      cases hg : Tab.get w.roobi v with
      | some _ => rfl
      | none => rw [i1.2 ⟨v, hv, hg⟩] at ht; cases ht
    dsimp only [finish]
    refine ⟨⟨fun _ => hall, fun _ => put_isSome _ _ _⟩, fun f hf => ?_⟩
    rw [get_put, if_pos ⟨rfl, hu⟩] at hf
    injection hf with hf
    subst hf
    refine ⟨⟨fun h => ?_, fun h => ?_⟩, ?_⟩
    · simp only [Option.some.injEq] at h
      subst h
      exact (i2.1 ht).2
    · have := i2.2 ⟨hall, h⟩
      rw [ht] at this
      exact this
    · cases s
      · exact Or.inr rfl
      · exact Or.inl rfl

/-- **C187 (partial).** A well-known URL is entered as authentication of an identifier exactly if its server answers with a status of at most 200. Missing:
that these are the statuses of success. -/
theorem c187_mfa_partial (status : Nat) : (mfa status).1 = true ↔ status ≤ 200 := by
  unfold mfa; split <;> simp <;> omega

end Verif.Oobi
