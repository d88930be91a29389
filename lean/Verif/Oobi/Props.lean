import Verif.Oobi.Lemmas

/-! # C181–C186: out-of-band introductions -/

namespace Verif.Oobi

open Verif.Krm

/-- The step asks for the URL. -/
def Step.asks (E : Env) (u : Url) : Step → Prop
  | .ask v _ | .pin v _ => v = u
  | .introduce accepted _ v _ => v = u ∧ accepted = true ∧ E.http v = true
  | _ => False

/-- **C181 (partial).** A URL that was asked for, whenever and however, waits, is requested, is to be asked again, has its parts asked for, or
has a result: after any further steps, passes that raise and restarts included. Missing: URLs for which no client can be made, which are
dropped without a result (`c181_dropped`). -/
theorem c181_held_partial (E : Env) (w : World) (s : Step) (u : Url) (ha : s.asks E u) (ss : List Step)
    (hc : ∀ conn now, Step.pass conn now ∈ ss → conn u = true) : Held (run E w (s :: ss)) u := by
  have h0 : Held (step E w s) u := by
    cases s with
    | ask v r => cases ha; exact Or.inl (put_isSome _ _ _)
    | pin v r => cases ha; exact Or.inl (pin_isSome _ _ _ (Or.inl rfl))
    | introduce a c v d =>
      obtain ⟨rfl, h1, h2⟩ := ha
      simp only [step, introduce, h1, h2]
      exact Or.inl (put_isSome _ _ _)
    | answer => exact ha.elim
    | pass => exact ha.elim
    | restart => exact ha.elim
  unfold run
  rw [List.foldl_cons]
  generalize step E w s = w at h0
  clear ha
  induction ss generalizing w with
  | nil => exact h0
  | cons s ss ih =>
    rw [List.foldl_cons]
    exact ih (fun conn now h => hc conn now (by simp [h])) (step E w s)
      (held_step E w s (fun conn now h => hc conn now (by simp [h])) h0)

/-- **C182.** A result that is there stays as it is, whatever happens. -/
theorem c182_result (E : Env) (w : World) (u : Url) (r : Rec) (h : Tab.get w.roobi u = some r) (ss : List Step) :
    Tab.get (run E w ss).roobi u = some r := by
  unfold run
  induction ss generalizing w with
  | nil => exact h
  | cons s ss ih => rw [List.foldl_cons]; exact ih (step E w s) (roobi_step E w s h)

/-! ## Answers are settled -/

/-- The answer leads to a result: it is neither 404, nor a reply about several URLs of another identifier. -/
def Final (E : Env) (r : Rec) (x : Resp) : Prop :=
  x.status ≠ 404 ∧ ∀ aid urls, x.status = 200 → x.ctype = .json → E.schemer x.body = none → E.reply x.body = .multi aid urls → r.cid = some aid

theorem settle_final {E : Env} {now : Nat} {w : World} {url : Url} {r : Rec} {x : Resp} (hm : x.status = 200 → x.ctype ≠ .missing) (hf : Final E r x) :
    (settle E now w url r x).2 = none ∧
      ((Tab.get (settle E now w url r x).1.roobi url).isSome = true ∨ (Tab.get (settle E now w url r x).1.moobi url).isSome = true) := by
  have hp : ∀ w r s, (Tab.get (finish w url r s).roobi url).isSome = true := fun w r s => put_isSome _ _ _
  have hsc : ∀ b s, (Tab.get (schemaIs E w url r b s).1.roobi url).isSome = true := by
    intro b s; unfold schemaIs; split <;> exact put_isSome _ _ _
  unfold settle
  rw [if_neg hf.1]
  by_cases h2 : x.status = 200
  · rw [if_neg (by simpa using h2)]
    have hm := hm h2
    have hf := hf.2
    cases hx : x.ctype with
    | missing => exact absurd hx hm
    | cesr => exact ⟨rfl, Or.inl (put_isSome _ _ _)⟩
    | schema =>
      dsimp only
      cases E.schemer x.body with
      | some s => exact ⟨rfl, Or.inl (hsc _ _)⟩
      | none => exact ⟨rfl, Or.inl (hp _ _ _)⟩
    | json =>
      dsimp only
      cases hs : E.schemer x.body with
      | some s => exact ⟨rfl, Or.inl (hsc _ _)⟩
      | none =>
        dsimp only
        cases hr : E.reply x.body with
        | bad => exact ⟨rfl, Or.inl (hp _ _ _)⟩
        | notRpy => exact ⟨rfl, Or.inl (hp _ _ _)⟩
        | multi aid urls =>
          refine ⟨rfl, Or.inr ?_⟩
          dsimp only
          unfold multi
          rw [if_pos (hf aid urls h2 hx hs hr)]
          exact put_isSome _ _ _
        | other => exact ⟨rfl, Or.inl (hp _ _ _)⟩
    | other => exact ⟨rfl, Or.inl (hp _ _ _)⟩
  · rw [if_pos h2]; exact ⟨rfl, Or.inl (hp _ _ _)⟩

theorem settle_clients {E : Env} {now : Nat} {w : World} {url : Url} {r : Rec} {x : Resp} : (settle E now w url r x).1.clients = w.clients := by
  have hsc : ∀ b s, (schemaIs E w url r b s).1.clients = w.clients := by
    intro b s; unfold schemaIs; split <;> rfl
  unfold settle
  split
  · rfl
  · split
    · rfl
    · cases x.ctype with
      | missing => rfl
      | cesr => dsimp only [cue, finish]; split <;> rfl
      | schema =>
        dsimp only
        cases E.schemer x.body with
        | some s => exact hsc _ _
        | none => rfl
      | json =>
        dsimp only
        cases E.schemer x.body with
        | some s => exact hsc _ _
        | none =>
          dsimp only
          cases E.reply x.body with
          | multi aid urls => dsimp only; unfold multi; split <;> rfl
          | bad => rfl
          | notRpy => rfl
          | other => rfl
      | other => rfl

theorem settle_err {E : Env} {now : Nat} {w : World} {url : Url} {r : Rec} {x : Resp} (hm : x.status = 200 → x.ctype ≠ .missing) :
    (settle E now w url r x).2 = none := by
  unfold settle
  by_cases h4 : x.status = 404
  · rw [if_pos h4]
  · rw [if_neg h4]
    by_cases h2 : x.status = 200
    · rw [if_neg (by simpa using h2)]
      cases hx : x.ctype with
      | missing => exact absurd hx (hm h2)
      | cesr => rfl
      | schema => dsimp only; cases E.schemer x.body <;> rfl
      | json =>
        dsimp only
        cases E.schemer x.body with
        | some s => rfl
        | none => dsimp only; cases E.reply x.body <;> rfl
      | other => rfl
    · rw [if_pos h2]

theorem clientOne_other {E : Env} {conn : Url → Bool} {now : Nat} {w : World} {url v : Url} {r : Rec} (h : url ≠ v) :
    Tab.get (clientOne E conn now w url r).1.clients v = Tab.get w.clients v := by
  unfold clientOne
  split
  · rfl
  · split
    · unfold request
      split
      · dsimp only; rw [get_pin, if_neg h]
      · rfl
    · rfl
    · rw [settle_clients]
      dsimp only; rw [get_pin, if_neg h]

/-- **C183.** The pass over requested URLs settles every answer there is: if no URL has a `>` in it and every successful answer says what type its
content has, nothing is raised, and each requested URL whose answer leads to a result has one, or has its parts asked for. -/
theorem c183_settled (E : Env) (conn : Url → Bool) (now : Nat) : ∀ (es : List (Url × Rec)) (w : World), (es.map (·.1)).Nodup →
    (∀ u r, (u, r) ∈ es → E.splits u = false ∧ ∀ x xs, Tab.get w.clients u = some (x :: xs) → x.status = 200 → x.ctype ≠ .missing) →
    (loop (clientOne E conn now) es w).2 = none ∧
    ∀ u r x xs, (u, r) ∈ es → Tab.get w.clients u = some (x :: xs) → Final E r x →
      (Tab.get (loop (clientOne E conn now) es w).1.roobi u).isSome = true ∨ (Tab.get (loop (clientOne E conn now) es w).1.moobi u).isSome = true
  | [], w, _, _ => ⟨rfl, by simp⟩
  | (v, q) :: es, w, hn, hw => by
    rw [List.map_cons, List.nodup_cons] at hn
    obtain ⟨hs, hm⟩ := hw v q (by simp)
    have herr : (clientOne E conn now w v q).2 = none := by
      unfold clientOne
      rw [if_neg (by simp [hs])]
      split
      · rfl
      · rfl
      · rename_i x xs hx
        exact settle_err (hm x xs hx)
    have hoth : ∀ u r, (u, r) ∈ es → Tab.get (clientOne E conn now w v q).1.clients u = Tab.get w.clients u := by
      intro u r hu
      refine clientOne_other ?_
      rintro rfl
      exact hn.1 (List.mem_map.2 ⟨_, hu, rfl⟩)
    have hthis : ∀ x xs, Tab.get w.clients v = some (x :: xs) → Final E q x →
        (Tab.get (clientOne E conn now w v q).1.roobi v).isSome = true ∨ (Tab.get (clientOne E conn now w v q).1.moobi v).isSome = true := by
      intro x xs hx hf
      unfold clientOne
      rw [if_neg (by simp [hs]), hx]
      exact (settle_final (hm x xs hx) hf).2
    unfold loop
    revert herr hoth hthis
    generalize clientOne E conn now w v q = y
    obtain ⟨w', e⟩ := y
    intro herr hoth hthis
    simp only at herr
    subst herr
    dsimp only at hoth hthis ⊢
    obtain ⟨i1, i2⟩ := c183_settled E conn now es w' hn.2 (fun u r hu => by
      obtain ⟨a, b⟩ := hw u r (by simp [hu])
      exact ⟨a, fun x xs hx => b x xs (by rw [← hoth u r hu]; exact hx)⟩)
    refine ⟨i1, fun u r x xs hu hx hf => ?_⟩
    rcases List.mem_cons.1 hu with hu | hu
    · injection hu with h1 h2
      subst h1; subst h2
      have hl := tr_loop (conn := conn) (f := clientOne E conn now) (tr_clientOne E now) es w'
      rcases hthis x xs hx hf with h | h
      · obtain ⟨a, ha⟩ := Option.isSome_iff_exists.1 h
        exact Or.inl (by rw [hl.roobi u a ha]; rfl)
      · exact Or.inr (hl.moobi u h)
    · exact i2 u r x xs hu (by rw [hoth u r hu]; exact hx) hf

/-! ## URLs with the separator -/

/-- What cannot change any more. -/
structure Stuck (w w' : World) : Prop where
  roobi : w'.roobi = w.roobi
  moobi : w'.moobi = w.moobi
  eoobi : w'.eoobi = w.eoobi
  schema : w'.schema = w.schema
  contacts : w'.contacts = w.contacts
  parsed : w'.parsed = w.parsed

theorem Stuck.trans {a b c : World} (h : Stuck a b) (h' : Stuck b c) : Stuck a c :=
  ⟨h'.1.trans h.1, h'.2.trans h.2, h'.3.trans h.3, h'.4.trans h.4, h'.5.trans h.5, h'.6.trans h.6⟩

theorem stuck_request (conn : Url → Bool) (w : World) (url : Url) (r : Rec) : Stuck w (request conn w url r) := by
  unfold request; split <;> exact ⟨rfl, rfl, rfl, rfl, rfl, rfl⟩

theorem request_oobis (conn : Url → Bool) (w : World) (url : Url) (r : Rec) : (request conn w url r).oobis = Tab.rem w.oobis url := by
  unfold request; split <;> rfl

theorem stuck_oobiOne (E : Env) (conn : Url → Bool) (w : World) (url : Url) (r : Rec) : Stuck w (oobiOne' E conn w url r).1 ∧
    ((oobiOne' E conn w url r).2 = none → E.splits url = false) ∧
    ∀ u, E.splits u = true → (Tab.get w.oobis u).isSome = true → (Tab.get (oobiOne' E conn w url r).1.oobis u).isSome = true := by
  have hself : Stuck w w := ⟨rfl, rfl, rfl, rfl, rfl, rfl⟩
  unfold oobiOne' oobiOne
  by_cases hs : E.splits url = true
  · rw [if_pos hs]; exact ⟨hself, fun h => (by cases h), fun _ _ h => h⟩
  · rw [if_neg hs]
    have hne : ∀ u, E.splits u = true → url ≠ u := fun u hu h => hs (h ▸ hu)
    have hreq : ∀ r, Stuck w (request conn w url r) ∧ ((none : Option Err) = none → E.splits url = false) ∧
        ∀ u, E.splits u = true → (Tab.get w.oobis u).isSome = true → (Tab.get (request conn w url r).oobis u).isSome = true := fun r =>
      ⟨stuck_request _ _ _ _, fun _ => by simpa using hs, fun u hu h => by rw [request_oobis]; exact rem_isSome _ _ (hne u hu) h⟩
    split
    · rename_i w' h
      split at h
      · injection h with h
        subst h
        exact ⟨⟨rfl, rfl, rfl, rfl, rfl, rfl⟩, fun _ => by simpa using hs, fun u hu h => rem_isSome _ _ (hne u hu) h⟩
      · cases hk : E.kind url with
        | bad => rw [hk] at h; injection h with h; subst h; exact ⟨hself, fun _ => by simpa using hs, fun _ _ h => h⟩
        | none => rw [hk] at h; injection h with h; subst h; exact ⟨hself, fun _ => by simpa using hs, fun _ _ h => h⟩
        | self => rw [hk] at h; injection h with h; subst h; exact hreq _
        | full c ro ei => rw [hk] at h; injection h with h; subst h; exact hreq _
        | data s => rw [hk] at h; injection h with h; subst h; exact hreq _
        | known c => rw [hk] at h; injection h with h; subst h; exact hreq _
    · exact ⟨hself, fun _ => by simpa using hs, fun _ _ h => h⟩

theorem stuck_loop (E : Env) (conn : Url → Bool) : ∀ (es : List (Url × Rec)) (w : World), Stuck w (loop (oobiOne' E conn) es w).1 ∧
    ((loop (oobiOne' E conn) es w).2 = none → ∀ e, e ∈ es → E.splits e.1 = false) ∧
    ∀ u, E.splits u = true → (Tab.get w.oobis u).isSome = true → (Tab.get (loop (oobiOne' E conn) es w).1.oobis u).isSome = true
  | [], w => ⟨⟨rfl, rfl, rfl, rfl, rfl, rfl⟩, by simp, fun _ _ h => h⟩
  | (v, r) :: es, w => by
    have h := stuck_oobiOne E conn w v r
    unfold loop
    revert h
    generalize oobiOne' E conn w v r = y
    obtain ⟨w', e⟩ := y
    rintro ⟨h1, h2, h3⟩
    cases e with
    | some e => exact ⟨h1, fun h => (by cases h), h3⟩
    | none =>
      obtain ⟨i1, i2, i3⟩ := stuck_loop E conn es w'
      refine ⟨h1.trans i1, fun h e he => ?_, fun u hu h => i3 u hu (h3 u hu h)⟩
      rcases List.mem_cons.1 he with rfl | he
      · exact h2 rfl
      · exact i2 h e he

/-- **C183, what fails.** As soon as a URL with a `>` in it has been asked for, by anyone, every pass raises, and whatever happens from then on there are no
further results, schemas, contacts, or streams parsed. -/
theorem c183_stuck (E : Env) (w : World) (u : Url) (hu : E.splits u = true) (hw : (Tab.get w.oobis u).isSome = true) (ss : List Step) :
    Stuck w (run E w ss) ∧ ∀ conn now, (flows E conn now (run E w ss)).2.isSome = true := by
  have key : ∀ (w : World), (Tab.get w.oobis u).isSome = true → ∀ conn now, ∃ e, flows E conn now w = ((loop (oobiOne' E conn) w.oobis w).1, some e) := by
    intro w hw conn now
    obtain ⟨_, i2, _⟩ := stuck_loop E conn w.oobis w
    unfold flows
    revert i2
    generalize loop (oobiOne' E conn) w.oobis w = y
    obtain ⟨w', e⟩ := y
    intro i2
    cases e with
    | some e => exact ⟨e, rfl⟩
    | none =>
      obtain ⟨r, hr⟩ := Option.isSome_iff_exists.1 hw
      have := i2 rfl _ (get_mem hr)
      rw [hu] at this; cases this
  have hrun : ∀ (ss : List Step) (w : World), (Tab.get w.oobis u).isSome = true →
      Stuck w (run E w ss) ∧ (Tab.get (run E w ss).oobis u).isSome = true := by
    intro ss
    induction ss with
    | nil => intro w hw; exact ⟨⟨rfl, rfl, rfl, rfl, rfl, rfl⟩, hw⟩
    | cons s ss ih =>
      intro w hw
      have h1 : Stuck w (step E w s) ∧ (Tab.get (step E w s).oobis u).isSome = true := by
        cases s with
        | ask v r => exact ⟨⟨rfl, rfl, rfl, rfl, rfl, rfl⟩, put_mono' _ _ _ hw⟩
        | pin v r => exact ⟨⟨rfl, rfl, rfl, rfl, rfl, rfl⟩, pin_isSome _ _ _ (Or.inr hw)⟩
        | introduce a c v d =>
          simp only [step, introduce]
          split
          · exact ⟨⟨rfl, rfl, rfl, rfl, rfl, rfl⟩, hw⟩
          · split
            · exact ⟨⟨rfl, rfl, rfl, rfl, rfl, rfl⟩, hw⟩
            · exact ⟨⟨rfl, rfl, rfl, rfl, rfl, rfl⟩, put_mono' _ _ _ hw⟩
        | answer v x => simp only [step]; split <;> exact ⟨⟨rfl, rfl, rfl, rfl, rfl, rfl⟩, hw⟩
        | pass conn now =>
          obtain ⟨e, he⟩ := key w hw conn now
          simp only [step, he]
          obtain ⟨i1, _, i3⟩ := stuck_loop E conn w.oobis w
          exact ⟨i1, i3 u hu hw⟩
        | restart => exact ⟨⟨rfl, rfl, rfl, rfl, rfl, rfl⟩, hw⟩
      obtain ⟨h2, h3⟩ := ih (step E w s) h1.2
      exact ⟨h1.1.trans h2, h3⟩
  refine ⟨(hrun ss w hw).1, fun conn now => ?_⟩
  obtain ⟨e, he⟩ := key _ (hrun ss w hw).2 conn now
  rw [he]; rfl

end Verif.Oobi
