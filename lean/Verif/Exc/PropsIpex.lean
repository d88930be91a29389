import Verif.Exc.PropsAuth

/-! # C103, C104: conversations of the IPEX protocol -/

namespace Verif.Exc

open Verif.Kel (Id Dig Sig)
open Verif.Krm (Tab get_pin get_put get_rem get_mem)

/-! ## Specification -/

/-- Saved messages, newest first, each an answer to the next one; the oldest answers nothing. -/
def Thread (saved : Dig → Option Msg) : List Msg → Prop
  | [] => False
  | [m] => saved m.said = some m ∧ m.prior = none
  | m :: p :: l => saved m.said = some m ∧ m.prior = some p.said ∧ Thread saved (p :: l)

/-- The ways through the protocol. -/
def ways : List (List Verb) := [[.apply, .offer, .agree, .grant, .admit], [.offer, .agree, .grant, .admit], [.grant, .admit]]

/-- A beginning of one of the ways, or that and then `spurn` after a verb that can be spurned. -/
def Legal (spurned : List Verb) (vs : List Verb) : Prop :=
  ∃ way ∈ ways, vs ≠ [] ∧ (vs <+: way ∨ (vs.dropLast <+: way ∧ ∃ v ∈ spurned, [v, .spurn] <:+ vs))

/-- The verbs of the messages, oldest first. -/
def Speaks (ms : List Msg) (vs : List Verb) : Prop := ms.reverse.map (fun m => ipexVerb m.route) = vs.map some

/-- All routes of the protocol have the handler. -/
def Uses (routes : Routes) (h : Handler) : Prop := ∀ r v, ipexVerb r = some v → routes r = some h

/-- Whatever came with a route that ends in a verb of the protocol has a route of the protocol. -/
def Tidy (l : List Step) : Prop := ∀ m a v, Came l m a → verbOf (basename m.route) = some v → ipexVerb m.route = some v

/-! ## What the handlers let pass -/

/-- The message opens a conversation, or answers one that is saved and has no answer that is. -/
def Fits (kind : List Char → Option Verb) (prev : Verb → List Verb) (e : Exc) (m : Msg) (v : Verb) : Prop :=
  (m.prior = none ∧ v ∈ [Verb.apply, .offer, .grant]) ∨
    ∃ d p w, m.prior = some d ∧ e.exns.get d = some p ∧ kind p.route = some w ∧ w ∈ prev v ∧ ∀ r, e.erpy.get p.said = some r → e.exns.get r = none

variable {env : Env} {e : Exc} {m : Msg} {a : Att}

theorem resolve_attr {q : Quad} : resolve env q ≠ .error .attribute := by
  unfold resolve
  intro h
  repeat' split at h
  all_goals exact absurd h (by simp)

theorem checkSigs_attr {t : Tsg} : checkSigs env m t ≠ .fail .attribute := by
  unfold checkSigs
  cases env.sn t.1.1 with
  | none => simp
  | some n =>
    dsimp only
    split
    · simp
    · cases hr : resolve env t.1 with
      | error x =>
        intro h
        injection h with h
        exact resolve_attr (h ▸ hr)
      | ok p =>
        dsimp only
        split <;> simp

theorem go_attr : ∀ l : List Tsg, checkStored.go env m l ≠ .error .attribute
  | [], h => absurd h (by simp [checkStored.go])
  | t :: l, h => by
    unfold checkStored.go at h
    cases hc : checkSigs env m t with
    | good => rw [hc] at h; exact go_attr l h
    | wait => rw [hc] at h; exact absurd h (by simp)
    | fail x =>
      rw [hc] at h
      injection h with h
      exact checkSigs_attr (h ▸ hc)

theorem checkStored_attr : checkStored env e m ≠ .error .attribute := by
  unfold checkStored
  cases hg : checkStored.go env m (e.esigs.items m.said) with
  | error x =>
    intro h
    injection h with h
    exact go_attr _ (h ▸ hg)
  | ok u =>
    dsimp only
    intro h
    repeat' split at h
    all_goals exact absurd h (by simp)

theorem clone_attr {d : Dig} : clone env e d ≠ .error .attribute := by
  unfold clone
  cases e.exns.get d with
  | none => simp
  | some m =>
    dsimp only
    cases hc : checkStored env e m with
    | error x =>
      intro h
      injection h with h
      exact checkStored_attr (h ▸ hc)
    | ok u => simp

theorem clone_some {d : Dig} {p : Msg} (h : clone env e d = .ok (some p)) : e.exns.get d = some p := by
  unfold clone at h
  cases hx : e.exns.get d with
  | none => rw [hx] at h; exact absurd h (by simp)
  | some q =>
    rw [hx] at h
    dsimp only at h
    cases hc : checkStored env e q with
    | error x => rw [hc] at h; exact absurd h (by simp)
    | ok u =>
      rw [hc] at h
      simpa using h

theorem clone_none {d : Dig} (h : clone env e d = .ok none) : e.exns.get d = none := by
  unfold clone at h
  cases hx : e.exns.get d with
  | none => rfl
  | some q =>
    rw [hx] at h
    dsimp only at h
    cases hc : checkStored env e q <;> rw [hc] at h <;> exact absurd h (by simp)

theorem response_attr {d : Dig} : response env e d ≠ .error .attribute := by
  unfold response
  cases e.erpy.get d with
  | none => simp
  | some r => exact clone_attr

theorem answers_attr {d : Dig} {right : List Char → Bool} : answers env e d right ≠ .error .attribute := by
  unfold answers
  intro h
  split at h
  · rename_i x hx
    injection h with h
    exact clone_attr (h ▸ hx)
  · exact absurd h (by simp)
  · split at h
    · exact absurd h (by simp)
    · split at h
      · rename_i x hx
        injection h with h
        exact response_attr (h ▸ hx)
      · exact absurd h (by simp)

theorem answers_true {d : Dig} {right : List Char → Bool} (h : answers env e d right = .ok true) :
    ∃ p, e.exns.get d = some p ∧ right p.route = true ∧ ∀ r, e.erpy.get p.said = some r → e.exns.get r = none := by
  unfold answers at h
  split at h
  · exact absurd h (by simp)
  · exact absurd h (by simp)
  · rename_i p hp
    by_cases hr : right p.route = true
    · rw [if_neg (by simp [hr])] at h
      refine ⟨p, clone_some hp, hr, ?_⟩
      intro r hr
      unfold response at h
      rw [hr] at h
      dsimp only at h
      cases hc : clone env e r with
      | error x => rw [hc] at h; exact absurd h (by simp)
      | ok o =>
        rw [hc] at h
        cases o with
        | none => exact clone_none hc
        | some q => exact absurd h (by simp)
    · rw [if_pos (by simpa using hr)] at h
      exact absurd h (by simp)

theorem right_kind {kind : List Char → Option Verb} {l : List Verb} {r : List Char}
    (h : (match kind r with | some p => decide (p ∈ l) | none => false) = true) : ∃ w, kind r = some w ∧ w ∈ l := by
  cases hk : kind r with
  | none => rw [hk] at h; exact absurd h (by simp)
  | some w => rw [hk] at h; exact ⟨w, rfl, by simpa using h⟩

theorem verify1_true {nests : List Dig} (h : verify1 env e m nests = .ok true) :
    ∃ v, ipexVerb m.route = some v ∧ Fits (fun r => verbOf (basename r)) previous1 e m v := by
  unfold verify1 at h
  by_cases hn : nests ≠ []
  · rw [if_pos hn] at h; exact absurd h (by simp)
  · rw [if_neg hn] at h
    cases hv : ipexVerb m.route with
    | none => rw [hv] at h; exact absurd h (by simp)
    | some v =>
      refine ⟨v, rfl, ?_⟩
      cases hp : m.prior with
      | none =>
        rw [hv, hp] at h
        refine Or.inl ⟨hp, ?_⟩
        cases v <;> simp at h ⊢
      | some d =>
        rw [hv, hp] at h
        have h' : answers env e d (fun r => match verbOf (basename r) with | some p => decide (p ∈ previous1 v) | none => false) = .ok true := by
          cases v <;> first | exact h | exact absurd h (by simp)
        obtain ⟨p, h1, h2, h3⟩ := answers_true h'
        obtain ⟨w, h4, h5⟩ := right_kind (kind := fun r => verbOf (basename r)) h2
        exact Or.inr ⟨d, p, w, hp, h1, h4, h5, h3⟩

theorem verify1_attr {nests : List Dig} : verify1 env e m nests ≠ .error .attribute := by
  unfold verify1
  intro h
  split at h
  · exact absurd h (by simp)
  · split at h <;> first | exact absurd h (by simp) | exact answers_attr h

theorem verify2_true {nests : List Dig} (h : verify2 env e m nests = .ok true) :
    ∃ v, ipexVerb m.route = some v ∧ artifacts m nests v = true ∧ Fits ipexVerb previous2 e m v := by
  unfold verify2 at h
  cases hv : ipexVerb m.route with
  | none => rw [hv] at h; exact absurd h (by simp)
  | some v =>
    rw [hv] at h
    dsimp only at h
    refine ⟨v, rfl, ?_⟩
    split at h
    · exact absurd h (by simp)
    · by_cases ha : artifacts m nests v = true
      · refine ⟨ha, ?_⟩
        rw [if_neg (by simp [ha])] at h
        cases hp : m.prior with
        | none =>
          rw [hp] at h
          refine Or.inl ⟨hp, ?_⟩
          cases v <;> simp at h ⊢
        | some d =>
          rw [hp] at h
          have h' : answers env e d (fun r => match ipexVerb r with | some p => decide (p ∈ previous2 v) | none => false) = .ok true := by
            cases v <;> first | exact h | exact absurd h (by simp)
          obtain ⟨p, h1, h2, h3⟩ := answers_true h'
          obtain ⟨w, h4, h5⟩ := right_kind (kind := ipexVerb) h2
          exact Or.inr ⟨d, p, w, hp, h1, h4, h5, h3⟩
      · rw [if_pos (by simpa using ha)] at h
        exact absurd h (by simp)

theorem verify2_attr {nests : List Dig} : verify2 env e m nests ≠ .error .attribute := by
  unfold verify2
  intro h
  split at h
  · exact absurd h (by simp)
  · split at h
    · exact absurd h (by simp)
    · split at h
      · exact absurd h (by simp)
      · split at h <;> first | exact absurd h (by simp) | exact answers_attr h

theorem vet_true {h : Handler} {f : Env → Exc → Msg → List Dig → Except Err Bool} {nests : List Dig} (hf : h.verify = some f)
    (ha : f env e m nests ≠ .error .attribute) (hv : vet (some h) env e m nests = .ok true) : f env e m nests = .ok true := by
  unfold vet at hv
  dsimp only at hv
  rw [hf] at hv
  dsimp only at hv
  cases hx : f env e m nests with
  | ok b => rw [hx] at hv; exact hv
  | error x =>
    rw [hx] at hv
    cases x
    all_goals first | exact absurd hx ha | exact absurd hv (by simp)

/-! ## Histories -/

/-- The handlers of both versions, as far as conversations go. -/
structure Judge (routes : Routes) (kind : List Char → Option Verb) (prev : Verb → List Verb) : Prop where
  fits : ∀ env e m nests v, ipexVerb m.route = some v → vet (routes m.route) env e m nests = .ok true → Fits kind prev e m v

theorem judge1 {routes : Routes} (h : Uses routes ipex1) : Judge routes (fun r => verbOf (basename r)) previous1 := by
  refine ⟨fun env e m nests v hv ht => ?_⟩
  rw [h _ v hv] at ht
  obtain ⟨w, h1, h2⟩ := verify1_true (vet_true (f := verify1) rfl verify1_attr ht)
  rw [hv] at h1
  exact (Option.some.inj h1) ▸ h2

theorem judge2 {routes : Routes} (h : Uses routes ipex2) : Judge routes ipexVerb previous2 := by
  refine ⟨fun env e m nests v hv ht => ?_⟩
  rw [h _ v hv] at ht
  obtain ⟨w, h1, _, h2⟩ := verify2_true (vet_true (f := verify2) rfl verify2_attr ht)
  rw [hv] at h1
  exact (Option.some.inj h1) ▸ h2

/-- A message saved before. -/
structure InvP (kind : List Char → Option Verb) (prev : Verb → List Verb) (_ : List Step) (e : Exc) : Prop where
  said : ∀ d m, e.exns.get d = some m → m.said = d
  epse : ∀ x ∈ e.epse, x.2.said = x.1
  reply : ∀ d m p, e.exns.get d = some m → m.prior = some p → ∃ r, e.erpy.get p = some r ∧ (e.exns.get r).isSome
  one : ∀ d m d' m' v v' p, e.exns.get d = some m → e.exns.get d' = some m' → ipexVerb m.route = some v → ipexVerb m'.route = some v' →
    m.prior = some p → m'.prior = some p → m = m'
  chain : ∀ d m v, e.exns.get d = some m → ipexVerb m.route = some v → (m.prior = none ∧ v ∈ [Verb.apply, .offer, .grant]) ∨
    ∃ p w, m.prior = some p.said ∧ e.exns.get p.said = some p ∧ kind p.route = some w ∧ w ∈ prev v
  once : ∀ m v p, ipexVerb m.route = some v → m.prior = some p → e.acts.count (.handled m) ≤ 1 ∧
    (Act.handled m ∈ e.acts → ∃ r, e.erpy.get p = some r ∧ (e.exns.get r).isSome)

theorem get_put_some {t : Tab Dig Msg} {k d : Dig} {x y : Msg} (h : (t.put k x).get d = some y) : t.get d = some y ∨ (d = k ∧ y = x ∧ t.get k = none) := by
  rw [get_put] at h
  split at h
  · rename_i h1
    exact Or.inr ⟨h1.1.symm, (Option.some.inj h).symm, h1.2⟩
  · exact Or.inl h

theorem get_put_keep {t : Tab Dig Msg} {k d : Dig} {x y : Msg} (h : t.get d = some y) : (t.put k x).get d = some y := by
  rw [get_put, if_neg]
  · exact h
  · rintro ⟨rfl, h2⟩
    rw [h] at h2
    exact absurd h2 (by simp)

variable {routes : Routes} {now : Int} {kind : List Char → Option Verb} {prev : Verb → List Verb}

theorem proc_invP (hj : Judge routes kind prev) {l : List Step} {e' : Exc} {r : Except Err Unit} (h : InvP kind prev l e) (hp : Proc routes env now e m a e' r) :
    InvP kind prev l e' := by
  cases hp with
  | drop r => exact h
  | wait acts hq =>
    refine ⟨h.said, ?_, h.reply, h.one, h.chain, ?_⟩
    · intro x hx
      rcases mem_put hx with h1 | h1
      · exact h.epse x h1
      · subst h1; rfl
    · intro x v p h1 h2
      have hno : Act.handled x ∉ acts := fun hin => by
        obtain ⟨p, n, h3⟩ := hq _ hin
        exact absurd h3 (by simp)
      obtain ⟨h3, h4⟩ := h.once x v p h1 h2
      refine ⟨?_, fun hin => h4 ((List.mem_append.1 hin).resolve_right hno)⟩
      show (e.acts ++ acts).count _ ≤ 1
      rw [List.count_append, List.count_eq_zero.2 hno]
      exact h3
  | save acts r _ _ hv hacts =>
    have hfree : ∀ v p, ipexVerb m.route = some v → m.prior = some p → ∀ d x, e.exns.get d = some x → x.prior ≠ some p := by
      intro v p h1 h2 d x hx hx2
      rcases hj.fits _ _ _ _ v h1 hv with ⟨h3, _⟩ | ⟨d', q, w, h3, h4, _, _, h5⟩
      · rw [h2] at h3; exact absurd h3 (by simp)
      · rw [h2] at h3
        obtain rfl := Option.some.inj h3
        obtain ⟨r, h6, h7⟩ := h.reply d x p hx hx2
        rw [← h.said _ _ h4] at h6
        rw [h5 r h6] at h7
        exact absurd h7 (by simp)
    have hfree2 : ∀ v p, ipexVerb m.route = some v → m.prior = some p → Act.handled m ∉ e.acts := by
      intro v p h1 h2 hin
      rcases hj.fits _ _ _ _ v h1 hv with ⟨h3, _⟩ | ⟨d', q, w, h3, h4, _, _, h5⟩
      · rw [h2] at h3; exact absurd h3 (by simp)
      · rw [h2] at h3
        obtain rfl := Option.some.inj h3
        obtain ⟨r, h6, h7⟩ := (h.once m v p h1 h2).2 hin
        rw [← h.said _ _ h4] at h6
        rw [h5 r h6] at h7
        exact absurd h7 (by simp)
    refine ⟨?_, h.epse, ?_, ?_, ?_, ?_⟩
    · intro d x hx
      rcases get_put_some hx with h1 | ⟨h1, h2, _⟩
      · exact h.said d x h1
      · rw [h1, h2]
    · intro d x p hx hxp
      have hsome : ∀ y, (e.exns.get y).isSome → ((e.exns.put m.said m).get y).isSome := fun y hy => isSome_put hy
      show ∃ r, (match m.prior with | some p => e.erpy.pin p m.said | none => e.erpy).get p = some r ∧ _
      cases hm : m.prior with
      | none =>
        dsimp only
        rcases get_put_some hx with h1 | ⟨h1, h2, _⟩
        · obtain ⟨r, h3, h4⟩ := h.reply d x p h1 hxp
          exact ⟨r, h3, hsome r h4⟩
        · rw [h2, hm] at hxp; exact absurd hxp (by simp)
      | some q =>
        dsimp only
        rw [get_pin]
        by_cases hq : q = p
        · exact ⟨m.said, if_pos hq, isSome_put_self⟩
        · rw [if_neg hq]
          rcases get_put_some hx with h1 | ⟨h1, h2, _⟩
          · obtain ⟨r, h3, h4⟩ := h.reply d x p h1 hxp
            exact ⟨r, h3, hsome r h4⟩
          · rw [h2, hm] at hxp; exact absurd (Option.some.inj hxp) hq
    · intro d x d' x' v v' p hx hx' hxv hxv' hxp hxp'
      rcases get_put_some hx with h1 | ⟨h1, h2, _⟩ <;> rcases get_put_some hx' with h1' | ⟨h1', h2', _⟩
      · exact h.one d x d' x' v v' p h1 h1' hxv hxv' hxp hxp'
      · subst h2'
        exact absurd hxp (hfree v' p hxv' hxp' d x h1)
      · subst h2
        exact absurd hxp' (hfree v p hxv hxp d' x' h1')
      · rw [h2, h2']
    · intro d x v hx hxv
      rcases get_put_some hx with h1 | ⟨h1, h2, _⟩
      · rcases h.chain d x v h1 hxv with h3 | ⟨p, w, h3, h4, h5⟩
        · exact Or.inl h3
        · exact Or.inr ⟨p, w, h3, get_put_keep h4, h5⟩
      · subst h2
        rcases hj.fits _ _ _ _ v hxv hv with h3 | ⟨d', q, w, h3, h4, h5, h6, _⟩
        · exact Or.inl h3
        · have h7 := h.said _ _ h4
          refine Or.inr ⟨q, w, by rw [h7]; exact h3, ?_, h5, h6⟩
          rw [h7]
          exact get_put_keep h4
    · intro x v p h1 h2
      obtain ⟨h3, h4⟩ := h.once x v p h1 h2
      have hkeep : (∃ r, e.erpy.get p = some r ∧ (e.exns.get r).isSome) → ∃ r, (log e m a).erpy.get p = some r ∧ ((log e m a).exns.get r).isSome := by
        rintro ⟨r, h5, h6⟩
        dsimp only [log]
        cases hm : m.prior with
        | none => exact ⟨r, h5, isSome_put h6⟩
        | some q =>
          dsimp only
          rw [get_pin]
          by_cases hq : q = p
          · exact ⟨m.said, if_pos hq, isSome_put_self⟩
          · exact ⟨r, by rw [if_neg hq]; exact h5, isSome_put h6⟩
      show (e.acts ++ [Act.saved m.said] ++ acts).count _ ≤ 1 ∧ (Act.handled x ∈ e.acts ++ [Act.saved m.said] ++ acts → ∃ r, (log e m a).erpy.get p = some r ∧ ((log e m a).exns.get r).isSome)
      rcases hacts with rfl | ⟨rfl, _⟩
      · refine ⟨?_, fun hin => hkeep (h4 ?_)⟩
        · simpa using h3
        · simpa using hin
      · by_cases hx : x = m
        · subst hx
          refine ⟨?_, fun _ => ⟨x.said, ?_, isSome_put_self⟩⟩
          · have := List.count_eq_zero.2 (hfree2 v p h1 h2)
            simp [this]
          · dsimp only [log]
            rw [h2]
            dsimp only
            rw [get_pin, if_pos rfl]
        · have hne : ¬ Act.handled m = Act.handled x := fun hc => hx (by injection hc with hc; exact hc.symm)
          refine ⟨?_, fun hin => hkeep (h4 ?_)⟩
          · simpa [hne] using h3
          · simp only [List.mem_append, List.mem_singleton] at hin
            rcases hin with (h5 | h5) | h5
            · exact h5
            · exact absurd h5 (by simp)
            · exact absurd h5.symm hne

theorem unescrow_invP {l : List Step} (d : Dig) (h : InvP kind prev l e) : InvP kind prev l (unescrow e d) := by
  obtain ⟨h1, h2, _, _, _, h6, h7, _⟩ := unescrow_frame e d
  refine ⟨?_, fun x hx => h.epse x (mem_rem (h7 ▸ hx)), ?_, ?_, ?_, ?_⟩
  · rw [h1]; exact h.said
  · rw [h1, h2]; exact h.reply
  · rw [h1]; exact h.one
  · rw [h1]; exact h.chain
  · rw [h1, h2, h6]; exact h.once

theorem run_invP (hj : Judge routes kind prev) (l : List Step) : InvP kind prev l (run routes l) := by
  refine run_inv (P := InvP kind prev) ?_ (fun l s e h => ⟨h.said, h.epse, h.reply, h.one, h.chain, h.once⟩) ?_ ?_ (fun l e d h => unescrow_invP d h) l
  · exact ⟨by simp [Tab.get], by simp, by simp [Tab.get], by simp [Tab.get], by simp [Tab.get], by simp⟩
  · intro l e env now m a h
    exact proc_invP hj h process_proc
  · intro l e0 e env now d m _ _ h
    exact proc_invP hj h process_proc

/-! ## Threads -/

/-- The ways to a verb. -/
def waysTo (spurned : List Verb) : Verb → List (List Verb)
  | .apply => [[.apply]]
  | .offer => [[.offer], [.apply, .offer]]
  | .agree => [[.offer, .agree], [.apply, .offer, .agree]]
  | .grant => [[.grant], [.offer, .agree, .grant], [.apply, .offer, .agree, .grant]]
  | .admit => [[.grant, .admit], [.offer, .agree, .grant, .admit], [.apply, .offer, .agree, .grant, .admit]]
  | .spurn => spurned.flatMap (fun w => match w with
    | .apply => [[.apply, .spurn]]
    | .offer => [[.offer, .spurn], [.apply, .offer, .spurn]]
    | .agree => [[.offer, .agree, .spurn], [.apply, .offer, .agree, .spurn]]
    | .grant => [[.grant, .spurn], [.offer, .agree, .grant, .spurn], [.apply, .offer, .agree, .grant, .spurn]]
    | _ => [])

def rank : Verb → Nat
  | .apply => 0
  | .offer => 1
  | .agree => 2
  | .grant => 3
  | .admit => 4
  | .spurn => 4

/-- The table of predecessors leads only these ways. -/
structure Leads (prev : Verb → List Verb) (spurned : List Verb) : Prop where
  opening : ∀ v ∈ [Verb.apply, .offer, .grant], [v] ∈ waysTo spurned v
  next : ∀ v, ∀ w ∈ prev v, rank w < rank v ∧ ∀ us ∈ waysTo spurned w, us ++ [v] ∈ waysTo spurned v
  legal : ∀ v, ∀ us ∈ waysTo spurned v, Legal spurned us

theorem leads1 : Leads previous1 [.apply, .offer, .agree, .grant] := by
  refine ⟨by decide, ?_, ?_⟩
  · intro v; cases v <;> decide
  · intro v; unfold Legal; cases v <;> decide

theorem leads2 : Leads previous2 [.apply, .offer, .agree] := by
  refine ⟨by decide, ?_, ?_⟩
  · intro v; cases v <;> decide
  · intro v; unfold Legal; cases v <;> decide

theorem thread_of {spurned : List Verb} (hl : Leads prev spurned) {l : List Step} (h : InvP kind prev l e)
    (hk : ∀ d p w, e.exns.get d = some p → kind p.route = some w → ipexVerb p.route = some w) :
    ∀ (n : Nat) (v : Verb) (d : Dig) (m : Msg), rank v ≤ n → e.exns.get d = some m → ipexVerb m.route = some v →
      ∃ ms vs, Thread e.exns.get (m :: ms) ∧ Speaks (m :: ms) vs ∧ vs ∈ waysTo spurned v := by
  intro n
  induction n with
  | zero =>
    intro v d m hn hm hv
    rcases h.chain d m v hm hv with ⟨h1, h2⟩ | ⟨p, w, _, _, _, h2⟩
    · refine ⟨[], [v], ⟨?_, h1⟩, by simp [Speaks, hv], hl.opening v h2⟩
      rw [h.said d m hm]; exact hm
    · exact absurd (hl.next v w h2).1 (by omega)
  | succ n ih =>
    intro v d m hn hm hv
    have hs : e.exns.get m.said = some m := by rw [h.said d m hm]; exact hm
    rcases h.chain d m v hm hv with ⟨h1, h2⟩ | ⟨p, w, h1, h2, h3, h4⟩
    · exact ⟨[], [v], ⟨hs, h1⟩, by simp [Speaks, hv], hl.opening v h2⟩
    · have hw := hk _ _ _ h2 h3
      have hr := (hl.next v w h4).1
      obtain ⟨ms, vs, h5, h6, h7⟩ := ih w p.said p (by omega) h2 hw
      refine ⟨p :: ms, vs ++ [v], ⟨hs, h1, h5⟩, ?_, (hl.next v w h4).2 vs h7⟩
      unfold Speaks at h6 ⊢
      rw [List.reverse_cons, List.map_append, h6, List.map_append]
      simp [hv]

/-- **C103** Every saved message of the protocol ends a thread of saved messages, each the answer to the one before, which goes one of the ways of the
protocol from its beginning, or is spurned on the way (second version; a grant cannot be spurned). -/
theorem c103_thread2 (hu : Uses routes ipex2) (l : List Step) {d : Dig} {m : Msg} {v : Verb} (h : (run routes l).exns.get d = some m)
    (hv : ipexVerb m.route = some v) :
    ∃ ms vs, Thread (run routes l).exns.get (m :: ms) ∧ Speaks (m :: ms) vs ∧ Legal [.apply, .offer, .agree] vs := by
  obtain ⟨ms, vs, h1, h2, h3⟩ := thread_of leads2 (run_invP (judge2 hu) l) (fun _ _ _ _ h => h) _ v d m (Nat.le_refl _) h hv
  exact ⟨ms, vs, h1, h2, leads2.legal v vs h3⟩

/-- **C103** The same of the first version, where a grant can be spurned, if the routes of other messages do not end in a verb of the protocol. -/
theorem c103_thread1_partial (hu : Uses routes ipex1) (l : List Step) (ht : Tidy l) {d : Dig} {m : Msg} {v : Verb}
    (h : (run routes l).exns.get d = some m) (hv : ipexVerb m.route = some v) :
    ∃ ms vs, Thread (run routes l).exns.get (m :: ms) ∧ Speaks (m :: ms) vs ∧ Legal [.apply, .offer, .agree, .grant] vs := by
  obtain ⟨ms, vs, h1, h2, h3⟩ := thread_of leads1 (run_invP (judge1 hu) l) (fun d p w hp hw => by
    obtain ⟨_, l1, x, l2, h1, ⟨a, h2⟩, _⟩ := c101_saved routes l d p hp
    obtain ⟨env, now, h2⟩ := h2
    refine ht p a w ⟨env, now, ?_⟩ hw
    rw [h1]
    rcases List.mem_append.1 h2 with h3 | h3
    · exact List.mem_append_left _ h3
    · exact List.mem_append_right _ (List.mem_cons.2 (Or.inl (List.mem_singleton.1 h3)))) _ v d m (Nat.le_refl _) h hv
  exact ⟨ms, vs, h1, h2, leads1.legal v vs h3⟩

/-- The first handler judges routes by their last part; routes of the protocol are judged right. -/
theorem basename_ipex {r : List Char} {v : Verb} (h : ipexVerb r = some v) : verbOf (basename r) = some v := by
  unfold ipexVerb at h
  split at h
  · rename_i a b w hs
    split at h
    · rename_i hc
      have hb : basename r = w := by
        unfold basename
        dsimp only
        rw [hs, hc.1, hc.2]
        have hw : w ≠ [] ∧ w ≠ ['.'] ∧ w ≠ ['.', '.'] := by
          refine ⟨?_, ?_, ?_⟩ <;> (rintro rfl; exact absurd h (by cases v <;> decide))
        simp [normParts, hw]
      rw [hb]
      exact h
    · exact absurd h (by simp)
  · exact absurd h (by simp)

/-- **C104** A message has at most one saved answer in the protocol (second version). -/
theorem c104_one2 (hu : Uses routes ipex2) (l : List Step) {d d' p : Dig} {m m' : Msg} {v v' : Verb} (h : (run routes l).exns.get d = some m)
    (h' : (run routes l).exns.get d' = some m') (hv : ipexVerb m.route = some v) (hv' : ipexVerb m'.route = some v') (hp : m.prior = some p)
    (hp' : m'.prior = some p) : m = m' :=
  (run_invP (judge2 hu) l).one _ _ _ _ _ _ _ h h' hv hv' hp hp'

/-- **C104** A message has at most one saved answer in the protocol (first version). -/
theorem c104_one1 (hu : Uses routes ipex1) (l : List Step) {d d' p : Dig} {m m' : Msg} {v v' : Verb} (h : (run routes l).exns.get d = some m)
    (h' : (run routes l).exns.get d' = some m') (hv : ipexVerb m.route = some v) (hv' : ipexVerb m'.route = some v') (hp : m.prior = some p)
    (hp' : m'.prior = some p) : m = m' :=
  (run_invP (judge1 hu) l).one _ _ _ _ _ _ _ h h' hv hv' hp hp'

/-- **C102** An answer in the protocol is given to its handler at most once, however often it comes (second version). -/
theorem c102_once2 (hu : Uses routes ipex2) (l : List Step) {m : Msg} {v : Verb} {p : Dig} (hv : ipexVerb m.route = some v) (hp : m.prior = some p) :
    (run routes l).acts.count (.handled m) ≤ 1 := ((run_invP (judge2 hu) l).once m v p hv hp).1

/-- **C102** An answer in the protocol is given to its handler at most once, however often it comes (first version). -/
theorem c102_once1 (hu : Uses routes ipex1) (l : List Step) {m : Msg} {v : Verb} {p : Dig} (hv : ipexVerb m.route = some v) (hp : m.prior = some p) :
    (run routes l).acts.count (.handled m) ≤ 1 := ((run_invP (judge1 hu) l).once m v p hv hp).1

end Verif.Exc
