import Verif.Grp.PropsMux

/-!
# That all copies of an approved proposal are replayed, and who is told (C145, C146)
-/

namespace Verif.Mux

open Verif.Kel (Id Dig upd)

/-- The inputs have been worked off as far as they are known, and what is approved has been replayed. -/
structure Done (env : Env) (is : List Inp) (w : World) : Prop where
  exns : ∀ x b, w.exns x = some b → b.said = x ∧ ∃ n, Came is b n
  meids : ∀ d, ∀ x ∈ w.meids d, ∃ b, w.exns x = some b ∧ b.proposal = some d ∧ b.sender ∈ w.maids d
  done : ∀ d, anyOwn env (w.maids d) = true → ∀ x ∈ w.meids d, ∀ b, w.exns x = some b → env.own b.sender = false → ∀ c ∈ stored w x, c ∈ w.replayed

theorem replayKids_all {env : Env} {l : List Child} (h : (replayKids env l).2 = true) : (replayKids env l).1 = l.map Wr.replay := by
  induction l with
  | nil => rfl
  | cons c cs ih =>
    unfold replayKids at h ⊢
    split
    · rename_i hc
      rw [if_pos hc] at h
      simp only [List.map_cons, List.cons.injEq, true_and]
      exact ih h
    · rename_i hc; rw [if_neg hc] at h; simp at h

theorem replayApproved_all {env : Env} {w : World} {x : Dig} (h : (replayApproved env w x).2 = true) : (replayApproved env w x).1 = (stored w x).map Wr.replay := by
  unfold replayApproved at h ⊢
  unfold stored
  cases he : w.enst x with
  | cons c cs => rfl
  | nil =>
    rw [he] at h
    simp only at h ⊢
    cases hb : w.exns x with
    | none => rfl
    | some b => rw [hb] at h; exact replayKids_all h

theorem replayAll_all {env : Env} {w : World} {l : List Dig} (h : (replayAll env w l).2 = true) : (replayAll env w l).1 = (l.flatMap (stored w)).map Wr.replay := by
  induction l with
  | nil => rfl
  | cons x xs ih =>
    have hx := replayApproved_all (env := env) (w := w) (x := x)
    unfold replayAll at h ⊢
    cases he : replayApproved env w x with
    | mk ws ok =>
      rw [he] at h hx
      cases ok with
      | false => simp at h
      | true =>
        simp only at h hx ⊢
        rw [hx trivial, ih h]; simp

theorem applyAll_replay {w : World} (l : List Child) : w.applyAll (l.map Wr.replay) = { w with replayed := w.replayed ++ l } := by
  induction l generalizing w with
  | nil => simp [World.applyAll]
  | cons c cs ih =>
    have := ih (w := w.apply (.replay c))
    simp only [World.applyAll, List.map_cons, List.foldl_cons] at this ⊢
    rw [this]
    simp [World.apply]

/-- What a reaction without exception leaves. -/
theorem react_world {env : Env} {w : World} {b : Body} {d : Dig} (h : (react env w b d).2 = true) : ∃ l ns, w.applyAll (react env w b d).1 = { w with replayed := w.replayed ++ l, notes := w.notes ++ ns } ∧
    (env.own b.sender = false → anyOwn env (w.maids d) = true → ∀ c ∈ stored w b.said, c ∈ l) ∧
    (env.own b.sender = true → (∃ p ∈ w.maids d, env.own p = false) → ∀ x ∈ w.meids d, ∀ c ∈ stored w x, c ∈ l) := by
  unfold react at h ⊢
  split
  · rename_i ho
    rw [if_pos ho] at h
    split
    · rename_i ha
      rw [if_pos ha] at h
      refine ⟨stored w b.said, [], ?_, fun _ _ c hc => hc, by simp [ho]⟩
      rw [replayApproved_all h, applyAll_replay]
      simp
    · rename_i ha
      refine ⟨[], [⟨b.route, b.said, if w.meids d = [] then none else some d⟩], ?_, fun _ h => absurd h ha, by simp [ho]⟩
      simp only [World.applyAll, List.foldl_cons, List.foldl_nil, World.apply, List.append_nil]
  · rename_i ho
    rw [if_neg ho] at h
    split
    · rename_i ha
      rw [if_pos ha] at h
      refine ⟨(w.meids d).flatMap (stored w), [], ?_, fun h => absurd h ho, fun _ _ x hx c hc => List.mem_flatMap.2 ⟨x, hx, hc⟩⟩
      rw [replayAll_all h, applyAll_replay]
      simp
    · rename_i ha
      refine ⟨[], [], by simp [World.applyAll], fun h => absurd h ho, fun _ hp x hx => absurd ⟨?_, ?_⟩ ha⟩
      · intro e; rw [e] at hx; cases hx
      · obtain ⟨p, hp, h⟩ := hp; exact List.any_eq_true.2 ⟨p, hp, by simp [h]⟩

/-- A message that has been stored is added. -/
theorem Done.add {env : Env} {is : List Inp} {w : World} (hex : ∀ x b, w.exns x = some b → b.said = x ∧ ∃ n, Came is b n)
    (hme : ∀ d, ∀ x ∈ w.meids d, ∃ b, w.exns x = some b ∧ b.proposal = some d ∧ b.sender ∈ w.maids d) {b : Body} {nests : List Child} (hb : w.exns b.said = some b)
    (hdone : ∀ d, anyOwn env (w.maids d) = true → ∀ x ∈ w.meids d, x ≠ b.said → ∀ b, w.exns x = some b → env.own b.sender = false → ∀ c ∈ stored w x, c ∈ w.replayed)
    {d : Dig} (hv : validate env b nests = .names d) (hok : (Mux.add env w b nests).2 = true) : Done env is (w.applyAll (Mux.add env w b nests).1) := by
  obtain ⟨hp, _, _⟩ := validate_names hv
  have hr := react_world (env := env) (w := w) (b := b) (d := d)
  unfold Mux.add at hok ⊢
  rw [hv] at hok ⊢
  simp only at hok ⊢
  cases he : react env w b d with
  | mk ws ok =>
    rw [he] at hok hr
    cases ok with
    | false => simp at hok
    | true =>
      obtain ⟨l, ns, e1, e2, e3⟩ := hr rfl
      simp only at e1 ⊢
      rw [applyAll_append, e1]
      simp only [World.applyAll, List.foldl_cons, List.foldl_nil, World.apply]
      refine ⟨hex, ?_, ?_⟩
      · intro d' x hx
        simp only [upd] at hx ⊢
        split at hx
        · rename_i hd; subst hd
          rcases mem_ioAdd.1 hx with rfl | hx
          · exact ⟨b, hb, hp, by rw [if_pos rfl]; exact mem_ioAdd.2 (.inl rfl)⟩
          · obtain ⟨b', h1, h2, h3⟩ := hme _ _ hx
            exact ⟨b', h1, h2, by rw [if_pos rfl]; exact mem_ioAdd.2 (.inr h3)⟩
        · rename_i hd
          obtain ⟨b', h1, h2, h3⟩ := hme _ _ hx
          exact ⟨b', h1, h2, by rw [if_neg hd]; exact h3⟩
      · intro d' ha x hx b' hb' ho c hc
        have hc : c ∈ stored w x := hc
        have hb' : w.exns x = some b' := hb'
        refine List.mem_append.2 ?_
        by_cases hxb : x = b.said
        · subst hxb
          obtain rfl : b = b' := Option.some.inj (hb.symm.trans hb')
          have hdd : d' = d := by
            simp only [upd] at hx
            split at hx
            · assumption
            · obtain ⟨b2, h1, h2, _⟩ := hme _ _ hx
              obtain rfl := Option.some.inj (hb.symm.trans h1)
              exact Option.some.inj (h2.symm.trans hp)
          subst hdd
          simp only [upd, if_pos] at ha
          refine .inr (e2 ho ?_ c hc)
          obtain ⟨p, hp', hop⟩ := List.any_eq_true.1 ha
          rcases mem_ioAdd.1 hp' with rfl | hp'
          · rw [ho] at hop; cases hop
          · exact List.any_eq_true.2 ⟨p, hp', hop⟩
        · have hx' : x ∈ w.meids d' := by
            simp only [upd] at hx
            split at hx
            · rename_i hd; subst hd
              rcases mem_ioAdd.1 hx with h | h
              · exact absurd h hxb
              · exact h
            · exact hx
          by_cases hold : anyOwn env (w.maids d') = true
          · exact .inl (hdone d' hold x hx' hxb b' hb' ho c hc)
          · have hdd : d' = d ∧ env.own b.sender = true := by
              simp only [upd] at ha
              split at ha
              · rename_i hd; subst hd
                refine ⟨rfl, ?_⟩
                obtain ⟨p, hp', hop⟩ := List.any_eq_true.1 ha
                rcases mem_ioAdd.1 hp' with rfl | hp'
                · exact hop
                · exact absurd (List.any_eq_true.2 ⟨p, hp', hop⟩) hold
              · exact absurd ha hold
            obtain ⟨rfl, hob⟩ := hdd
            obtain ⟨b2, h1, _, h3⟩ := hme _ _ hx'
            obtain rfl := Option.some.inj (hb'.symm.trans h1)
            exact .inr (e3 hob ⟨_, h3, ho⟩ x hx' c hc)

/-- What is there when a message has been stored. -/
theorem logged_world {is : List Inp} (hd : Distinct is) {w : World} (hex : ∀ x b, w.exns x = some b → b.said = x ∧ ∃ n, Came is b n) {b : Body} {nests : List Child} (hc : Came is b nests) :
    (w.applyAll (logged b nests)).exns = upd w.exns b.said (some b) ∧ (∀ x, x ≠ b.said → (w.applyAll (logged b nests)).enst x = w.enst x) ∧
    (nests = [] → (w.applyAll (logged b nests)).enst = w.enst) ∧
    (w.applyAll (logged b nests)).meids = w.meids ∧ (w.applyAll (logged b nests)).maids = w.maids ∧ (w.applyAll (logged b nests)).replayed = w.replayed := by
  have put : ∀ v : World, v.exns = w.exns → (v.apply (.exnsPut b)).exns = upd w.exns b.said (some b) ∧ (v.apply (.exnsPut b)).enst = v.enst ∧ (v.apply (.exnsPut b)).meids = v.meids ∧
      (v.apply (.exnsPut b)).maids = v.maids ∧ (v.apply (.exnsPut b)).replayed = v.replayed := by
    intro v hv
    simp only [World.apply]
    split
    · exact ⟨by rw [hv], rfl, rfl, rfl, rfl⟩
    · rename_i b' hb'
      rw [hv] at hb'
      refine ⟨?_, rfl, rfl, rfl, rfl⟩
      obtain ⟨h1, n, h2⟩ := hex _ _ hb'
      obtain rfl := came_eq hd h2 hc h1
      rw [hv]
      funext x
      simp only [upd]
      split
      · rename_i e; rw [e]; exact hb'
      · rfl
  unfold logged
  split
  · obtain ⟨h1, h2, h3, h4, h5⟩ := put w rfl
    exact ⟨h1, fun x _ => congrFun h2 x, fun _ => h2, h3, h4, h5⟩
  · rename_i hn
    obtain ⟨h1, h2, h3, h4, h5⟩ := put (w.apply (.enstPin b.said nests)) rfl
    refine ⟨h1, fun x hx => ?_, fun h => absurd h hn, h3, h4, h5⟩
    exact (congrFun h2 x).trans (by simp [World.apply, upd, hx])

theorem Done.added {env : Env} {is : List Inp} (hd : Distinct is) {w : World} (h : Done env is w) {b : Body} {nests : List Child} (hc : Came is b nests) {d : Dig}
    (hv : validate env b nests = .names d) (hok : (Mux.add env (w.applyAll (logged b nests)) b nests).2 = true) :
    Done env is ((w.applyAll (logged b nests)).applyAll (Mux.add env (w.applyAll (logged b nests)) b nests).1) := by
  obtain ⟨l1, l2, _, l3, l4, l5⟩ := logged_world hd h.exns hc
  refine Done.add ?_ ?_ ?_ ?_ hv hok
  · intro x b' hx
    rw [l1] at hx
    simp only [upd] at hx
    split at hx
    · rename_i e; injection hx with hx; subst hx; exact ⟨e.symm, nests, hc⟩
    · exact h.exns x b' hx
  · intro d' x hx
    rw [l3] at hx
    rw [l4, l1]
    obtain ⟨b', h1, h2, h3⟩ := h.meids d' x hx
    refine ⟨b', ?_, h2, h3⟩
    simp only [upd]
    split
    · rename_i e
      obtain ⟨h4, n, h5⟩ := h.exns _ _ h1
      obtain rfl := came_eq hd h5 hc (h4.trans e)
      rfl
    · exact h1
  · rw [l1]; simp [upd]
  · intro d' ha x hx hxb b' hb' ho c hcc
    rw [l4] at ha
    rw [l3] at hx
    rw [l5]
    rw [l1] at hb'
    simp only [upd, if_neg hxb] at hb'
    refine h.done d' ha x hx b' hb' ho c ?_
    unfold stored at hcc ⊢
    rw [l2 x hxb, l1] at hcc
    simp only [upd, if_neg hxb] at hcc
    exact hcc

/-- Only stored. -/
theorem Done.stored {env : Env} {is : List Inp} (hd : Distinct is) {w : World} (h : Done env is w) {b : Body} (hc : Came is b []) : Done env is (w.applyAll (logged b [])) := by
  obtain ⟨l1, _, l2, l3, l4, l5⟩ := logged_world hd h.exns hc
  have l2 := l2 rfl
  have same : ∀ d, ∀ x ∈ w.meids d, (upd w.exns b.said (some b)) x = w.exns x := by
    intro d x hx
    obtain ⟨b', h1, _, _⟩ := h.meids d x hx
    simp only [upd]
    split
    · rename_i e
      obtain ⟨h4, n, h5⟩ := h.exns _ _ h1
      obtain rfl := came_eq hd h5 hc (h4.trans e)
      exact h1.symm
    · rfl
  refine ⟨?_, ?_, ?_⟩
  · intro x b' hx
    rw [l1] at hx
    simp only [upd] at hx
    split at hx
    · rename_i e; injection hx with hx; subst hx; exact ⟨e.symm, [], hc⟩
    · exact h.exns x b' hx
  · intro d x hx
    rw [l3] at hx
    rw [l4, l1, same d x hx]
    exact h.meids d x hx
  · intro d ha x hx b' hb' ho c hcc
    rw [l4] at ha
    rw [l3] at hx
    rw [l1, same d x hx] at hb'
    rw [l5]
    refine h.done d ha x hx b' hb' ho c ?_
    unfold Mux.stored at hcc ⊢
    rw [l2, l1, same d x hx] at hcc
    exact hcc

theorem Done.step {env : Env} {is : List Inp} (hd : Distinct is) {w : World} (h : Done env is w) {i : Inp} (hi : i ∈ is) {js : List Inp} (hs : Smooth env w (i :: js)) :
    Done env is (w.step env i) := by
  cases i with
  | deliver b n =>
    have hs : (Mux.deliver env w b n).2 = true := hs.1
    have hc : Came is b n := ⟨_, hi, rfl, rfl⟩
    show Done env is (w.applyAll (Mux.deliver env w b n).1)
    unfold Mux.deliver at hs ⊢
    split at hs
    · rename_i d hv
      simp only at hs ⊢
      rw [applyAll_append]
      exact h.added hd hc hv hs
    · exact h
  | submit b =>
    have hs : (Mux.submit env w b).2 = true := hs.1.1
    have hc : Came is b [] := ⟨_, hi, rfl, rfl⟩
    show Done env is (w.applyAll (Mux.submit env w b).1)
    unfold Mux.submit at hs ⊢
    simp only at hs ⊢
    rw [applyAll_append]
    cases hv : validate env b [] with
    | names d => exact h.added hd hc hv hs
    | refused => unfold Mux.add; rw [hv]; exact h.stored hd hc
    | nothing => unfold Mux.add; rw [hv]; exact h.stored hd hc
  | crashDeliver b n m => exact hs.1.elim
  | crashSubmit b m => exact hs.1.elim

theorem Done.run {env : Env} {is : List Inp} (hd : Distinct is) : ∀ (js : List Inp) {w : World}, Done env is w → (∀ i ∈ js, i ∈ is) → Smooth env w js → Done env is (run env w js)
  | [], _, h, _, _ => h
  | i :: js, _, h, hj, hs => Done.run hd js (h.step hd (hj i List.mem_cons_self) hs) (fun j hm => hj j (List.mem_cons_of_mem _ hm)) hs.2

theorem Done.start {env : Env} {is : List Inp} : Done env is World.start := by
  constructor <;> intros <;> simp_all [World.start]

/-! What has come is known -/

/-- The message is known under what it proposes. -/
def Known (w : World) (b : Body) (d : Dig) : Prop := b.said ∈ w.meids d ∧ b.sender ∈ w.maids d

theorem Known.apply {w : World} {b : Body} {d : Dig} (h : Known w b d) (z : Wr) : Known (w.apply z) b d := by
  cases z with
  | exnsPut b' => simp only [World.apply]; split <;> exact h
  | meidsAdd d' x =>
    refine ⟨?_, h.2⟩
    simp only [World.apply, upd]
    split
    · rename_i e; subst e; exact mem_ioAdd.2 (.inr h.1)
    · exact h.1
  | maidsAdd d' x =>
    refine ⟨h.1, ?_⟩
    simp only [World.apply, upd]
    split
    · rename_i e; subst e; exact mem_ioAdd.2 (.inr h.2)
    · exact h.2
  | _ => exact h

theorem Known.applyAll {b : Body} {d : Dig} : ∀ (ws : List Wr) {w : World}, Known w b d → Known (w.applyAll ws) b d
  | [], _, h => h
  | z :: zs, _, h => Known.applyAll zs (h.apply z)

theorem known_add {env : Env} {w : World} {b : Body} {nests : List Child} {d : Dig} (hv : validate env b nests = .names d) (hok : (add env w b nests).2 = true) :
    Known (w.applyAll (add env w b nests).1) b d := by
  unfold add at hok ⊢
  rw [hv] at hok ⊢
  simp only at hok ⊢
  cases he : react env w b d with
  | mk ws ok =>
    rw [he] at hok
    cases ok with
    | false => simp at hok
    | true =>
      simp only
      rw [applyAll_append]
      generalize w.applyAll ws = v
      exact ⟨by simp [World.applyAll, World.apply, upd, mem_ioAdd], by simp [World.applyAll, World.apply, upd, mem_ioAdd]⟩

theorem Known.run {env : Env} {b : Body} {d : Dig} : ∀ (js : List Inp) {w : World}, Known w b d → Known (run env w js) b d
  | [], _, h => h
  | i :: js, w, h => Known.run js (show Known (w.step env i) b d by
      cases i <;> exact Known.applyAll _ h)

theorem known_run {env : Env} {b : Body} {nests : List Child} {d : Dig} (hv : validate env b nests = .names d) : ∀ (js : List Inp) {w : World}, Smooth env w js → Came js b nests →
    Known (run env w js) b d
  | [], _, _, hc => by obtain ⟨i, hi, _⟩ := hc; cases hi
  | i :: js, w, hs, hc => by
    obtain ⟨j, hj, hb⟩ := hc
    rcases List.mem_cons.1 hj with rfl | hj
    · refine Known.run js ?_
      cases j with
      | deliver b' n' =>
        obtain ⟨rfl, rfl⟩ := hb
        have hs : (deliver env w b' n').2 = true := hs.1
        show Known (w.applyAll (deliver env w b' n').1) b' d
        unfold deliver at hs ⊢
        rw [hv] at hs ⊢
        simp only at hs ⊢
        rw [applyAll_append]
        exact known_add hv hs
      | submit b' =>
        obtain ⟨rfl, rfl⟩ := hb
        have hs : (submit env w b').2 = true := hs.1.1
        show Known (w.applyAll (submit env w b').1) b' d
        unfold submit at hs ⊢
        simp only at hs ⊢
        rw [applyAll_append]
        exact known_add hv hs
      | crashDeliver b' n' m => exact hs.1.elim
      | crashSubmit b' m => exact hs.1.elim
    · exact known_run hv js hs.2 ⟨j, hj, hb⟩

/-- C145, full statement: when an own identifier has made a proposal and others have sent theirs, what is kept of theirs has been replayed, in whatever order they came. Proved for
inputs that raise no exception and are not interrupted. A message whose block holds what is no message makes the own one fail (`c145_blocked`); a message that is interrupted is not
taken up again (`c145_crash`). -/
theorem c145_all_partial {env : Env} {is : List Inp} (hd : Distinct is) (hs : Smooth env World.start is) {b own : Body} {n n' : List Child} {d : Dig}
    (h1 : Came is b n) (h2 : validate env b n = .names d) (h3 : env.own b.sender = false)
    (h4 : Came is own n') (h5 : validate env own n' = .names d) (h6 : env.own own.sender = true) :
    ∀ c ∈ stored (run env World.start is) b.said, c ∈ (run env World.start is).replayed := by
  have hD := Done.run (env := env) hd is .start (fun _ h => h) hs
  have k1 := known_run h2 is hs h1
  have k2 := known_run h5 is hs h4
  obtain ⟨b', e1, _, _⟩ := hD.meids d _ k1.1
  obtain ⟨e2, m, e3⟩ := hD.exns _ _ e1
  obtain rfl := came_eq hd e3 h1 e2
  exact hD.done d (List.any_eq_true.2 ⟨_, k2.2, h6⟩) _ k1.1 _ e1 h3

theorem enst_noPin : ∀ (ws : List Wr) {w : World}, (∀ z ∈ ws, ∀ d l, z ≠ .enstPin d l) → (w.applyAll ws).enst = w.enst
  | [], _, _ => rfl
  | z :: zs, w, h => by
    refine (enst_noPin zs fun y hy => h y (List.mem_cons_of_mem _ hy)).trans ?_
    cases z with
    | enstPin d l => exact absurd rfl (h _ List.mem_cons_self d l)
    | exnsPut b => simp only [World.apply]; split <;> rfl
    | _ => rfl

theorem replayApproved_noPin {env : Env} {w : World} {x : Dig} : ∀ z ∈ (replayApproved env w x).1, ∀ d l, z ≠ .enstPin d l := by
  intro z hz d l
  unfold replayApproved at hz
  split at hz
  · obtain ⟨c, _, rfl⟩ := List.mem_map.1 hz; simp
  · split at hz
    · cases hz
    · obtain ⟨c, _, rfl⟩ := replayKids_mem hz; simp

theorem replayAll_noPin {env : Env} {w : World} {l : List Dig} : ∀ z ∈ (replayAll env w l).1, ∀ d l, z ≠ .enstPin d l := by
  induction l with
  | nil => simp [replayAll]
  | cons x xs ih =>
    have hx := replayApproved_noPin (env := env) (w := w) (x := x)
    intro z hz
    unfold replayAll at hz
    split at hz
    · rename_i ws he; rw [he] at hx; exact hx z hz
    · rename_i ws he
      rw [he] at hx
      rcases List.mem_append.1 hz with hz | hz
      · exact hx z hz
      · exact ih z hz

theorem add_noPin {env : Env} {w : World} {b : Body} {nests : List Child} : ∀ z ∈ (add env w b nests).1, ∀ d l, z ≠ .enstPin d l := by
  unfold add
  split
  · simp
  · simp
  · rename_i d _
    have hr : ∀ z ∈ (react env w b d).1, ∀ d l, z ≠ .enstPin d l := by
      unfold react
      split
      · split
        · exact replayApproved_noPin
        · simp
      · split
        · exact replayAll_noPin
        · simp
    split
    · rename_i ws he; rw [he] at hr; exact hr
    · rename_i ws he
      rw [he] at hr
      intro z hz
      rcases List.mem_append.1 hz with hz | hz
      · exact hr z hz
      · simp only [List.mem_cons, List.not_mem_nil, or_false] at hz
        rcases hz with rfl | rfl <;> simp

theorem logged_enst_eq {w : World} {b : Body} {nests : List Child} (x : Dig) :
    (w.applyAll (logged b nests)).enst x = if x = b.said ∧ nests ≠ [] then nests else w.enst x := by
  have put : ∀ v : World, (v.apply (.exnsPut b)).enst = v.enst := by intro v; simp only [World.apply]; split <;> rfl
  unfold logged
  split
  · rename_i hn
    simp only [hn, ne_eq, not_true, and_false, if_false]
    exact congrFun (put w) x
  · rename_i hn
    refine (congrFun (put (w.apply (.enstPin b.said nests))) x).trans ?_
    simp [World.apply, upd, hn]

/-- What is attached is stored, and stays unless the message comes again. -/
theorem enst_step {env : Env} {w : World} {i : Inp} {js : List Inp} (hs : Smooth env w (i :: js)) (x : Dig) :
    (w.step env i).enst x = w.enst x ∨ ∃ b n, i.brings b n ∧ b.said = x ∧ n ≠ [] ∧ (w.step env i).enst x = n := by
  cases i with
  | deliver b n =>
    show (w.applyAll (deliver env w b n).1).enst x = w.enst x ∨ ∃ b' n', _ ∧ _ ∧ _ ∧ (w.applyAll (deliver env w b n).1).enst x = n'
    unfold deliver
    split
    · simp only
      rw [applyAll_append, enst_noPin _ add_noPin, logged_enst_eq]
      split
      · rename_i h; exact .inr ⟨b, n, ⟨rfl, rfl⟩, h.1.symm, h.2, rfl⟩
      · exact .inl rfl
    · exact .inl rfl
  | submit b =>
    left
    show (w.applyAll (submit env w b).1).enst x = w.enst x
    unfold submit
    simp only
    rw [applyAll_append, enst_noPin _ add_noPin, logged_enst_eq]
    simp
  | crashDeliver b n m => exact hs.1.elim
  | crashSubmit b m => exact hs.1.elim

theorem enst_deliver {env : Env} {w : World} {b : Body} {n : List Child} {d : Dig} (hv : validate env b n = .names d) (hn : n ≠ []) : (w.step env (.deliver b n)).enst b.said = n := by
  show (w.applyAll (deliver env w b n).1).enst b.said = n
  unfold deliver
  rw [hv]
  simp only
  rw [applyAll_append, enst_noPin _ add_noPin, logged_enst_eq, if_pos ⟨rfl, hn⟩]

/-- C145: what is kept of a message is what was attached to it, else what it wraps, if it always comes with the same attached. -/
theorem c145_stored {env : Env} {is : List Inp} (hd : Distinct is) (hs : Smooth env World.start is) {b : Body} {n : List Child} {d : Dig} (h1 : Came is b n) (h2 : validate env b n = .names d)
    (h3 : ∀ n', Came is b n' → n' = n) : stored (run env World.start is) b.said = if n = [] then b.kids else n := by
  have hD := Done.run (env := env) hd is .start (fun _ h => h) hs
  have k1 := known_run h2 is hs h1
  obtain ⟨b', e1, _, _⟩ := hD.meids d _ k1.1
  obtain ⟨e2, m, e3⟩ := hD.exns _ _ e1
  obtain rfl := came_eq hd e3 h1 e2
  have keep : ∀ (js : List Inp) {w : World}, Smooth env w js → (∀ i ∈ js, i ∈ is) → w.enst b'.said = n → (run env w js).enst b'.said = n := by
    intro js
    induction js with
    | nil => intro w _ _ h; exact h
    | cons i js ih =>
      intro w hs hj hw
      refine ih hs.2 (fun j hm => hj j (List.mem_cons_of_mem _ hm)) ?_
      rcases enst_step hs b'.said with h | ⟨b2, n2, h, e, _, h'⟩
      · exact h.trans hw
      · obtain rfl := came_eq hd (⟨i, hj i List.mem_cons_self, h⟩ : Came is b2 n2) h1 e
        rw [h', h3 n2 ⟨i, hj i List.mem_cons_self, h⟩]
  have all : ∀ (js : List Inp) {w : World}, Smooth env w js → (∀ i ∈ js, i ∈ is) → Came js b' n → n ≠ [] → (run env w js).enst b'.said = n := by
    intro js
    induction js with
    | nil => intro w _ _ h; obtain ⟨i, hi, _⟩ := h; cases hi
    | cons i js ih =>
      intro w hs hj hc hn
      obtain ⟨j, hjm, hb⟩ := hc
      rcases List.mem_cons.1 hjm with rfl | hjm
      · cases j with
        | deliver b2 n2 =>
          obtain ⟨rfl, rfl⟩ := hb
          exact keep js hs.2 (fun j hm => hj j (List.mem_cons_of_mem _ hm)) (enst_deliver h2 hn)
        | submit b2 => exact absurd hb.2 hn
        | crashDeliver b2 n2 m => exact hs.1.elim
        | crashSubmit b2 m => exact hs.1.elim
      · exact ih hs.2 (fun j hm => hj j (List.mem_cons_of_mem _ hm)) ⟨j, hjm, hb⟩ hn
  have he : (run env World.start is).enst b'.said = n := by
    by_cases hn : n = []
    · exact keep is hs (fun _ h => h) (by rw [hn]; rfl)
    · exact all is hs (fun _ h => h) h1 hn
  unfold stored
  rw [he, e1]
  cases n with
  | nil => rfl
  | cons c cs => simp

/-! ## C146 -/

theorem takesPart_says {env : Env} {b : Body} (h : takesPart env b = true) : Invited env b := by
  unfold takesPart at h
  split at h
  · split at h
    · cases h
    · rename_i s hs
      obtain ⟨p, hp, ho⟩ := List.any_eq_true.1 h
      rcases List.mem_append.1 hp with hp | hp
      · exact ⟨p, ho, .inr (.inl ⟨s, hs, hp⟩)⟩
      · cases hr : b.rmids with
        | none => rw [hr] at hp; cases hp
        | some r => rw [hr] at hp; exact ⟨p, ho, .inr (.inr ⟨r, hr, hp⟩)⟩
  · split at h
    · cases h
    · rename_i g hg
      split at h
      · rename_i ho; exact ⟨g, ho, .inl hg⟩
      · split at h
        · rename_i s r hs hr
          obtain ⟨p, hp, ho⟩ := List.any_eq_true.1 h
          rcases List.mem_append.1 hp with hp | hp
          · exact ⟨p, ho, .inr (.inl ⟨s, hs, hp⟩)⟩
          · exact ⟨p, ho, .inr (.inr ⟨r, hr, hp⟩)⟩
        · cases h
  · cases h
  · split at h
    · cases h
    · rename_i g hg; exact ⟨g, h, .inl hg⟩

/-- Notices the inputs give rise to. -/
def Wr.told (env : Env) (is : List Inp) : Wr → Prop
  | .note n => ∃ b nests, Came is b nests ∧ n.said = b.said ∧ n.route = b.route ∧ env.own b.sender = false ∧ Invited env b
  | _ => True

theorem replayKids_told {env : Env} {is : List Inp} {l : List Child} : ∀ z ∈ (replayKids env l).1, z.told env is := by
  intro z hz; obtain ⟨c, _, rfl⟩ := replayKids_mem hz; trivial

theorem replayApproved_told {env : Env} {is : List Inp} {w : World} {x : Dig} : ∀ z ∈ (replayApproved env w x).1, z.told env is := by
  intro z hz
  unfold replayApproved at hz
  split at hz
  · obtain ⟨c, _, rfl⟩ := List.mem_map.1 hz; trivial
  · split at hz
    · cases hz
    · exact replayKids_told z hz

theorem replayAll_told {env : Env} {is : List Inp} {w : World} {l : List Dig} : ∀ z ∈ (replayAll env w l).1, z.told env is := by
  induction l with
  | nil => simp [replayAll]
  | cons x xs ih =>
    have hx := replayApproved_told (env := env) (is := is) (w := w) (x := x)
    intro z hz
    unfold replayAll at hz
    split at hz
    · rename_i ws he; rw [he] at hx; exact hx z hz
    · rename_i ws he
      rw [he] at hx
      rcases List.mem_append.1 hz with hz | hz
      · exact hx z hz
      · exact ih z hz

theorem add_told {env : Env} {is : List Inp} {w : World} {b : Body} {nests : List Child} (hc : Came is b nests) : ∀ z ∈ (add env w b nests).1, z.told env is := by
  unfold add
  split
  · simp
  · simp
  · rename_i d hv
    have hr : ∀ z ∈ (react env w b d).1, z.told env is := by
      unfold react
      split
      · rename_i ho
        split
        · exact replayApproved_told
        · intro z hz
          simp only [List.mem_cons, List.not_mem_nil, or_false] at hz
          subst hz
          exact ⟨b, nests, hc, rfl, rfl, ho, takesPart_says (validate_names hv).2.1⟩
      · split
        · exact replayAll_told
        · simp
    split
    · rename_i ws he; rw [he] at hr; exact hr
    · rename_i ws he
      rw [he] at hr
      intro z hz
      rcases List.mem_append.1 hz with hz | hz
      · exact hr z hz
      · simp only [List.mem_cons, List.not_mem_nil, or_false] at hz
        rcases hz with rfl | rfl <;> trivial

theorem logged_told {env : Env} {is : List Inp} {b : Body} {nests : List Child} : ∀ z ∈ logged b nests, z.told env is := by
  intro z hz
  unfold logged at hz
  split at hz <;> simp at hz
  · subst hz; trivial
  · rcases hz with rfl | rfl <;> trivial

theorem notes_all {env : Env} {is : List Inp} {P : Note → Prop} (hP : ∀ n, (Wr.note n).told env is → P n) : ∀ (ws : List Wr) {w : World}, (∀ z ∈ ws, z.told env is) → (∀ n ∈ w.notes, P n) →
    ∀ n ∈ (w.applyAll ws).notes, P n
  | [], _, _, h => h
  | z :: zs, w, hz, h => by
    refine notes_all hP zs (fun y hy => hz y (List.mem_cons_of_mem _ hy)) ?_
    have hz := hz z List.mem_cons_self
    cases z with
    | note m =>
      intro n hn
      rcases List.mem_append.1 hn with hn | hn
      · exact h n hn
      · simp only [List.mem_cons, List.not_mem_nil, or_false] at hn; subst hn; exact hP _ hz
    | exnsPut b => simp only [World.apply]; split <;> exact h
    | _ => exact h

/-- C146. The controller is told of messages only that came from others and are about a group of an own identifier, or invite one. Whatever stops and exceptions come between. -/
theorem c146_told {env : Env} {is : List Inp} {n : Note} (hn : n ∈ (run env World.start is).notes) :
    ∃ b nests, Came is b nests ∧ n.said = b.said ∧ n.route = b.route ∧ env.own b.sender = false ∧ Invited env b := by
  have hd : ∀ {w : World} {b : Body} {nests : List Child}, Came is b nests → ∀ z ∈ (deliver env w b nests).1, z.told env is := by
    intro w b nests hc z hz
    unfold deliver at hz
    split at hz
    · rcases List.mem_append.1 hz with hz | hz
      · exact logged_told z hz
      · exact add_told hc z hz
    · cases hz
  have hsb : ∀ {w : World} {b : Body}, Came is b [] → ∀ z ∈ (submit env w b).1, z.told env is := by
    intro w b hc z hz
    unfold submit at hz
    rcases List.mem_append.1 hz with hz | hz
    · exact logged_told z hz
    · exact add_told hc z hz
  have all : ∀ (js : List Inp) {w : World}, (∀ i ∈ js, i ∈ is) →
      (∀ n ∈ w.notes, ∃ b nests, Came is b nests ∧ n.said = b.said ∧ n.route = b.route ∧ env.own b.sender = false ∧ Invited env b) →
      ∀ n ∈ (run env w js).notes, ∃ b nests, Came is b nests ∧ n.said = b.said ∧ n.route = b.route ∧ env.own b.sender = false ∧ Invited env b := by
    intro js
    induction js with
    | nil => intro w _ h; exact h
    | cons i js ih =>
      intro w hj h
      refine ih (fun j hm => hj j (List.mem_cons_of_mem _ hm)) ?_
      have hi := hj i List.mem_cons_self
      cases i with
      | deliver b m => exact notes_all (fun _ h => h) _ (hd ⟨_, hi, rfl, rfl⟩) h
      | submit b => exact notes_all (fun _ h => h) _ (hsb ⟨_, hi, rfl, rfl⟩) h
      | crashDeliver b m k => exact notes_all (fun _ h => h) _ (fun z hz => hd ⟨_, hi, rfl, rfl⟩ z (List.mem_of_mem_take hz)) h
      | crashSubmit b k => exact notes_all (fun _ h => h) _ (fun z hz => hsb ⟨_, hi, rfl, rfl⟩ z (List.mem_of_mem_take hz)) h
  exact all is (fun _ h => h) (by simp [World.start]) n hn

/-- C146: of each message from another that is valid and whose proposal no own identifier has made yet. -/
theorem c146_tells {env : Env} {w : World} {b : Body} {nests : List Child} {d : Dig} (hv : validate env b nests = .names d) (ho : env.own b.sender = false)
    (ha : ∀ p ∈ w.maids d, env.own p = false) : ∃ n ∈ (w.step env (.deliver b nests)).notes, n.said = b.said ∧ n.route = b.route := by
  have hl : (w.applyAll (logged b nests)).maids = w.maids := by
    unfold logged
    split
    · simp only [World.applyAll, List.nil_append, List.foldl_cons, List.foldl_nil, World.apply]; split <;> rfl
    · simp only [World.applyAll, List.cons_append, List.nil_append, List.foldl_cons, List.foldl_nil, World.apply]; split <;> rfl
  have hna : ¬ anyOwn env ((w.applyAll (logged b nests)).maids d) = true := by
    rw [hl]
    intro h
    obtain ⟨p, hp, hop⟩ := List.any_eq_true.1 h
    rw [ha p hp] at hop; cases hop
  show ∃ n ∈ (w.applyAll (deliver env w b nests).1).notes, _
  unfold deliver
  rw [hv]
  simp only
  unfold add
  rw [hv]
  simp only
  unfold react
  rw [if_pos ho, if_neg hna]
  simp only
  rw [applyAll_append]
  exact ⟨_, List.mem_append_right _ List.mem_cons_self, rfl, rfl⟩

end Verif.Mux
