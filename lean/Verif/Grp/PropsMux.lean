import Verif.Grp.MuxSpec

/-!
# What is replayed, and that all of it is (C144 to C146)
-/

namespace Verif.Mux

open Verif.Kel (Id Dig upd)

theorem applyAll_append {w : World} {a b : List Wr} : w.applyAll (a ++ b) = (w.applyAll a).applyAll b := by simp [World.applyAll, List.foldl_append]

theorem mem_ioAdd {α} [DecidableEq α] {l : List α} {x y : α} : y ∈ ioAdd l x ↔ y = x ∨ y ∈ l := by
  unfold ioAdd
  split
  · rename_i h; constructor
    · exact .inr
    · rintro (rfl | h')
      · exact h
      · exact h'
  · simp; constructor <;> (intro h; rcases h with h | h <;> simp [h])

theorem validate_names {env : Env} {b : Body} {nests : List Child} {d : Dig} (h : validate env b nests = .names d) :
    b.proposal = some d ∧ takesPart env b = true ∧ (b.v2 = true → ∃ c, nests = [c] ∧ c.said = d ∧ env.digest c.content = d) := by
  unfold validate at h
  split at h
  · rename_i hv
    split at h
    · simp at h
    · rename_i e he
      split at h
      · rename_i ht
        injection h with h; subst h
        exact ⟨by simp [Body.proposal, hv, he], ht, by simp [hv]⟩
      · simp at h
  · rename_i hv
    split at h
    · rename_i c
      split at h
      · simp at h
      split at h
      · simp at h
      rename_i s hs
      split at h
      · simp at h
      split at h
      · simp at h
      rename_i hc
      split at h
      · rename_i ht
        injection h with h; subst h
        simp only [Bool.or_eq_true, Bool.not_eq_true', decide_eq_false_iff_not, not_or, Bool.not_eq_false, Decidable.not_not, Child.sound, decide_eq_true_eq] at hc
        exact ⟨by simp [Body.proposal, hv, hs], ht, fun _ => ⟨c, rfl, hc.2, hc.1.trans hc.2⟩⟩
      · simp at h
    · simp at h

/-! ## C144 -/

/-- A message of the inputs that wraps `c`, and what it proposes. -/
def Wraps (env : Env) (is : List Inp) (c : Child) (d : Dig) (b : Body) : Prop :=
  ∃ nests, Came is b nests ∧ b.proposal = some d ∧ (c ∈ nests ∨ c ∈ b.kids) ∧ (b.v2 = true → c.said = d ∧ env.digest c.content = d)

structure Inv (env : Env) (is : List Inp) (w : World) : Prop where
  exns : ∀ x b, w.exns x = some b → b.said = x ∧ ∃ n, Came is b n
  enst : ∀ x, ∀ c ∈ w.enst x, ∃ b n d, Came is b n ∧ b.said = x ∧ b.proposal = some d ∧ c ∈ n ∧ (b.v2 = true → c.said = d ∧ env.digest c.content = d)
  meids : ∀ d, ∀ x ∈ w.meids d, ∃ b n, Came is b n ∧ b.said = x ∧ b.proposal = some d ∧ (b.v2 = true → w.enst x ≠ [])
  maids : ∀ d, ∀ p ∈ w.maids d, ∃ b n, Came is b n ∧ b.sender = p ∧ b.proposal = some d
  replayed : ∀ c ∈ w.replayed, ∃ d b, Wraps env is c d b ∧ Approved env is d

theorem Came.mono {is : List Inp} {b : Body} {n : List Child} (h : Came is b n) (js : List Inp) : Came (is ++ js) b n := by
  obtain ⟨i, hi, hb⟩ := h; exact ⟨i, List.mem_append_left _ hi, hb⟩

theorem Inv.mono {env : Env} {is : List Inp} {w : World} (h : Inv env is w) (js : List Inp) : Inv env (is ++ js) w where
  exns x b hx := by obtain ⟨h1, n, h2⟩ := h.exns x b hx; exact ⟨h1, n, h2.mono js⟩
  enst x c hc := by obtain ⟨b, n, d, h1, h2⟩ := h.enst x c hc; exact ⟨b, n, d, h1.mono js, h2⟩
  meids d x hx := by obtain ⟨b, n, h1, h2⟩ := h.meids d x hx; exact ⟨b, n, h1.mono js, h2⟩
  maids d x hx := by obtain ⟨b, n, h1, h2⟩ := h.maids d x hx; exact ⟨b, n, h1.mono js, h2⟩
  replayed c hc := by
    obtain ⟨d, b, ⟨n, h1, h2⟩, b', n', h3, h4⟩ := h.replayed c hc
    exact ⟨d, b, ⟨n, h1.mono js, h2⟩, b', n', h3.mono js, h4⟩

/-- Writes that are all right. -/
def Wr.fine (env : Env) (is : List Inp) (w0 : World) : Wr → Prop
  | .enstPin _ _ => False
  | .exnsPut b => ∃ n, Came is b n
  | .replay c => ∃ d b, Wraps env is c d b ∧ Approved env is d
  | .note _ => True
  | .meidsAdd d x => ∃ b n, Came is b n ∧ b.said = x ∧ b.proposal = some d ∧ (b.v2 = true → w0.enst x ≠ [])
  | .maidsAdd d p => ∃ b n, Came is b n ∧ b.sender = p ∧ b.proposal = some d

theorem Inv.apply {env : Env} {is : List Inp} {w0 w : World} (h : Inv env is w) (h0 : w.enst = w0.enst) {z : Wr} (hz : z.fine env is w0) :
    Inv env is (w.apply z) ∧ (w.apply z).enst = w0.enst := by
  cases z with
  | enstPin d l => exact hz.elim
  | exnsPut b =>
    simp only [World.apply]
    split
    · refine ⟨⟨fun x b' hx => ?_, h.enst, h.meids, h.maids, h.replayed⟩, h0⟩
      simp only [upd] at hx
      split at hx
      · rename_i he; injection hx with hx; subst hx; exact ⟨he.symm, hz⟩
      · exact h.exns x b' hx
    · exact ⟨h, h0⟩
  | replay c =>
    refine ⟨⟨h.exns, h.enst, h.meids, h.maids, fun c' hc => ?_⟩, h0⟩
    rcases List.mem_append.1 hc with hc | hc
    · exact h.replayed c' hc
    · simp only [List.mem_cons, List.not_mem_nil, or_false] at hc; subst hc; exact hz
  | note n => exact ⟨⟨h.exns, h.enst, h.meids, h.maids, h.replayed⟩, h0⟩
  | meidsAdd d x =>
    refine ⟨⟨h.exns, h.enst, fun d' x' hx => ?_, h.maids, h.replayed⟩, h0⟩
    simp only [World.apply, upd] at hx
    split at hx
    · rename_i he; subst he
      rcases mem_ioAdd.1 hx with rfl | hx
      · obtain ⟨b, n, h1, h2, h3, h4⟩ := hz
        exact ⟨b, n, h1, h2, h3, by show _ → w.enst _ ≠ []; rw [h0]; exact h4⟩
      · exact h.meids _ _ hx
    · exact h.meids _ _ hx
  | maidsAdd d p =>
    refine ⟨⟨h.exns, h.enst, h.meids, fun d' x' hx => ?_, h.replayed⟩, h0⟩
    simp only [World.apply, upd] at hx
    split at hx
    · rename_i he; subst he
      rcases mem_ioAdd.1 hx with rfl | hx
      · exact hz
      · exact h.maids _ _ hx
    · exact h.maids _ _ hx

theorem Inv.applyAll {env : Env} {is : List Inp} {w0 : World} : ∀ (ws : List Wr) {w : World}, Inv env is w → w.enst = w0.enst → (∀ z ∈ ws, z.fine env is w0) →
    Inv env is (w.applyAll ws)
  | [], _, h, _, _ => h
  | z :: zs, _, h, h0, hz =>
    have := h.apply h0 (hz z List.mem_cons_self)
    Inv.applyAll zs this.1 this.2 fun y hy => hz y (List.mem_cons_of_mem _ hy)

theorem came_eq {is : List Inp} (hd : Distinct is) {b b' : Body} {n n' : List Child} (h : Came is b n) (h' : Came is b' n') (e : b.said = b'.said) : b = b' := hd b n b' n' h h' e

/-- What is replayed for a message. -/
theorem replayKids_mem {env : Env} {l : List Child} {z : Wr} (h : z ∈ (replayKids env l).1) : ∃ c ∈ l, z = .replay c := by
  induction l with
  | nil => simp [replayKids] at h
  | cons c cs ih =>
    unfold replayKids at h
    split at h
    · rcases List.mem_cons.1 h with rfl | h
      · exact ⟨c, List.mem_cons_self, rfl⟩
      · obtain ⟨c', hc, e⟩ := ih h; exact ⟨c', List.mem_cons_of_mem _ hc, e⟩
    · simp at h

theorem replayApproved_fine {env : Env} {is : List Inp} (hd : Distinct is) {w : World} (h : Inv env is w) {x d : Dig} (ha : Approved env is d)
    (hx : ∃ b n, Came is b n ∧ b.said = x ∧ b.proposal = some d ∧ (b.v2 = true → w.enst x ≠ [])) : ∀ z ∈ (replayApproved env w x).1, z.fine env is w := by
  obtain ⟨b, n, hb, hs, hp, hv⟩ := hx
  intro z hz
  unfold replayApproved at hz
  split at hz
  · rename_i c cs he
    obtain ⟨c', hc, rfl⟩ := List.mem_map.1 hz
    obtain ⟨b', n', d', h1, h2, h3, h4, h5⟩ := h.enst x c' (by rw [he]; exact hc)
    obtain rfl := came_eq hd h1 hb (h2.trans hs.symm)
    rw [hp] at h3; injection h3 with h3; subst h3
    exact ⟨d, b', ⟨n', h1, hp, .inl h4, h5⟩, ha⟩
  · rename_i he
    split at hz
    · simp at hz
    · rename_i b' hb'
      obtain ⟨c, hc, rfl⟩ := replayKids_mem hz
      obtain ⟨h1, n', h2⟩ := h.exns x b' hb'
      obtain rfl := came_eq hd h2 hb (h1.trans hs.symm)
      exact ⟨d, b', ⟨n', h2, hp, .inr hc, fun v => absurd he (hv v)⟩, ha⟩

theorem replayAll_fine {env : Env} {is : List Inp} (hd : Distinct is) {w : World} (h : Inv env is w) {d : Dig} (ha : Approved env is d) {l : List Dig}
    (hl : ∀ x ∈ l, x ∈ w.meids d) : ∀ z ∈ (replayAll env w l).1, z.fine env is w := by
  induction l with
  | nil => simp [replayAll]
  | cons x xs ih =>
    have hx := replayApproved_fine hd h ha (h.meids d x (hl x List.mem_cons_self))
    have hr := ih fun y hy => hl y (List.mem_cons_of_mem _ hy)
    intro z hz
    unfold replayAll at hz
    split at hz
    · rename_i ws he; rw [he] at hx; exact hx z hz
    · rename_i ws he
      rw [he] at hx
      rcases List.mem_append.1 hz with hz | hz
      · exact hx z hz
      · exact hr z hz

theorem add_fine {env : Env} {is : List Inp} (hd : Distinct is) {w : World} (h : Inv env is w) {b : Body} {nests : List Child} (hc : Came is b nests)
    (hn : nests ≠ [] → w.enst b.said ≠ []) : ∀ z ∈ (add env w b nests).1, z.fine env is w := by
  unfold add
  split
  · simp
  · simp
  · rename_i d hv
    obtain ⟨hp, _, h2⟩ := validate_names hv
    have hme : ∃ b' n, Came is b' n ∧ b'.said = b.said ∧ b'.proposal = some d ∧ (b'.v2 = true → w.enst b.said ≠ []) :=
      ⟨b, nests, hc, rfl, hp, fun v => hn (by obtain ⟨c, e, _⟩ := h2 v; simp [e])⟩
    have hr : ∀ z ∈ (react env w b d).1, z.fine env is w := by
      unfold react
      split
      · split
        · rename_i ha
          refine replayApproved_fine hd h ?_ hme
          obtain ⟨p, hp, ho⟩ := List.any_eq_true.1 ha
          obtain ⟨b', n', h1, h2, h3⟩ := h.maids d p hp
          exact ⟨b', n', h1, by rw [h2]; exact ho, h3⟩
        · simp [Wr.fine]
      · rename_i ho
        split
        · exact replayAll_fine hd h ⟨b, nests, hc, by simpa using ho, hp⟩ fun x hx => hx
        · simp
    split
    · rename_i ws he; rw [he] at hr; exact hr
    · rename_i ws he
      rw [he] at hr
      intro z hz
      rcases List.mem_append.1 hz with hz | hz
      · exact hr z hz
      · simp only [List.mem_cons, List.not_mem_nil, or_false] at hz
        rcases hz with rfl | rfl
        · exact hme
        · exact ⟨b, nests, hc, rfl, hp⟩

/-- Storing of a message, up to some point. -/
theorem Inv.logged {env : Env} {is : List Inp} {w : World} (h : Inv env is w) {b : Body} {nests : List Child} (hc : Came is b nests)
    (hv : nests = [] ∨ ∃ d, validate env b nests = .names d) (n : Nat) : Inv env is (w.applyAll ((Mux.logged b nests).take n)) := by
  have put : ∀ {w : World} (n : Nat), Inv env is w → Inv env is (w.applyAll (([Wr.exnsPut b]).take n)) := by
    intro w n h
    exact Inv.applyAll (w0 := w) _ h rfl fun z hz => by
      have := List.mem_of_mem_take hz
      simp only [List.mem_cons, List.not_mem_nil, or_false] at this
      subst this; exact ⟨nests, hc⟩
  unfold Mux.logged
  split
  · simpa using put n h
  rename_i hn
  rcases hv with hv | ⟨d, hv⟩
  · exact absurd hv hn
  obtain ⟨hp, _, h2⟩ := validate_names hv
  have h1 : Inv env is (w.apply (.enstPin b.said nests)) := by
    refine ⟨h.exns, fun x c hc' => ?_, fun d' x hx => ?_, h.maids, h.replayed⟩
    · simp only [World.apply, upd] at hc'
      split at hc'
      · rename_i he
        refine ⟨b, nests, d, hc, he.symm, hp, hc', fun v => ?_⟩
        obtain ⟨c', e, h3, h4⟩ := h2 v
        rw [e] at hc'
        simp only [List.mem_cons, List.not_mem_nil, or_false] at hc'
        subst hc'; exact ⟨h3, h4⟩
      · exact h.enst x c hc'
    · obtain ⟨b', n', h3, h4, h5, h6⟩ := h.meids d' x hx
      refine ⟨b', n', h3, h4, h5, fun v => ?_⟩
      simp only [World.apply, upd]
      split
      · exact hn
      · exact h6 v
  cases n with
  | zero => exact h
  | succ n => exact put n h1

theorem logged_enst {w : World} {b : Body} {nests : List Child} (hn : nests ≠ []) : (w.applyAll (logged b nests)).enst b.said ≠ [] := by
  simp only [logged, if_neg hn, World.applyAll, List.cons_append, List.nil_append, List.foldl_cons, List.foldl_nil, World.apply]
  split <;> simpa [upd] using hn

theorem take_append_cases {α} (a b : List α) (n : Nat) : (∃ m, (a ++ b).take n = a.take m) ∨ ∃ m, (a ++ b).take n = a ++ b.take m := by
  rcases Nat.le_total n a.length with h | h
  · exact .inl ⟨n, by rw [List.take_append, Nat.sub_eq_zero_of_le h]; simp⟩
  · exact .inr ⟨n - a.length, by rw [List.take_append, List.take_of_length_le h]⟩

theorem Inv.added {env : Env} {is : List Inp} (hd : Distinct is) {w : World} (h : Inv env is w) {b : Body} {nests : List Child} (hc : Came is b nests)
    (hv : nests = [] ∨ ∃ d, validate env b nests = .names d) (n : Nat) :
    Inv env is (w.applyAll ((Mux.logged b nests ++ (add env (w.applyAll (Mux.logged b nests)) b nests).1).take n)) := by
  rcases take_append_cases (Mux.logged b nests) (add env (w.applyAll (Mux.logged b nests)) b nests).1 n with ⟨m, e⟩ | ⟨m, e⟩
  · rw [e]; exact h.logged hc hv m
  · rw [e, applyAll_append]
    have hl : Inv env is (w.applyAll (Mux.logged b nests)) := by
      have := h.logged hc hv (Mux.logged b nests).length
      rwa [List.take_length] at this
    exact Inv.applyAll _ hl rfl fun z hz => add_fine hd hl hc logged_enst z (List.mem_of_mem_take hz)

theorem Inv.deliver {env : Env} {is : List Inp} (hd : Distinct is) {w : World} (h : Inv env is w) {b : Body} {nests : List Child} (hc : Came is b nests) (n : Nat) :
    Inv env is (w.applyAll ((Mux.deliver env w b nests).1.take n)) := by
  unfold Mux.deliver
  split
  · rename_i d hv; exact h.added hd hc (.inr ⟨d, hv⟩) n
  · rw [List.take_nil]; exact h

theorem Inv.submit {env : Env} {is : List Inp} (hd : Distinct is) {w : World} (h : Inv env is w) {b : Body} (hc : Came is b []) (n : Nat) :
    Inv env is (w.applyAll ((Mux.submit env w b).1.take n)) := by
  unfold Mux.submit
  exact h.added hd hc (.inl rfl) n

theorem Inv.step {env : Env} {is : List Inp} (hd : Distinct is) {w : World} (h : Inv env is w) {i : Inp} (hi : i ∈ is) : Inv env is (w.step env i) := by
  cases i with
  | deliver b n => have := h.deliver (env := env) hd ⟨_, hi, rfl, rfl⟩ (Mux.deliver env w b n).1.length; rwa [List.take_length] at this
  | submit b => have := h.submit (env := env) hd ⟨_, hi, rfl, rfl⟩ (Mux.submit env w b).1.length; rwa [List.take_length] at this
  | crashDeliver b n m => exact h.deliver hd ⟨_, hi, rfl, rfl⟩ m
  | crashSubmit b m => exact h.submit hd ⟨_, hi, rfl, rfl⟩ m

theorem Inv.run {env : Env} {is : List Inp} (hd : Distinct is) : ∀ (js : List Inp) {w : World}, Inv env is w → (∀ i ∈ js, i ∈ is) → Inv env is (run env w js)
  | [], _, h, _ => h
  | i :: js, _, h, hj => Inv.run hd js (h.step hd (hj i List.mem_cons_self)) fun j hm => hj j (List.mem_cons_of_mem _ hm)

theorem Inv.start {env : Env} {is : List Inp} : Inv env is World.start := by
  constructor <;> intros <;> simp_all [World.start]

/-- C144. Only what a message wraps is replayed whose proposal an own identifier has made in a message of its own. If that message is of the second version, what is replayed has
the SAID that was proposed. Full statement: that is so for all messages; those of the first version can wrap anything (`c144_other`), and what is attached to them is signed by
nobody (`c144_attached`). Whatever stops come between. -/
theorem c144_approved_partial {env : Env} {is : List Inp} (hd : Distinct is) {c : Child} (hc : c ∈ (run env World.start is).replayed) :
    ∃ d b nests, Came is b nests ∧ b.proposal = some d ∧ (c ∈ nests ∨ c ∈ b.kids) ∧ (b.v2 = true → c.said = d ∧ env.digest c.content = d) ∧ Approved env is d := by
  obtain ⟨d, b, ⟨n, h1, h2, h3, h4⟩, h5⟩ := (Inv.run (env := env) hd is .start fun _ h => h).replayed c hc
  exact ⟨d, b, n, h1, h2, h3, h4, h5⟩

end Verif.Mux
