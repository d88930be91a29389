import Verif.Note.Model

/-! # Signals to the controller (C206, C207) -/

namespace Verif.Note

/-! ## The queue -/

/-- No two signals of a queue have the same collapse key. -/
def OneEach (q : List Signal) : Prop := q.Pairwise fun x y => x.ckey = none ∨ x.ckey ≠ y.ckey

theorem collapse_none {s : Signal} {q : List Signal} : collapse s q = none ↔ ∀ x, x ∈ q → x.ckey ≠ s.ckey := by
  induction q with
  | nil => simp [collapse]
  | cons x r ih =>
    unfold collapse
    by_cases h : x.ckey = s.ckey
    · simp [h]
    · simp [h, ih]

theorem collapse_some {s : Signal} {q q' : List Signal} (h : collapse s q = some q') :
    ∃ a x b, q = a ++ x :: b ∧ x.ckey = s.ckey ∧ (∀ y, y ∈ a → y.ckey ≠ s.ckey) ∧ q' = a ++ s :: b := by
  induction q generalizing q' with
  | nil => simp [collapse] at h
  | cons x r ih =>
    unfold collapse at h
    by_cases hx : x.ckey = s.ckey
    · rw [if_pos hx] at h
      cases h
      exact ⟨[], x, r, rfl, hx, by simp, rfl⟩
    · rw [if_neg hx] at h
      cases hc : collapse s r with
      | none => simp [hc] at h
      | some q1 =>
        rw [hc] at h
        cases h
        obtain ⟨a, y, b, h1, h2, h3, h4⟩ := ih hc
        refine ⟨x :: a, y, b, by rw [h1]; rfl, h2, ?_, by rw [h4]; rfl⟩
        intro z hz
        rcases List.mem_cons.1 hz with rfl | hz
        · exact hx
        · exact h3 z hz

/-- **C206.** A signal that has a collapse key takes the place of the one queued with that key; any other is put at the end. Nothing else changes. -/
theorem c206_push (q : List Signal) (s : Signal) :
    ((s.ckey = none ∨ ∀ x, x ∈ q → x.ckey ≠ s.ckey) ∧ push q s = (q ++ [s], true)) ∨
    (s.ckey ≠ none ∧ ∃ a x b, q = a ++ x :: b ∧ x.ckey = s.ckey ∧ (∀ y, y ∈ a → y.ckey ≠ s.ckey) ∧ push q s = (a ++ s :: b, false)) := by
  unfold push
  by_cases h : s.ckey = none
  · left; rw [if_pos h]; exact ⟨.inl h, rfl⟩
  · rw [if_neg h]
    cases hc : collapse s q with
    | none => left; exact ⟨.inr (collapse_none.1 hc), rfl⟩
    | some q' =>
      right
      obtain ⟨a, x, b, h1, h2, h3, h4⟩ := collapse_some hc
      exact ⟨h, a, x, b, h1, h2, h3, by rw [h4]⟩

theorem push_one {q : List Signal} (s : Signal) (h : OneEach q) : OneEach (push q s).1 := by
  unfold OneEach at *
  rcases c206_push q s with ⟨h1, h2⟩ | ⟨h0, a, x, b, rfl, h1, h2, h3⟩
  · rw [h2]
    simp only [List.pairwise_append, List.mem_singleton]
    refine ⟨h, by simp, ?_⟩
    intro y hy z hz
    subst hz
    by_cases hk : y.ckey = none
    · exact .inl hk
    · rcases h1 with h1 | h1
      · exact .inr (by rw [h1]; exact hk)
      · exact .inr (h1 y hy)
  · rw [h3]
    simp only [List.pairwise_append, List.pairwise_cons, List.mem_cons, forall_eq_or_imp] at h ⊢
    rw [h1] at h
    exact h

theorem mem_push {q : List Signal} (s x : Signal) (h : OneEach q) :
    x ∈ (push q s).1 ↔ x = s ∨ (x ∈ q ∧ (s.ckey = none ∨ x.ckey ≠ s.ckey)) := by
  rcases c206_push q s with ⟨h1, h2⟩ | ⟨h0, a, y, b, rfl, h1, h2, h3⟩
  · rw [h2]
    simp only [List.mem_append, List.mem_singleton]
    constructor
    · rintro (hx | hx)
      · refine .inr ⟨hx, ?_⟩
        rcases h1 with h1 | h1
        · exact .inl h1
        · exact .inr (h1 x hx)
      · exact .inl hx
    · rintro (hx | hx)
      · exact .inr hx
      · exact .inl hx.1
  · rw [h3]
    unfold OneEach at h
    simp only [List.pairwise_append, List.pairwise_cons] at h
    simp only [List.mem_append, List.mem_cons]
    constructor
    · rintro (hx | rfl | hx)
      · exact .inr ⟨.inl hx, .inr (h2 x hx)⟩
      · exact .inl rfl
      · refine .inr ⟨.inr (.inr hx), .inr ?_⟩
        rcases h.2.1.1 x hx with h' | h'
        · rw [h1] at h'; exact absurd h' h0
        · rw [← h1]; exact fun h'' => h' h''.symm
    · rintro (rfl | ⟨hx | rfl | hx, hk⟩)
      · exact .inr (.inl rfl)
      · exact .inl hx
      · rcases hk with hk | hk
        · exact absurd hk h0
        · exact absurd h1 hk
      · exact .inr (.inr hx)

def queueOf (l : List Signal) : List Signal := l.foldl (fun q s => (push q s).1) []

theorem queueOf_snoc (l : List Signal) (s : Signal) : queueOf (l ++ [s]) = (push (queueOf l) s).1 := by
  simp [queueOf]

theorem snoc_induction {P : List Signal → Prop} (h0 : P []) (h1 : ∀ l s, P l → P (l ++ [s])) (l : List Signal) : P l := by
  have : ∀ m : List Signal, P m.reverse := by
    intro m
    induction m with
    | nil => exact h0
    | cons s m ih => rw [List.reverse_cons]; exact h1 _ _ ih
  have h := this l.reverse
  rwa [List.reverse_reverse] at h

theorem queueOf_one (l : List Signal) : OneEach (queueOf l) :=
  snoc_induction (P := fun l => OneEach (queueOf l)) (by simp [queueOf, OneEach]) (fun l s h => by rw [queueOf_snoc]; exact push_one s h) l

theorem drain_all (q : List Signal) (h : ∀ x, x ∈ q → x.topic ≠ none) : ∀ out, drain q out = ([], .ok (out ++ q)) := by
  induction q with
  | nil => intro out; simp [drain]
  | cons s r ih =>
    intro out
    unfold drain
    cases ht : s.topic with
    | none => exact absurd ht (h s (by simp))
    | some t =>
      simp only
      rw [ih (fun x hx => h x (by simp [hx]))]
      simp

/-- **C206 (partial).** Of the signals pushed since the last delivery, all having a topic, the next delivery sends exactly those without a collapse
key and the last of each collapse key, and leaves nothing queued. Missing: signals without a topic (`c206_no_topic`). -/
theorem c206_delivered_partial (l : List Signal) (ht : ∀ s, s ∈ l → s.topic ≠ none) :
    ∃ out, drain (queueOf l) [] = ([], .ok out) ∧ OneEach out ∧
      ∀ x, x ∈ out ↔ ∃ a b, l = a ++ x :: b ∧ (x.ckey = none ∨ ∀ y, y ∈ b → y.ckey ≠ x.ckey) := by
  have hm : ∀ l : List Signal, ∀ x, x ∈ queueOf l ↔ ∃ a b, l = a ++ x :: b ∧ (x.ckey = none ∨ ∀ y, y ∈ b → y.ckey ≠ x.ckey) := by
    intro l
    induction l using snoc_induction with
    | h0 => intro x; simp [queueOf]
    | h1 l s ih =>
      intro x
      rw [queueOf_snoc, mem_push s x (queueOf_one l), ih]
      constructor
      · rintro (rfl | ⟨⟨a, b, rfl, hb⟩, hk⟩)
        · exact ⟨l, [], rfl, .inr (by simp)⟩
        · refine ⟨a, b ++ [s], by simp, ?_⟩
          rcases hb with hb | hb
          · exact .inl hb
          · by_cases hx : x.ckey = none
            · exact .inl hx
            · refine .inr ?_
              intro y hy
              rcases List.mem_append.1 hy with hy | hy
              · exact hb y hy
              · rw [List.mem_singleton.1 hy]
                rcases hk with hk | hk
                · rw [hk]; exact fun h => hx h.symm
                · exact fun h => hk h.symm
      · rintro ⟨a, b, he, hb⟩
        rcases List.eq_nil_or_concat b with rfl | ⟨b', z, rfl⟩
        · left
          have := congrArg List.getLast? he
          simpa using this.symm
        · right
          rw [List.concat_eq_append] at he hb
          have he' : l ++ [s] = (a ++ x :: b') ++ [z] := by rw [he]; simp
          obtain ⟨h1, h2⟩ := List.append_inj' he' rfl
          have hz : z = s := by simpa using h2.symm
          subst hz
          refine ⟨⟨a, b', h1, ?_⟩, ?_⟩
          · rcases hb with hb | hb
            · exact .inl hb
            · exact .inr fun y hy => hb y (by simp [hy])
          · rcases hb with hb | hb
            · by_cases hs : z.ckey = none
              · exact .inl hs
              · exact .inr (by rw [hb]; exact fun h => hs h.symm)
            · exact .inr fun h => hb z (by simp) h.symm
  refine ⟨queueOf l, ?_, queueOf_one l, hm l⟩
  have := drain_all (queueOf l) (fun x hx => by
    obtain ⟨a, b, rfl, _⟩ := (hm l x).1 hx
    exact ht x (by simp)) []
  simpa using this

def sig (uid : Nat) (topic ckey : Option Nat) (dt data : Nat) : Signal := { uid, topic, ckey, dt, data }

/-- A case: the first of two with one collapse key is replaced where it stands. -/
example : drain (queueOf [sig 1 (some 7) (some 4) 0 10, sig 2 (some 7) none 1 20, sig 3 (some 7) (some 4) 2 30]) [] =
    ([], .ok [sig 3 (some 7) (some 4) 2 30, sig 2 (some 7) none 1 20]) := by decide +kernel

/-- **C206 fails** for notices: all of them are announced under one collapse key (notifying.py:373, 402, 439: `/notification`), whatever the notice
and whatever was done to it. Of two notices added between two deliveries only the last is announced. -/
theorem c206_notices (k : Nat) (s t : Signal) (hs : s.ckey = some k) (ht : t.ckey = some k) (h1 : t.topic ≠ none) :
    drain (queueOf [s, t]) [] = ([], .ok [t]) := by
  have : queueOf [s, t] = [t] := by simp [queueOf, push, collapse, hs, ht]
  rw [this]
  simpa using drain_all [t] (by simpa using h1) []

/-- **C206 fails** without a topic: the delivery raises, and those taken from the queue before are sent to nobody. -/
theorem c206_no_topic : drain (queueOf [sig 1 (some 7) none 0 10, sig 2 none none 1 20, sig 3 (some 7) none 2 30]) [] =
    ([sig 3 (some 7) none 2 30], .error .attributeError) := by decide +kernel

/-! ## C207: expiry -/

theorem removeAll_filter (p : Signal → Bool) (q : List Signal) : ∀ pre, (∀ x, x ∈ pre → p x = false) →
    removeAll (pre ++ q) (q.filter p) = .ok (pre ++ q.filter (fun x => !p x)) := by
  induction q with
  | nil => intro pre _; simp [removeAll]
  | cons x r ih =>
    intro pre hp
    by_cases hx : p x = true
    · have hn : x ∉ pre := fun h => by have := hp x h; rw [hx] at this; cases this
      rw [List.filter_cons_of_pos hx, List.filter_cons_of_neg (by simp [hx])]
      unfold removeAll
      rw [if_pos (by simp), List.erase_append_right _ hn, List.erase_cons_head]
      exact ih pre hp
    · rw [List.filter_cons_of_neg hx, List.filter_cons_of_pos (by simpa using hx)]
      have := ih (pre ++ [x]) (by
        intro y hy
        rcases List.mem_append.1 hy with hy | hy
        · exact hp y hy
        · rw [List.mem_singleton.1 hy]; simpa using hx)
      simpa using this

/-- The ticks of the scan from `pos` on. -/
theorem scan_all (timeout now : Nat) (q : List Signal) (v : Nat) : ∀ (ts : List Nat) (pos : Nat), pos + ts.length = q.length + 1 → ts ≠ [] →
    sigRun timeout ⟨q, v, .scan pos v now ((q.take pos).filter (expired timeout now))⟩ (ts.map .tick) =
      ⟨q.filter (fun x => !expired timeout now x), v + (q.filter (expired timeout now)).length, .idle⟩ := by
  intro ts
  induction ts with
  | nil => intro pos _ h; exact absurd rfl h
  | cons t ts ih =>
    intro pos hl _
    rw [List.length_cons] at hl
    simp only [sigRun, List.map_cons, List.foldl_cons, sigStep, advance]
    rw [if_neg (by simp)]
    by_cases hp : pos < q.length
    · rw [List.getElem?_eq_getElem hp]
      simp only
      have ht : (q.take (pos + 1)).filter (expired timeout now) =
          if expired timeout now q[pos] then (q.take pos).filter (expired timeout now) ++ [q[pos]] else (q.take pos).filter (expired timeout now) := by
        rw [List.take_succ_eq_append_getElem hp, List.filter_append]
        split
        · rename_i h; rw [List.filter_cons_of_pos h]; rfl
        · rename_i h; rw [List.filter_cons_of_neg h]; simp
      rw [← ht]
      exact ih (pos + 1) (by omega) (by intro h; rw [h] at hl; simp at hl; omega)
    · have hts : ts = [] := by
        cases ts with
        | nil => rfl
        | cons a b => simp only [List.length_cons] at hl; omega
      subst hts
      rw [List.getElem?_eq_none (by omega), List.take_of_length_le (by omega)]
      have := removeAll_filter (expired timeout now) q [] (by simp)
      simp only [List.nil_append] at this
      simp only [this, List.map_nil, List.foldl_nil]

/-- **C207 (partial).** A round of the expiry that is not disturbed (one step per queued signal, and one to end) takes out of the queue exactly the
signals older than the timeout at the time of its start, and keeps the others in order. Missing: rounds during which signals come and go
(`c207_killed_by_push`, `c207_killed_by_collapse`). -/
theorem c207_round_partial (timeout : Nat) (q : List Signal) (v now : Nat) (ts : List Nat) (h : ts.length = q.length) :
    sigRun timeout ⟨q, v, .idle⟩ (.tick now :: ts.map .tick) =
      ⟨q.filter (fun x => !decide (timeout < now - x.dt)), v + (q.filter (fun x => decide (timeout < now - x.dt))).length, .idle⟩ := by
  have hstep : sigStep timeout ⟨q, v, .idle⟩ (.tick now) = sigStep timeout ⟨q, v, .scan 0 v now ((q.take 0).filter (expired timeout now))⟩ (.tick now) := rfl
  have := scan_all timeout now q v (now :: ts) 0 (by simp [h]) (by simp)
  simp only [sigRun, List.foldl_cons, List.map_cons] at this ⊢
  rw [hstep, this]
  rfl

/-- A case: of two signals the old one goes. -/
example : (sigRun 600 ⟨[sig 1 (some 7) none 0 10, sig 2 (some 7) none 900 20], 0, .idle⟩ [.tick 1000, .tick 1001, .tick 1002]).queue =
    [sig 2 (some 7) none 900 20] := by decide +kernel

/-- The times at which the loop was resumed. -/
def times (os : List SigOp) : List Nat := os.filterMap fun | .tick t => some t | _ => none

structure Inv (timeout : Nat) (ts : List Nat) (g : Sigs) : Prop where
  out : ∀ pos ver t out, g.phase = .scan pos ver t out → t ∈ ts ∧ ver ≤ g.ver ∧ ∀ x, x ∈ out → expired timeout t x = true

theorem removeAll_mem {q out q' : List Signal} (h : removeAll q out = .ok q') : ∀ x, x ∈ q → x ∉ q' → x ∈ out := by
  induction out generalizing q with
  | nil => simp only [removeAll, Except.ok.injEq] at h; subst h; intro x h1 h2; exact absurd h1 h2
  | cons s r ih =>
    unfold removeAll at h
    split at h
    · intro x h1 h2
      by_cases hx : x = s
      · simp [hx]
      · have := ih h x ((List.mem_erase_of_ne hx).2 h1) h2
        simp [this]
    · cases h

theorem drain_length (q : List Signal) : ∀ out, (drain q out).1.length ≤ q.length := by
  induction q with
  | nil => intro out; simp [drain]
  | cons s r ih =>
    intro out
    unfold drain
    split
    · simp
    · have := ih (out ++ [s]); simp; omega

theorem inv_advance (timeout : Nat) (ts : List Nat) (g : Sigs) (pos ver now : Nat) (out : List Signal)
    (h1 : now ∈ ts) (h3 : ∀ x, x ∈ out → expired timeout now x = true) :
    Inv timeout ts (advance timeout g pos ver now out) ∧
    ∀ x, x ∈ g.queue → x ∉ (advance timeout g pos ver now out).queue → ∃ t, t ∈ ts ∧ timeout < t - x.dt := by
  unfold advance
  by_cases hv : g.ver ≠ ver
  · rw [if_pos hv]
    exact ⟨⟨by intro p v t o h; cases h⟩, fun x hx hn => absurd hx hn⟩
  · rw [if_neg hv]
    split
    · rename_i s hs
      refine ⟨⟨?_⟩, fun x hx hn => absurd hx hn⟩
      intro p v t o h
      simp only [Phase.scan.injEq] at h
      obtain ⟨rfl, rfl, rfl, rfl⟩ := h
      refine ⟨h1, by simp at hv ⊢; omega, ?_⟩
      intro x hx
      split at hx
      · rename_i he
        rcases List.mem_append.1 hx with hx | hx
        · exact h3 x hx
        · rw [List.mem_singleton.1 hx]; exact he
      · exact h3 x hx
    · split
      · exact ⟨⟨by intro p v t o h; cases h⟩, fun x hx hn => absurd hx hn⟩
      · rename_i q hq
        refine ⟨⟨by intro p v t o h; cases h⟩, ?_⟩
        intro x hx hn
        have := h3 x (removeAll_mem hq x hx hn)
        exact ⟨now, h1, by simpa [expired] using this⟩

theorem inv_step (timeout : Nat) (ts : List Nat) (g : Sigs) (h : Inv timeout ts g) (o : SigOp) :
    Inv timeout (ts ++ times [o]) (sigStep timeout g o) ∧
    ∀ t, o = .tick t → ∀ x, x ∈ g.queue → x ∉ (sigStep timeout g o).queue → ∃ t', t' ∈ ts ++ [t] ∧ timeout < t' - x.dt := by
  cases o with
  | push s =>
    refine ⟨⟨?_⟩, fun t ht => by cases ht⟩
    intro p v t o hp
    obtain ⟨h1, h2, h3⟩ := h.out p v t o hp
    refine ⟨by simp [h1], ?_, h3⟩
    simp only [sigStep]
    split <;> omega
  | drain =>
    refine ⟨⟨?_⟩, fun t ht => by cases ht⟩
    intro p v t o hp
    obtain ⟨h1, h2, h3⟩ := h.out p v t o hp
    exact ⟨by simp [h1], by simp only [sigStep]; omega, h3⟩
  | tick now =>
    simp only [times, List.filterMap_cons, List.filterMap_nil, sigStep]
    cases hp : g.phase with
    | idle =>
      obtain ⟨h1, h2⟩ := inv_advance timeout (ts ++ [now]) g 0 g.ver now [] (by simp) (by simp)
      refine ⟨h1, ?_⟩
      intro t ht; cases ht; exact h2
    | scan pos ver t out =>
      obtain ⟨h1, _, h3⟩ := h.out pos ver t out hp
      obtain ⟨h4, h5⟩ := inv_advance timeout (ts ++ [now]) g pos ver t out (by simp [h1]) h3
      refine ⟨h4, ?_⟩
      intro t ht; cases ht; exact h5
    | dead e =>
      refine ⟨⟨?_⟩, fun t ht x hx hn => absurd hx hn⟩
      intro p v t o h'; rw [hp] at h'; cases h'

theorem inv_run (timeout : Nat) (os : List SigOp) : Inv timeout (times os) (sigRun timeout {} os) := by
  have : ∀ os g ts, Inv timeout ts g → Inv timeout (ts ++ times os) (sigRun timeout g os) := by
    intro os
    induction os with
    | nil => intro g ts h; simpa [times, sigRun] using h
    | cons o os ih =>
      intro g ts h
      have := ih _ _ (inv_step timeout ts g h o).1
      have ht : times (o :: os) = times [o] ++ times os := by cases o <;> simp [times]
      rw [ht, ← List.append_assoc]
      exact this
  have h := this os {} [] ⟨by intro p v t o h; cases h⟩
  simpa using h

/-- **C207.** Over any interleaving of pushes, deliveries and steps of the expiry: a signal that a step of the expiry takes out of the queue was older
than the timeout at one of the steps made so far. -/
theorem c207_only_old (timeout : Nat) (os : List SigOp) (t : Nat) (x : Signal) (h : x ∈ (sigRun timeout {} os).queue)
    (hn : x ∉ (sigRun timeout {} (os ++ [.tick t])).queue) : ∃ t', t' ∈ times os ++ [t] ∧ timeout < t' - x.dt := by
  have hr : sigRun timeout {} (os ++ [.tick t]) = sigStep timeout (sigRun timeout {} os) (.tick t) := by simp [sigRun]
  rw [hr] at hn
  exact (inv_step timeout _ _ (inv_run timeout os) (.tick t)).2 t rfl x h hn

/-- The hypotheses are met. -/
example : let os := [SigOp.push (sig 1 (some 7) none 0 10), .tick 1000]
    sig 1 (some 7) none 0 10 ∈ (sigRun 600 {} os).queue ∧ sig 1 (some 7) none 0 10 ∉ (sigRun 600 {} (os ++ [.tick 1001])).queue := by decide +kernel

theorem dead_stays (timeout : Nat) (e : Err) (os : List SigOp) : ∀ g, g.phase = .dead e → (sigRun timeout g os).phase = .dead e := by
  induction os with
  | nil => intro g h; exact h
  | cons o os ih =>
    intro g h
    apply ih
    cases o with
    | push s => exact h
    | drain => exact h
    | tick t => simp only [sigStep, h]

/-- **C207 fails** over a push: a signal put at the end of the queue while the expiry is under way ends the expiry for good, at any point of any
history; no signal expires any more. -/
theorem c207_killed_by_push (timeout : Nat) (os os' : List SigOp) (s : Signal) (t : Nat) (hk : s.ckey = none)
    (hp : ∃ pos ver now out, (sigRun timeout {} os).phase = .scan pos ver now out) :
    (sigRun timeout {} (os ++ [.push s, .tick t] ++ os')).phase = .dead .recursion := by
  obtain ⟨pos, ver, now, out, hp⟩ := hp
  have hv := ((inv_run timeout os).out pos ver now out hp).2.1
  have hrun : sigRun timeout {} (os ++ [.push s, .tick t] ++ os') =
      sigRun timeout (sigStep timeout (sigStep timeout (sigRun timeout {} os) (.push s)) (.tick t)) os' := by simp [sigRun]
  rw [hrun]
  apply dead_stays
  have hpush : (push (sigRun timeout {} os).queue s).2 = true := by unfold push; rw [if_pos hk]
  simp only [sigStep, hp, advance, hpush, if_true]
  rw [if_pos (by omega)]

/-- The hypotheses are met: one step after the first signal. -/
example : (sigRun 600 {} [.push (sig 1 (some 7) none 0 10), .tick 5]).phase = .scan 1 1 5 [] := by decide +kernel

/-- **C207 fails** over a collapse: a stale signal, noted for removal, is replaced by a fresh one; its removal raises, and the expiry has ended. -/
theorem c207_killed_by_collapse : (sigRun 600 {} [.push (sig 1 (some 7) (some 4) 0 10), .tick 1000, .push (sig 2 (some 7) (some 4) 1000 20), .tick 1001]).phase =
    .dead .valueError := by decide +kernel

end Verif.Note
