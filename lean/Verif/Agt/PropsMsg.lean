import Verif.Agt.Model

/-! # Messengers, publishing and queries (C210, C211, C212) -/

namespace Verif.Agt

/-! ## C210 -/

/-- What a messenger was given. -/
def givenH (os : List HttpOp) : List (Nat × Nat) := os.filterMap fun | .give m => some m | _ => none

def givenT (os : List TcpOp) : List Nat := os.filterMap fun | .give m => some m | _ => none

structure HInv (g : List (Nat × Nat)) (s : HttpM) : Prop where
  all : g = s.out ++ s.msgs
  count : s.posted = s.sent + s.pending

theorem http_inv (os : List HttpOp) : HInv (givenH os) (httpRun {} os) := by
  have : ∀ os g s, HInv g s → HInv (g ++ givenH os) (httpRun s os) := by
    intro os
    induction os with
    | nil => intro g s h; simpa [givenH, httpRun] using h
    | cons o os ih =>
      intro g s h
      have hg : givenH (o :: os) = givenH [o] ++ givenH os := by cases o <;> simp [givenH]
      rw [hg, ← List.append_assoc]
      refine ih _ _ ?_
      cases o with
      | give m => exact ⟨by simp [givenH, httpStep, h.all], h.count⟩
      | take =>
        simp only [httpStep]
        cases hm : s.msgs with
        | nil => simpa [givenH] using h
        | cons m r =>
          have h1 := h.all
          have h2 := h.count
          rw [hm] at h1
          exact ⟨by simp [givenH, h1], by simp only; omega⟩
      | answer =>
        simp only [httpStep]
        cases hp : s.pending with
        | zero => simpa [givenH] using h
        | succ p =>
          have h2 := h.count
          rw [hp] at h2
          exact ⟨by simp [givenH, h.all], by simp only; omega⟩
  simpa using this os [] {} ⟨rfl, rfl⟩

/-- **C210.** However giving, posting and answering interleave, a messenger over HTTP is idle if and only if all that it was given has been posted, in
the order given, and every request has been answered. -/
theorem c210_http (os : List HttpOp) :
    (httpRun {} os).idle = true ↔ (httpRun {} os).out = givenH os ∧ (httpRun {} os).pending = 0 := by
  have h := http_inv os
  have h1 := h.all
  have h2 := h.count
  unfold HttpM.idle
  rw [Bool.and_eq_true, List.isEmpty_iff, decide_eq_true_eq]
  constructor
  · rintro ⟨h3, h4⟩
    rw [h3, List.append_nil] at h1
    exact ⟨h1.symm, by omega⟩
  · rintro ⟨h3, h4⟩
    rw [← h3] at h1
    have : (httpRun {} os).msgs = [] := by simpa using h1
    exact ⟨this, by omega⟩

/-- **C210.** At all times what was posted is the first of what was given, and the posted requests are those answered and those pending. -/
theorem c210_http_order (os : List HttpOp) : (∃ rest, givenH os = (httpRun {} os).out ++ rest) ∧
    (httpRun {} os).posted = (httpRun {} os).sent + (httpRun {} os).pending :=
  ⟨⟨_, (http_inv os).all⟩, (http_inv os).count⟩

/-- A message of two requests: idle only after the second answer. -/
example : (httpRun {} [.give (7, 2), .take, .answer]).idle = false ∧ (httpRun {} [.give (7, 2), .take, .answer, .answer]).idle = true := by
  decide +kernel

structure TInv (g : List Nat) (s : TcpM) : Prop where
  all : g = s.sent ++ s.tx.toList ++ s.msgs
  count : s.posted = s.sent.length + s.tx.toList.length

theorem tcp_inv (os : List TcpOp) : TInv (givenT os) (tcpRun {} os) := by
  have : ∀ os g s, TInv g s → TInv (g ++ givenT os) (tcpRun s os) := by
    intro os
    induction os with
    | nil => intro g s h; simpa [givenT, tcpRun] using h
    | cons o os ih =>
      intro g s h
      have hg : givenT (o :: os) = givenT [o] ++ givenT os := by cases o <;> simp [givenT]
      rw [hg, ← List.append_assoc]
      refine ih _ _ ?_
      cases o with
      | give m => exact ⟨by simp [givenT, tcpStep, h.all], h.count⟩
      | take =>
        simp only [tcpStep]
        cases ht : s.tx with
        | some x => simpa [givenT, ht] using h
        | none =>
          cases hm : s.msgs with
          | nil => simpa [givenT] using h
          | cons m r =>
            have h1 := h.all
            have h2 := h.count
            rw [hm, ht] at h1
            rw [ht] at h2
            exact ⟨by simp [givenT, h1], by simp at h2 ⊢; omega⟩
      | flush =>
        simp only [tcpStep]
        cases ht : s.tx with
        | none => simpa [givenT] using h
        | some m =>
          have h1 := h.all
          have h2 := h.count
          rw [ht] at h1 h2
          exact ⟨by simp [givenT, h1], by simp at h2 ⊢; omega⟩
  simpa using this os [] {} ⟨rfl, rfl⟩

/-- **C210 (partial).** A messenger over TCP is idle if and only if none of its messages is just being sent; what was sent is then the first of what it
was given. Missing: that it is all of it (`c210_tcp_waiting`). -/
theorem c210_tcp_partial (os : List TcpOp) :
    ((tcpRun {} os).idle = true ↔ (tcpRun {} os).tx = none) ∧
    ((tcpRun {} os).idle = true → givenT os = (tcpRun {} os).sent ++ (tcpRun {} os).msgs) := by
  have h := tcp_inv os
  have h1 := h.all
  have h2 := h.count
  have hi : (tcpRun {} os).idle = true ↔ (tcpRun {} os).tx = none := by
    unfold TcpM.idle
    rw [decide_eq_true_eq]
    cases ht : (tcpRun {} os).tx with
    | none => rw [ht] at h2; simp at h2; simp [h2]
    | some m => rw [ht] at h2; simp at h2; simp [h2]
  refine ⟨hi, fun hd => ?_⟩
  rw [hi.1 hd] at h1
  simpa using h1

/-- **C210 fails** for TCP: any messages given while none is being sent, however many, leave the messenger idle. The receiptor, which removes
messengers when they are idle (agenting.py:423-433), then removes it with the messages unsent. -/
theorem c210_tcp_waiting (os : List TcpOp) (ms : List Nat) (h : (tcpRun {} os).tx = none) :
    (tcpRun {} (os ++ ms.map .give)).idle = true ∧ (tcpRun {} (os ++ ms.map .give)).sent = (tcpRun {} os).sent := by
  have : ∀ (ms : List Nat) (s : TcpM), (tcpRun s (ms.map .give)).tx = s.tx ∧ (tcpRun s (ms.map .give)).sent = s.sent := by
    intro ms
    induction ms with
    | nil => intro s; exact ⟨rfl, rfl⟩
    | cons m ms ih => intro s; exact ih _
  have hr : tcpRun {} (os ++ ms.map .give) = tcpRun (tcpRun {} os) (ms.map .give) := by simp [tcpRun]
  refine ⟨(c210_tcp_partial _).1.2 ?_, ?_⟩
  · rw [hr, (this ms _).1, h]
  · rw [hr, (this ms _).2]

/-- The hypothesis is met at the start: given one message, idle, nothing sent. -/
example : (tcpRun {} [.give 7]).idle = true ∧ (tcpRun {} [.give 7]).sent = [] := by decide +kernel

/-! ## C211 -/

def givenP (os : List PubOp) : List (Nat × Nat) := os.filterMap fun | .give e => some e | _ => none

structure PInv (own : Nat → Bool) (g : List (Nat × Nat)) (s : Pub) : Prop where
  all : g.filter (fun e => own e.1) = s.cues ++ s.now.toList ++ s.msgs.filter (fun e => own e.1)
  count : s.posted + s.msgs.length = g.length

theorem pub_inv (own : Nat → Bool) (os : List PubOp) : PInv own (givenP os) (pubRun own {} os) := by
  have : ∀ os g s, PInv own g s → PInv own (g ++ givenP os) (pubRun own s os) := by
    intro os
    induction os with
    | nil => intro g s h; simpa [givenP, pubRun] using h
    | cons o os ih =>
      intro g s h
      have hg : givenP (o :: os) = givenP [o] ++ givenP os := by cases o <;> simp [givenP]
      rw [hg, ← List.append_assoc]
      refine ih _ _ ?_
      cases o with
      | give m =>
        refine ⟨?_, ?_⟩
        · simp only [givenP, pubStep, List.filterMap_cons, List.filterMap_nil, List.filter_append, h.all, List.append_assoc]
        · have := h.count
          simp only [givenP, pubStep, List.filterMap_cons, List.filterMap_nil, List.length_append, List.length_cons, List.length_nil]
          omega
      | take =>
        simp only [pubStep]
        cases ht : s.now with
        | some x => simpa [givenP, ht] using h
        | none =>
          cases hm : s.msgs with
          | nil => simpa [givenP] using h
          | cons e r =>
            have h1 := h.all
            have h2 := h.count
            rw [hm, ht] at h1
            rw [hm] at h2
            refine ⟨?_, by simp [givenP] at h2 ⊢; omega⟩
            cases ho : own e.1 with
            | true => simpa [givenP, ho] using h1
            | false => simpa [givenP, ho] using h1
      | finish =>
        simp only [pubStep]
        cases ht : s.now with
        | none => simpa [givenP] using h
        | some m =>
          have h1 := h.all
          rw [ht] at h1
          exact ⟨by simp [givenP, h1], by simpa [givenP] using h.count⟩
  simpa using this os [] {} ⟨rfl, rfl⟩

/-- **C211 (partial).** However events come and are sent: those reported as sent are the first of the given ones that are of own identifiers, in
order, each once; and the publisher is idle if and only if all that was ever given has been sent and reported. So it is idle when it should be if all
events are of own identifiers; what is missing is any others (`c211_never_idle`). -/
theorem c211_sent_partial (own : Nat → Bool) (os : List PubOp) :
    (∃ rest, (givenP os).filter (fun e => own e.1) = (pubRun own {} os).cues ++ rest) ∧
    ((pubRun own {} os).idle = true ↔ (pubRun own {} os).cues = givenP os) := by
  have h := pub_inv own os
  refine ⟨⟨_, by rw [h.all, List.append_assoc]⟩, ?_⟩
  have h1 := h.all
  have h2 := h.count
  unfold Pub.idle
  rw [Bool.and_eq_true, List.isEmpty_iff, decide_eq_true_eq]
  constructor
  · rintro ⟨h3, h4⟩
    rw [h3] at h1 h2
    simp only [List.filter_nil, List.append_nil, List.length_nil, Nat.add_zero] at h1 h2
    have hle := List.length_filter_le (fun e : Nat × Nat => own e.1) (givenP os)
    have hlen := congrArg List.length h1
    simp only [List.length_append] at hlen
    have hnow : (pubRun own {} os).now.toList = [] := List.eq_nil_of_length_eq_zero (by omega)
    rw [hnow, List.append_nil] at h1
    rw [← h1]
    apply List.filter_eq_self.2
    have : ((givenP os).filter fun e => own e.1).length = (givenP os).length := by rw [h1]; omega
    exact List.length_filter_eq_length_iff.1 this
  · intro h3
    have hle := List.length_filter_le (fun e : Nat × Nat => own e.1) (givenP os)
    have hlen := congrArg List.length h1
    simp only [List.length_append, h3] at hlen
    have hfl : ((givenP os).filter fun e => own e.1).length = (givenP os).length := by omega
    have hall := List.length_filter_eq_length_iff.1 hfl
    have hf : (givenP os).filter (fun e => own e.1) = givenP os := List.filter_eq_self.2 hall
    rw [hf, h3, List.append_assoc] at h1
    have h4 : (pubRun own {} os).now.toList ++ (pubRun own {} os).msgs.filter (fun e => own e.1) = [] := by simpa using h1
    obtain ⟨_, h5⟩ := List.append_eq_nil_iff.1 h4
    have hsub : ∀ e, e ∈ (pubRun own {} os).msgs → own e.1 = false := by simpa using h5
    -- the queued ones are among the given ones, all of which are own
    have hmem : ∀ os s, (∀ e, e ∈ s.msgs → own e.1 = true) → (∀ e, e ∈ givenP os → own e.1 = true) →
        ∀ e, e ∈ (pubRun own s os).msgs → own e.1 = true := by
      intro os
      induction os with
      | nil => intro s h _; exact h
      | cons o os ih =>
        intro s hs hg
        refine ih _ ?_ ?_
        · cases o with
          | give m =>
            intro e he
            rcases List.mem_append.1 he with he | he
            · exact hs e he
            · rw [List.mem_singleton.1 he]; exact hg m (by simp [givenP])
          | take =>
            simp only [pubStep]
            split
            · rename_i e r _ hm
              intro e' he'
              exact hs e' (by rw [hm]; simp at he' ⊢; exact .inr he')
            · exact hs
          | finish =>
            simp only [pubStep]
            split
            · exact hs
            · exact hs
        · intro e he
          exact hg e (by cases o <;> simp_all [givenP])
    have hm : (pubRun own {} os).msgs = [] := by
      cases hmm : (pubRun own {} os).msgs with
      | nil => rfl
      | cons e r =>
        have e1 := hsub e (by rw [hmm]; simp)
        have e2 := hmem os {} (by simp) hall e (by rw [hmm]; simp)
        rw [e1] at e2; cases e2
    rw [hm] at h2
    simp at h2
    exact ⟨hm, by rw [h3]; omega⟩

/-- Two events of an own identifier, sent: idle. -/
example : (pubRun (fun p => p = 1) {} [.give (1, 5), .take, .give (1, 6), .finish, .take, .finish]).idle = true ∧
    (pubRun (fun p => p = 1) {} [.give (1, 5), .take, .give (1, 6), .finish, .take, .finish]).sent 6 = true := by decide +kernel

/-- **C211 fails** for events of others, which are passed over: once one is given, whatever happens before and after, the publisher is never idle
again. -/
theorem c211_never_idle (own : Nat → Bool) (os os' : List PubOp) (e : Nat × Nat) (he : own e.1 = false) :
    (pubRun own {} (os ++ [.give e] ++ os')).idle = false := by
  cases hi : (pubRun own {} (os ++ [.give e] ++ os')).idle with
  | false => rfl
  | true =>
    obtain ⟨⟨rest, h1⟩, h2⟩ := c211_sent_partial own (os ++ [.give e] ++ os')
    have hc := h2.1 hi
    have hm : e ∈ givenP (os ++ [.give e] ++ os') := by simp [givenP]
    rw [← hc] at hm
    have : e ∈ (givenP (os ++ [.give e] ++ os')).filter (fun e => own e.1) := by rw [h1]; exact List.mem_append_left _ hm
    have := (List.mem_filter.1 this).2
    rw [he] at this; cases this

/-! ## C212 -/

/-- **C212.** A query ends only when the local log has what was asked for: the number, or an event with the seal. While it has not, and the identifier
is known, the query is (still) worked on. -/
theorem c212_done (sn : Nat) (anchored : Bool) (known : Option Nat) :
    (logTurn sn known = .ok .done ↔ ∃ k, known = some k ∧ sn ≤ k) ∧ (seqTurn sn known = .done ↔ ∃ k, known = some k ∧ sn ≤ k) ∧
    (anchorTurn anchored known = .done ↔ known.isSome = true ∧ anchored = true) ∧
    (∀ k, known = some k → k < sn → logTurn sn known = .ok .run ∧ seqTurn sn known = .run) ∧
    (known.isSome = true → anchored = false → anchorTurn anchored known = .run) := by
  cases known with
  | none => simp [logTurn, seqTurn, anchorTurn]
  | some k =>
    simp only [logTurn, seqTurn, anchorTurn]
    refine ⟨?_, ?_, ?_, ?_, ?_⟩
    · by_cases h : sn ≤ k <;> simp [h]
    · by_cases h : sn ≤ k <;> simp [h]
    · cases anchored <;> simp
    · intro k' hk hlt
      cases hk
      have : ¬ sn ≤ k := by omega
      simp [this]
    · intro _ ha; simp [ha]

/-- **C212 fails** for identifiers that are not known: queries by number or by seal do nothing at their turn, so that the query is not even sent, for
as long as nobody else makes the identifier known; the query of a log raises. -/
theorem c212_unknown (sn : Nat) (anchored : Bool) : seqTurn sn none = .nothing ∧ anchorTurn anchored none = .nothing ∧
    logTurn sn none = .error .keyError := ⟨rfl, rfl, rfl⟩

/-- A cue that a noticer for `pre` waits for. -/
def Cue.isFor (pre : Nat) : Cue → Bool
  | .saved p _ => decide (p = pre)
  | .other _ => false

/-- **C212.** A noticer takes, of any queue of cues, the first that is a key state saved of its identifier, and ends or has the log queried as that key
state is not or is ahead of the local log; it takes no other cue away. The cues before go to the end. -/
theorem c212_noticer (pre k : Nat) (a b : List Cue) (s : Nat) (ha : ∀ c, c ∈ a → c.isFor pre = false) :
    noticerRun pre (some k) (a.length + 1) (a ++ .saved pre s :: b) = (b ++ a, if k < s then .ask s else .done) := by
  induction a generalizing b with
  | nil =>
    simp only [List.length_nil, List.nil_append, noticerRun, noticer, if_true, List.append_nil]
    by_cases h : k < s <;> simp [h]
  | cons c r ih =>
    have hstep : noticer pre (some k) (c :: r ++ .saved pre s :: b) = (r ++ .saved pre s :: (b ++ [c]), .run) := by
      have hc := ha c (by simp)
      cases c with
      | saved p n => simp only [Cue.isFor, decide_eq_false_iff_not] at hc; simp [noticer, hc]
      | other n => simp [noticer]
    rw [List.length_cons, noticerRun, hstep]
    simp only
    rw [ih (b ++ [c]) (fun x hx => ha x (by simp [hx]))]
    simp

/-- **C212.** Without such a cue, or while the identifier is not known, nothing is taken: after a full turn the queue is as it was. -/
theorem c212_noticer_none (pre : Nat) (cues : List Cue) (ha : ∀ c, c ∈ cues → c.isFor pre = false) (known : Option Nat) :
    noticerRun pre known cues.length cues = (cues, .run) := by
  cases known with
  | none =>
    have : ∀ n, noticerRun pre none n cues = (cues, .run) := by
      intro n
      induction n with
      | zero => rfl
      | succ n ih => simp only [noticerRun, noticer]; exact ih
    exact this _
  | some k =>
    have : ∀ a b : List Cue, (∀ c, c ∈ a → c.isFor pre = false) → noticerRun pre (some k) a.length (a ++ b) = (b ++ a, .run) := by
      intro a
      induction a with
      | nil => intro b _; simp [noticerRun]
      | cons c r ih =>
        intro b hc
        have hstep : noticer pre (some k) (c :: r ++ b) = (r ++ (b ++ [c]), .run) := by
          have hc := hc c (by simp)
          cases c with
          | saved p n => simp only [Cue.isFor, decide_eq_false_iff_not] at hc; simp [noticer, hc]
          | other n => simp [noticer]
        rw [List.length_cons, noticerRun, hstep]
        simp only
        rw [ih (b ++ [c]) (fun x hx => hc x (by simp [hx]))]
        simp
    have h := this cues [] ha
    simpa using h

/-- The second cue is for the noticer, and ahead. -/
example : noticerRun 5 (some 2) 2 [.other 1, .saved 5 4, .saved 6 9] = ([.saved 6 9, .other 1], .ask 4) := by decide +kernel

end Verif.Agt
