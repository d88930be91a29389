import Verif.Mbx.PropsCue

/-!
# Histories of a mailbox

Identifier `A` polls the topics `/c` and `/r`.  Digests put a byte before the message; text is bytes below 128.
-/

namespace Verif.Mbx.Demo
open Verif.Db

def env : Env := ⟨fun x => 1 :: x, fun x => x.all (fun b => decide (b < 128))⟩

theorem digests : Digests env := ⟨fun _ _ h => (List.cons.inj h).2, fun _ => by simp [env]⟩

def A : Bytes := [65]
def B : Bytes := [66]
def tc : Bytes := [47, 99]
def tr : Bytes := [47, 114]
def topics : List Bytes := [tc, tr]

/-- Mailbox keys without dots, of which none is empty. -/
def K (k : Bytes) : Prop := dot ∉ k ∧ k ≠ []

theorem apart : Apart K := by
  refine ⟨fun k k' _ h2 h => h2.1 (h.subset (by simp)), fun k h => h.2⟩

theorem subscribed : ∀ t ∈ topics, K (A ++ t) := by
  intro t ht
  simp only [topics, List.mem_cons, List.not_mem_nil, or_false] at ht
  rcases ht with rfl | rfl <;> exact ⟨by decide, by decide⟩

theorem nonempty : ∀ t ∈ topics, t ≠ [] := by decide

def play (h : List Step) : Sys := run env A topics init h

/-! ## C109 -/

def some3 : List Step := [.store (A ++ tc) [7], .store (B ++ tc) [8], .store (A ++ tc) [9]]

theorem some3K : ∀ k ∈ keysOf some3, K k := by
  intro k hk
  simp only [some3, keysOf, List.filterMap_cons, List.filterMap_nil, List.mem_cons, List.not_mem_nil, or_false] at hk
  rcases hk with rfl | rfl | rfl <;> exact ⟨by decide, by decide⟩

example : cloneTopicIter env (play some3).box (A ++ tc) 0 = .ok [(0, [7]), (1, [9])] ∧ cloneTopicIter env (play some3).box (A ++ tc) 1 = .ok [(1, [9])] ∧
    getTopicMsgs env (play some3).box (B ++ tc) 0 = .ok [[8]] := by decide +kernel

example : (storeMsg env (play some3).box (A ++ tr) [9]).2 = .ok true :=
  c109_stored_partial digests apart A topics some3 some3K (by decide) ⟨by decide, by decide⟩ [9]

example : cloneTopicIter env (play some3).box (A ++ tc) 0 = .ok (((arrived (A ++ tc) some3).map (·.1)).zipIdx.map (fun p => (p.2, p.1))) :=
  (c109_whole_partial digests apart A topics some3 some3K (by decide) ⟨by decide, by decide⟩ (by simp [some3]) (by
    intro m hm
    simp [some3] at hm
    rcases hm with ⟨_, rfl⟩ | ⟨_, rfl⟩ | ⟨_, rfl⟩ <;> exact ⟨by decide, by decide⟩)).1

/-- The topic that an evildoer forwards to: `/c` followed by a dot and a number. -/
def nested (n : Nat) : Bytes := onKey dot tc n

theorem nested_key : A ++ nested 0 = onKey dot (A ++ tc) 0 := by decide +kernel

/-- **C109, false of nested topics.** One message for the topic `c.00000000000000000000000000000000`, which anyone may forward, and nothing is ever
stored for the topic `c` again: storing fails and changes nothing. -/
theorem c109_jammed (m : Bytes) : ∃ box, box = (play [.store (A ++ tc) [7], .store (A ++ nested 0) [8]]).box ∧ slash ∉ A ∧
    storeMsg env box (A ++ tc) m = (box, .error .valueError) := by
  refine ⟨_, rfl, by decide, ?_⟩
  generalize hb : (play [.store (A ++ tc) [7], .store (A ++ nested 0) [8]]).box = box
  have h1 : appendOn dot box.tpcs (A ++ tc) = .ok 0 := by rw [← hb]; decide +kernel
  have h2 : (box.tpcs.get (onKey dot (A ++ tc) 0)).isSome = true := by rw [← hb]; decide +kernel
  have h3 : A ++ tc ≠ [] := by decide
  unfold storeMsg indexMsg appendOnVal
  rw [if_neg h3, h1]
  simp [Tbl.put, h2]

/-- **C109, false of nested topics.** Or messages stored before and after cannot be read. -/
theorem c109_hidden : let h := [.store (A ++ tc) [7], .store (A ++ tc) [9], .store (A ++ nested 0) [8], .store (A ++ tc) [10]]
    arrived (A ++ tc) h = [([7], true), ([9], true), ([10], true)] ∧ cloneTopicIter env (play h).box (A ++ tc) 0 = .ok [(0, [7])] ∧
    cloneTopicIter env (play h).box (A ++ tc) 1 = .ok [(1, [9]), (2, [10])] := by decide +kernel

/-- **C109, not claimed: numbers after deletion.** When the last message of a topic is deleted its number is given again, and a client that has recorded it
does not see the new message. -/
theorem c109_reused : let box := (play [.store (A ++ tc) [7]]).box
    let box' := (storeMsg env (delTopic box (A ++ tc) 0).1 (A ++ tc) [9]).1
    cloneTopicIter env box (A ++ tc) 0 = .ok [(0, [7])] ∧ cloneTopicIter env box' (A ++ tc) 0 = .ok [(0, [9])] ∧ cloneTopicIter env box' (A ++ tc) 1 = .ok [] := by
  decide +kernel

/-- An interrupted store leaves a number without a message; storing the message again, for whatever key, makes it appear there too. -/
theorem c109_gap : let h := [.store (A ++ tc) [7], .cut (A ++ tc) [8], .store (A ++ tc) [9]]
    cloneTopicIter env (play h).box (A ++ tc) 0 = .ok [(0, [7]), (2, [9])] ∧
    cloneTopicIter env (play (h ++ [.store (B ++ tc) [8]])).box (A ++ tc) 0 = .ok [(0, [7]), (1, [8]), (2, [9])] := by decide +kernel

/-! ## C110, C111 -/

def day : List Step := some3 ++ [.connect, .serve, .take, .note, .store (A ++ tr) [11], .serve, .take, .note, .work, .connect, .serve, .take, .note]

theorem dayK : ∀ k ∈ keysOf day, K k := by
  intro k hk
  have : k = A ++ tc ∨ k = B ++ tc ∨ k = A ++ tr := by
    simp [day, some3, keysOf] at hk
    grind
  rcases this with rfl | rfl | rfl <;> exact ⟨by decide, by decide⟩

example : (play day).given = [⟨0, tc, [7]⟩, ⟨1, tc, [9]⟩, ⟨0, tr, [11]⟩] ∧ (play day).done = [⟨0, tc, [7]⟩] ∧ (play day).tops = [(tc, 1), (tr, 0)] := by
  decide +kernel

example : (⟨0, tc, [7]⟩ : Event) ∈ (play day).given :=
  c110_none_skipped_partial digests apart subscribed nonempty day dayK (by decide) (t := tc) (r := 1) (by decide +kernel) (n := 0) (m := [7]) (by decide)
    (show (arrived (A ++ tc) day)[0]? = some ([7], true) by decide +kernel) (by decide)

example : ∃ k0, ∀ k, k0 ≤ k → ∀ t ∈ topics, ∀ n m, Stored some3 (A ++ t) n m → m ≠ [] →
    ⟨n, t, m⟩ ∈ (play (some3 ++ [.note, .connect, .serve] ++ drain k)).given :=
  c110_delivered_partial digests apart subscribed nonempty some3 some3K (by decide) (by
    intro t _ x b hx
    rcases mem_arrived hx with ⟨_, h⟩ | ⟨_, h⟩
    · simp [some3] at h
      rcases h with ⟨_, rfl⟩ | ⟨_, rfl⟩ | ⟨_, rfl⟩ <;> decide
    · simp [some3] at h)

theorem daySmooth : Smooth day := ⟨by simp [day, some3], by simp [day, some3], by simp [day, some3]⟩

example : ∃ k ≤ (arrived (A ++ tc) day).length, ofTopic tc (play day).given = (expected A day tc).take k :=
  (c111_exact_partial digests apart subscribed nonempty (by decide) day dayK (by decide) daySmooth).1 tc (by simp [topics])

/-- **C110, false of processing**: a client that dies after recording a message and before parsing it never sees it again, whatever it does afterwards. -/
theorem c110_lost : let h := [.store (A ++ tc) [7], .connect, .serve, .take, .note, .crash, .connect, .serve, .take, .note, .work]
    (play h).done = [] ∧ (play h).queue = [] ∧ look (play h).tops tc = some 0 := by decide +kernel

/-- **C110, false of messages that are not text.** One such message, which anyone may forward, for one topic, and no message of any topic is handed on:
each answer ends the response. -/
theorem c110_poisoned : let s := play [.store (A ++ tr) [200], .store (A ++ tc) [7]]
    ∀ n, (run env A topics s (List.replicate n [Step.connect, .serve, .take, .note]).flatten).given = [] := by
  intro s n
  suffices h : ∀ n s', s'.box = s.box → s'.given = [] → s'.held = none → s'.tops = [] →
      (run env A topics s' (List.replicate n [Step.connect, .serve, .take, .note]).flatten).given = [] by
    exact h n s rfl (by decide +kernel) (by decide +kernel) (by decide +kernel)
  intro n
  induction n with
  | zero => intro s' _ h _ _; exact h
  | succ n ih =>
    intro s' h1 h2 h3 h4
    rw [List.replicate_succ, List.flatten_cons, run_append]
    have hsv : (serveLoop env s.box A (ask [] topics)).2 = .error .valueError := by decide +kernel
    have : run env A topics s' [Step.connect, .serve, .take, .note] = { s' with conn := none } := by
      obtain ⟨box, conn, tops, held, queue, done, given⟩ := s'
      simp only at h1 h2 h3 h4
      subst h1 h2 h3 h4
      generalize hl : serveLoop env s.box A (ask [] topics) = q at hsv
      obtain ⟨q1, q2⟩ := q
      simp only at hsv
      subst hsv
      simp [run, step, serve, hl]
    rw [this]
    exact ih _ h1 h2 h3 h4

/-- **C111, false after a gap**: the place from which the provider reads moves by one for each message and not to its number, and messages after the gap are handed on
twice in the same response. -/
theorem c111_twice_gap : let h := [.store (A ++ tc) [7], .cut (A ++ tc) [8], .store (A ++ tc) [9], .connect, .serve, .serve, .take, .note, .take, .note, .take, .note]
    (play h).given = [⟨0, tc, [7]⟩, ⟨2, tc, [9]⟩, ⟨2, tc, [9]⟩] := by decide +kernel

/-- **C111, false when the client dies** between queueing a message and recording its number: it is parsed twice. -/
theorem c111_twice_crash : let h := [.store (A ++ tc) [7], .connect, .serve, .take, .work, .crash, .connect, .serve, .take, .note, .work]
    (play h).done = [⟨0, tc, [7]⟩, ⟨0, tc, [7]⟩] := by decide +kernel

/-! ## C112, C113 -/

example {e : Event} (he : e ∈ (play day).given) : e.name ∈ topics ∧ ∃ b, (arrived (A ++ e.name) day)[e.id]? = some (e.data, b) :=
  c112_own_partial digests apart subscribed nonempty day dayK (by decide) he

example : cloneTopicIter env (forward env (play some3).box B [114] [[1], [2]]).1 (A ++ slash :: [99]) 0 = cloneTopicIter env (play some3).box (A ++ slash :: [99]) 0 :=
  c112_others_partial digests apart A topics some3 some3K (by decide) (by simp [some3]) ⟨by decide, by decide⟩ ⟨by decide, by decide⟩ (by decide) (by decide) (by decide) _ (by decide)

/-- Without the condition on slashes addresses mix: a topic of one is an address of another. -/
example : boxKey [65, 47, 66] [99] = [65] ++ slash :: [66, 47, 99] := by decide

/-- **C112, not claimed: that others cannot read.** The query of a stranger, without a signature, is answered like that of the owner. -/
theorem c112_anyone (known : Bytes → Bool) (q : Query) (hq : known q.pre = true) (source : Option Bytes) (signed : Bool) :
    streamCue known source signed q = some q ∧ streamCue known none false q = some q := by
  simp [streamCue, hq]

def qa : Query := ⟨1, A, [(tc, 0)]⟩
def qb : Query := ⟨2, B, [(tc, 0)]⟩

example : turns ⟨[], []⟩ [.cue qb, .cue qa, .poll 10 1, .poll 10 1, .poll 20 2] = ⟨[], [(10, qa), (20, qb)]⟩ := by decide

example : ∃ q', q'.said = qa.said ∧ (10, q') ∈ (turns ⟨[qb, qa], []⟩ (List.replicate 2 (.poll 10 qa.said))).got :=
  c113_found_partial ⟨[qb, qa], []⟩ 10 (by simp) (by simp)

example : qa.said ≠ qb.said := by decide

end Verif.Mbx.Demo
