import Verif.Mbx.PropsExact

/-! # C112: mailboxes of others; C113: requests and their cues -/

namespace Verif.Mbx
open Verif.Db

/-! ## Addresses -/

/-- **C112 (addresses)** A message forwarded to any receiver and topic, whatever they are, lands in the mailbox that an identifier reads for a topic only if it was
forwarded to that identifier and topic, when neither contains a slash. -/
theorem c112_address {r t pre t' : Bytes} (hp : slash ∉ pre) (ht : slash ∉ t') (h : boxKey r t = pre ++ slash :: t') : r = pre ∧ t = t' := by
  unfold boxKey at h
  induction pre generalizing r with
  | nil =>
    cases r with
    | nil => simpa using h
    | cons a r =>
      simp only [List.cons_append, List.nil_append, List.cons.injEq] at h
      exact absurd (h.2 ▸ List.mem_append.2 (.inr List.mem_cons_self)) ht
  | cons b pre ih =>
    cases r with
    | nil =>
      simp only [List.cons_append, List.nil_append, List.cons.injEq] at h
      exact absurd (h.1 ▸ List.mem_cons_self) hp
    | cons a r =>
      simp only [List.cons_append, List.cons.injEq] at h
      obtain ⟨rfl, h2⟩ := h
      obtain ⟨rfl, rfl⟩ := ih (fun hq => hp (List.mem_cons_of_mem _ hq)) h2
      exact ⟨rfl, rfl⟩

theorem forward_box {env : Env} {m : Mailbox} {r t : Bytes} {parts : List Bytes} (h : parts.flatten ≠ []) :
    (forward env m r t parts).1 = (storeMsg env m (boxKey r t) parts.flatten).1 := by
  unfold forward
  rw [if_neg h]
  split <;> (rename_i hq; rw [hq])

/-- **C112 (others), partial.** Forwarding a message to one address changes nothing that is read at another.  Missing: mailbox keys one of which is another followed by a dot;
messages whose storing was interrupted, which appear when the same message is stored elsewhere. -/
theorem c112_others_partial {env : Env} (hd : Digests env) {K : Bytes → Prop} (hK : Apart K) (pre0 : Bytes) (topics : List Bytes) (h : List Step)
    (hk : ∀ k ∈ keysOf h, K k) (hlen : h.length < maxON) (hc : ∀ k m, Step.cut k m ∉ h) {r t : Bytes} (hr : K (boxKey r t)) {pre t' : Bytes} (hkey : K (pre ++ slash :: t'))
    (hp : slash ∉ pre) (ht : slash ∉ t') (hne : ¬ (r = pre ∧ t = t')) (parts : List Bytes) {fn : Nat} (hf : fn ≤ maxON) :
    cloneTopicIter env (forward env (run env pre0 topics init h).box r t parts).1 (pre ++ slash :: t') fn =
      cloneTopicIter env (run env pre0 topics init h).box (pre ++ slash :: t') fn := by
  by_cases hq : parts.flatten = []
  · unfold forward; rw [if_pos hq]
  · rw [forward_box hq]
    have h1 : (storeMsg env (run env pre0 topics init h).box (boxKey r t) parts.flatten).1 = (run env pre0 topics init (h ++ [.store (boxKey r t) parts.flatten])).box := by
      rw [run_snoc]; rfl
    rw [h1]
    have hk2 : ∀ k ∈ keysOf (h ++ [Step.store (boxKey r t) parts.flatten]), K k := by
      intro k hq
      rcases keysOf_snoc.1 hq with hq | hq
      · exact hk k hq
      · simp [keysOf] at hq; exact hq ▸ hr
    have hk1 : boxKey r t ≠ pre ++ slash :: t' := fun h2 => hne (c112_address hp ht h2)
    rw [c109_read_partial hd hK pre0 topics h hk (by omega) hkey hf, c109_read_partial hd hK pre0 topics _ hk2 (by simp; omega) hkey hf]
    have : letters (h ++ [Step.store (boxKey r t) parts.flatten]) (pre ++ slash :: t') fn = letters h (pre ++ slash :: t') fn := by
      unfold letters
      have h3 : arrived (pre ++ slash :: t') (h ++ [Step.store (boxKey r t) parts.flatten]) = arrived (pre ++ slash :: t') h := by
        rw [arrived_append]; simp [arrived, hk1]
      rw [h3]
      congr 1
      apply List.filter_congr
      rintro ⟨⟨m, b⟩, n⟩ hm
      have h4 := kept_all hc (List.fst_mem_of_mem_zipIdx hm)
      rw [kept_append, h4, Bool.true_or]
    rw [this]

/-! ## Cues -/

/-- Cues that arrived. -/
def cuesOf (l : List Turn) : List Query := l.filterMap (fun t => match t with
  | .cue q => some q
  | .poll _ _ => none)

theorem turns_snoc (h : Hub) (l : List Turn) (x : Turn) : turns h (l ++ [x]) = turn (turns h l) x := by
  unfold turns; rw [List.foldl_append]; rfl

theorem cuesOf_append (a b : List Turn) : cuesOf (a ++ b) = cuesOf a ++ cuesOf b := by
  unfold cuesOf; rw [List.filterMap_append]

/-- **C113 (one's own)** A request gets a stream only for a query that was made, and whose digest is that of its own; and it gets one only. -/
theorem c113_own (l : List Turn) {r : Nat} {q : Query} (h : (r, q) ∈ (turns ⟨[], []⟩ l).got) :
    q ∈ cuesOf l ∧ Turn.poll r q.said ∈ l ∧ ∀ q', (r, q') ∈ (turns ⟨[], []⟩ l).got → q' = q := by
  have key : ∀ l : List Turn, (∀ q ∈ (turns ⟨[], []⟩ l).cues, q ∈ cuesOf l) ∧ (∀ p ∈ (turns ⟨[], []⟩ l).got, p.2 ∈ cuesOf l ∧ Turn.poll p.1 p.2.said ∈ l) ∧
      (∀ p ∈ (turns ⟨[], []⟩ l).got, ∀ p' ∈ (turns ⟨[], []⟩ l).got, p.1 = p'.1 → p = p') := by
    intro l
    induction l using snoc_ind with
    | h0 => simp [turns]
    | h1 l x ih =>
      obtain ⟨h1, h2, h3⟩ := ih
      rw [turns_snoc]
      generalize turns ⟨[], []⟩ l = s at h1 h2 h3
      cases x with
      | cue q =>
        refine ⟨?_, fun p hp => ?_, h3⟩
        · intro q' hq
          rw [cuesOf_append]
          rcases List.mem_append.1 hq with hq | hq
          · exact List.mem_append.2 (.inl (h1 q' hq))
          · exact List.mem_append.2 (.inr (by simpa [cuesOf] using hq))
        · rw [cuesOf_append]
          exact ⟨List.mem_append.2 (.inl (h2 p hp).1), List.mem_append.2 (.inl (h2 p hp).2)⟩
      | poll r d =>
        have hc : cuesOf (l ++ [Turn.poll r d]) = cuesOf l := by rw [cuesOf_append]; simp [cuesOf]
        have h2' : ∀ p ∈ s.got, p.2 ∈ cuesOf l ∧ Turn.poll p.1 p.2.said ∈ l ++ [Turn.poll r d] :=
          fun p hp => ⟨(h2 p hp).1, List.mem_append.2 (.inl (h2 p hp).2)⟩
        rw [hc]
        simp only [turn]
        split
        · exact ⟨h1, h2', h3⟩
        rename_i hno
        have hfree : ∀ p ∈ s.got, p.1 ≠ r := fun p hp hq => hno (List.any_eq_true.2 ⟨p, hp, by simpa using hq⟩)
        cases hcs : s.cues with
        | nil =>
          simp only [takeCue]
          exact ⟨by simp, h2', h3⟩
        | cons c cs =>
          simp only [takeCue]
          rw [hcs] at h1
          by_cases hd : c.said = d
          · rw [if_pos hd]
            refine ⟨fun q hq => h1 q (by simp [show q ∈ cs from hq]), fun p hp => ?_, fun p hp p' hp' he => ?_⟩
            · rcases List.mem_append.1 hp with hp | hp
              · exact h2' p hp
              · rw [List.mem_singleton] at hp
                subst hp
                exact ⟨h1 c (by simp), by rw [← hd]; simp⟩
            · rcases List.mem_append.1 hp with hp | hp <;> rcases List.mem_append.1 hp' with hp' | hp'
              · exact h3 p hp p' hp' he
              · rw [List.mem_singleton] at hp'
                subst hp'
                exact absurd he (hfree p hp)
              · rw [List.mem_singleton] at hp
                subst hp
                exact absurd he.symm (hfree p' hp')
              · rw [List.mem_singleton] at hp hp'
                rw [hp, hp']
          · rw [if_neg hd]
            refine ⟨fun q hq => h1 q ?_, h2', h3⟩
            rcases List.mem_append.1 hq with hq | hq
            · simp [hq]
            · rw [List.mem_singleton] at hq; simp [hq]
  obtain ⟨_, h2, h3⟩ := key l
  exact ⟨(h2 _ h).1, (h2 _ h).2, fun q' hq => by
    have := h3 _ hq _ h rfl
    injection this⟩

/-- **C113 (kept)** No cue is lost or doubled: those that requests got and those that wait are the ones that arrived. -/
theorem c113_kept (l : List Turn) : ((turns ⟨[], []⟩ l).got.map (·.2) ++ (turns ⟨[], []⟩ l).cues).Perm (cuesOf l) := by
  induction l using snoc_ind with
  | h0 => simp [turns, cuesOf]
  | h1 l x ih =>
    rw [turns_snoc, cuesOf_append]
    generalize turns ⟨[], []⟩ l = s at ih
    cases x with
    | cue q =>
      show (s.got.map (·.2) ++ (s.cues ++ [q])).Perm (cuesOf l ++ [q])
      rw [← List.append_assoc]
      exact ih.append_right _
    | poll r d =>
      rw [show cuesOf [Turn.poll r d] = [] from rfl, List.append_nil]
      simp only [turn]
      split
      · exact ih
      cases hcs : s.cues with
      | nil =>
        rw [hcs] at ih
        exact ih
      | cons c cs =>
        rw [hcs] at ih
        simp only [takeCue]
        by_cases hd : c.said = d
        · rw [if_pos hd]
          show ((s.got ++ [(r, c)]).map (·.2) ++ cs).Perm _
          rw [List.map_append, List.append_assoc]
          exact ih
        · rw [if_neg hd]
          refine List.Perm.trans ?_ ih
          exact List.Perm.append_left _ (List.perm_append_comm)

/-- **C113 (found), partial.** A request that alone is asked as often as there are cues gets its own, if it is there.  Missing: the same when others are asked in
between; then it may wait for ever (`c113_starved`). -/
theorem c113_found_partial (s : Hub) (r : Nat) (hg : ∀ p ∈ s.got, p.1 ≠ r) {q : Query} (hq : q ∈ s.cues) :
    ∃ q', q'.said = q.said ∧ (r, q') ∈ (turns s (List.replicate s.cues.length (.poll r q.said))).got := by
  have hno : s.got.any (fun p => decide (p.1 = r)) = false := by
    rw [Bool.eq_false_iff]
    intro h
    obtain ⟨p, hp, h2⟩ := List.any_eq_true.1 h
    exact hg p hp (by simpa using h2)
  have stay : ∀ (n : Nat) (s : Hub) (q' : Query), (r, q') ∈ s.got → (r, q') ∈ (turns s (List.replicate n (.poll r q.said))).got := by
    intro n
    induction n with
    | zero => intro s q' h; exact h
    | succ n ih =>
      intro s q' h
      rw [List.replicate_succ]
      show (r, q') ∈ (turns (turn s (.poll r q.said)) _).got
      apply ih
      simp only [turn]
      rw [if_pos (List.any_eq_true.2 ⟨_, h, by simp⟩)]
      exact h
  have find : ∀ (a : List Query) (n : Nat) (s : Hub) (b : List Query), s.cues = a ++ q :: b → s.got.any (fun p => decide (p.1 = r)) = false → a.length < n →
      ∃ q', q'.said = q.said ∧ (r, q') ∈ (turns s (List.replicate n (.poll r q.said))).got := by
    intro a
    induction a with
    | nil =>
      intro n s b hs hn hl
      obtain ⟨n, rfl⟩ : ∃ m, n = m + 1 := ⟨n - 1, by simp at hl; omega⟩
      rw [List.replicate_succ]
      refine ⟨q, rfl, ?_⟩
      show (r, q) ∈ (turns (turn s (.poll r q.said)) _).got
      apply stay
      simp only [turn, hn, hs, List.nil_append, takeCue, if_true]
      simp
    | cons c a ih =>
      intro n s b hs hn hl
      simp only [List.length_cons] at hl
      obtain ⟨n, rfl⟩ : ∃ m, n = m + 1 := ⟨n - 1, by omega⟩
      rw [List.replicate_succ]
      show ∃ q', q'.said = q.said ∧ (r, q') ∈ (turns (turn s (.poll r q.said)) _).got
      by_cases hd : c.said = q.said
      · refine ⟨c, hd, stay _ _ _ ?_⟩
        simp only [turn, hn, hs, List.cons_append, takeCue, if_pos hd]
        simp
      · refine ih n _ (b ++ [c]) ?_ ?_ (by omega)
        · simp only [turn, hn, hs, List.cons_append, takeCue, if_neg hd]
          simp
        · simp only [turn, hn, hs, List.cons_append, takeCue, if_neg hd]
          simpa using hn
  obtain ⟨a, b, hab⟩ := List.append_of_mem hq
  exact find a s.cues.length s b hab hno (by rw [hab]; simp)

/-- **C113, false of several requests**: two that are asked in turn, each finding the cue of the other, wait for ever. -/
theorem c113_starved (a b : Query) (hab : a.said ≠ b.said) (r1 r2 n : Nat) :
    turns ⟨[b, a], []⟩ (List.replicate n [Turn.poll r1 a.said, Turn.poll r2 b.said]).flatten = ⟨[b, a], []⟩ := by
  induction n with
  | zero => rfl
  | succ n ih =>
    rw [List.replicate_succ, List.flatten_cons]
    have : turns ⟨[b, a], []⟩ [Turn.poll r1 a.said, Turn.poll r2 b.said] = ⟨[b, a], []⟩ := by
      simp [turns, turn, takeCue, hab, Ne.symm hab]
    unfold turns at *
    rw [List.foldl_append, this, ih]

end Verif.Mbx
