import Verif.Mbx.PropsBox

/-! # C110: polling skips no message; C112: it yields only what arrived for the identifier -/

namespace Verif.Mbx
open Verif.Db

def flyOf (s : Sys) : List Event := match s.conn with
  | none => []
  | some c => c.fly

/-- Events are arrivals of the subscribed mailboxes. -/
def Auth (pre : Bytes) (topics : List Bytes) (h : List Step) (l : List Event) : Prop :=
  ∀ e ∈ l, e.name ∈ topics ∧ e.data ≠ [] ∧ ∃ b, (arrived (pre ++ e.name) h)[e.id]? = some (e.data, b)

/-- Before an event, all stored messages of its topic with smaller numbers have been seen. -/
def Closed (pre : Bytes) (h : List Step) : List Event → List Event → Prop
  | _, [] => True
  | a, e :: r => (∀ n m, n ≤ e.id → Stored h (pre ++ e.name) n m → m ≠ [] → Seen (a ++ [e]) e.name n) ∧ Closed pre h (a ++ [e]) r

theorem Seen.mono {l l' : List Event} (h : ∀ e ∈ l, e ∈ l') {t : Bytes} {n : Nat} (hs : Seen l t n) : Seen l' t n := by
  obtain ⟨e, h1, h2⟩ := hs
  exact ⟨e, h _ h1, h2⟩

theorem Seen.left {l l' : List Event} {t : Bytes} {n : Nat} (hs : Seen l t n) : Seen (l ++ l') t n :=
  hs.mono (fun _ he => List.mem_append.2 (.inl he))

theorem closed_append {pre : Bytes} {h : List Step} {p a b : List Event} : Closed pre h p (a ++ b) ↔ Closed pre h p a ∧ Closed pre h (p ++ a) b := by
  induction a generalizing p with
  | nil => simp [Closed]
  | cons e a ih =>
    simp only [List.cons_append, Closed]
    rw [ih, and_assoc]
    simp [List.append_assoc]

theorem closed_mem {pre : Bytes} {h : List Step} {p l : List Event} (hc : Closed pre h p l) {e : Event} (he : e ∈ l) {n : Nat} {m : Bytes}
    (hn : n ≤ e.id) (hs : Stored h (pre ++ e.name) n m) (hm : m ≠ []) : Seen (p ++ l) e.name n := by
  induction l generalizing p with
  | nil => simp at he
  | cons x l ih =>
    simp only [Closed] at hc
    rcases List.mem_cons.1 he with rfl | he
    · have := (hc.1 n m hn hs hm).left (l' := l)
      simpa using this
    · have := ih hc.2 he
      simpa using this

theorem stored_old {h : List Step} {x : Step} {k : Bytes} {n : Nat} {m : Bytes} (hn : n < (arrived k h).length)
    (hs : Stored (h ++ [x]) k n m) : Stored h k n m := by
  unfold Stored at *
  rw [arrived_append, List.getElem?_append_left hn] at hs
  exact hs

theorem arrived_grow {h : List Step} {x : Step} {k : Bytes} {n : Nat} {p : Bytes × Bool} (hs : (arrived k h)[n]? = some p) :
    (arrived k (h ++ [x]))[n]? = some p := by
  have hn : n < (arrived k h).length := by
    rcases Nat.lt_or_ge n (arrived k h).length with hq | hq
    · exact hq
    · rw [List.getElem?_eq_none hq] at hs; exact absurd hs (by simp)
  rw [arrived_append, List.getElem?_append_left hn]
  exact hs

theorem lt_of_arrived {h : List Step} {k : Bytes} {n : Nat} {p : Bytes × Bool} (hs : (arrived k h)[n]? = some p) : n < (arrived k h).length := by
  rcases Nat.lt_or_ge n (arrived k h).length with hq | hq
  · exact hq
  · rw [List.getElem?_eq_none hq] at hs; exact absurd hs (by simp)

/-- A position from which nothing is skipped. -/
def PosOk (pre : Bytes) (topics : List Bytes) (h : List Step) (l : List Event) (p : Bytes × Nat) : Prop :=
  p.1 ∈ topics ∧ p.2 ≤ (arrived (pre ++ p.1) h).length ∧ ∀ n m, n < p.2 → Stored h (pre ++ p.1) n m → m ≠ [] → Seen l p.1 n

structure InvP (pre : Bytes) (topics : List Bytes) (h : List Step) (s : Sys) : Prop where
  auth : Auth pre topics h (s.given ++ flyOf s)
  closed : Closed pre h [] (s.given ++ flyOf s)
  pos : ∀ c, s.conn = some c → ∀ p ∈ c.pos, PosOk pre topics h (s.given ++ c.fly) p
  tops : ∀ t r, look s.tops t = some r → ∃ e ∈ s.given, e.name = t ∧ e.id = r
  held : ∀ e, s.held = some e → e ∈ s.given

theorem auth_grow {pre : Bytes} {topics : List Bytes} {h : List Step} {l : List Event} (x : Step) (ha : Auth pre topics h l) : Auth pre topics (h ++ [x]) l := by
  intro e he
  obtain ⟨h1, h2, b, h3⟩ := ha e he
  exact ⟨h1, h2, b, arrived_grow h3⟩

theorem closed_grow {pre : Bytes} {topics : List Bytes} {h : List Step} {p l : List Event} (x : Step) (ha : Auth pre topics h l) (hc : Closed pre h p l) :
    Closed pre (h ++ [x]) p l := by
  induction l generalizing p with
  | nil => trivial
  | cons e l ih =>
    refine ⟨fun n m hn hs hm => ?_, ih (fun e he => ha e (List.mem_cons_of_mem _ he)) hc.2⟩
    obtain ⟨_, _, b, h3⟩ := ha e (by simp)
    have := lt_of_arrived h3
    exact hc.1 n m hn (stored_old (by omega) hs) hm

theorem posOk_grow {pre : Bytes} {topics : List Bytes} {h : List Step} {l : List Event} (x : Step) {p : Bytes × Nat} (hp : PosOk pre topics h l p) :
    PosOk pre topics (h ++ [x]) l p := by
  refine ⟨hp.1, ?_, fun n m hn hs hm => hp.2.2 n m hn (stored_old (by have := hp.2.1; omega) hs) hm⟩
  rw [arrived_append, List.length_append]
  have := hp.2.1; omega

theorem inv_grow {pre : Bytes} {topics : List Bytes} {h : List Step} {s : Sys} (x : Step) (hi : InvP pre topics h s) : InvP pre topics (h ++ [x]) s :=
  ⟨auth_grow x hi.auth, closed_grow x hi.auth hi.closed, fun c hc p hp => posOk_grow x (hi.pos c hc p hp), hi.tops, hi.held⟩

/-- Events of one topic, in increasing order and leaving out nothing. -/
theorem closed_topic {pre : Bytes} {h : List Step} {t : Bytes} (L : List (Nat × Bytes)) : ∀ (G : List Event),
    (∀ n m, Stored h (pre ++ t) n m → m ≠ [] → Seen G t n ∨ n ∈ L.map (·.1)) → (L.map (·.1)).Pairwise (· < ·) →
    Closed pre h G (L.map (fun p => ⟨p.1, t, p.2⟩)) := by
  induction L with
  | nil => intro G _ _; trivial
  | cons p L ih =>
    obtain ⟨j, x⟩ := p
    intro G hG hL
    simp only [List.map_cons, List.pairwise_cons] at hL
    have hj : Seen (G ++ [(⟨j, t, x⟩ : Event)]) t j := ⟨⟨j, t, x⟩, by simp, rfl, rfl⟩
    refine ⟨fun n m hn hs hm => ?_, ih _ (fun n m hs hm => ?_) hL.2⟩
    · replace hn : n ≤ j := hn
      rcases hG n m hs hm with hq | hq
      · exact hq.left
      · rcases List.mem_cons.1 hq with hq | hq
        · have hq : n = j := hq
          subst hq; exact hj
        · have := hL.1 n hq
          omega
    · rcases hG n m hs hm with hq | hq
      · exact .inl hq.left
      · rcases List.mem_cons.1 hq with hq | hq
        · have hq : n = j := hq
          subst hq; exact .inl hj
        · exact .inr hq

theorem increasing_length : ∀ (l : List Nat) (i B : Nat), l.Pairwise (· < ·) → (∀ n ∈ l, i ≤ n ∧ n < B) → i ≤ B → i + l.length ≤ B
  | [], i, B, _, _, h => by simpa using h
  | n :: l, i, B, hp, hb, _ => by
    simp only [List.pairwise_cons] at hp
    have h1 := hb n (by simp)
    have := increasing_length l (n + 1) B hp.2 (fun m hm => ⟨hp.1 m hm, (hb m (by simp [hm])).2⟩) (by omega)
    simp only [List.length_cons]; omega

/-- What a successful read of a topic yields. -/
theorem clone_ok {env : Env} (hd : Digests env) {K : Bytes → Prop} {h : List Step} {m : Mailbox} (hi : BoxInv env K h m) {key : Bytes} (hk : K key)
    {fn : Nat} (hf : fn ≤ maxON) {l : List (Nat × Bytes)} (hl : cloneTopicIter env m key fn = .ok l) :
    (l.map (·.1)).Pairwise (· < ·) ∧ (∀ n x, (n, x) ∈ l ↔ fn ≤ n ∧ x ≠ [] ∧ kept x h = true ∧ ∃ b, (arrived key h)[n]? = some (x, b)) ∧
    l = (letters h key fn).filter (fun p => decide (p.2 ≠ [])) := by
  rw [clone_eq hd hi hk hf] at hl
  split at hl
  · injection hl with hl
    subst hl
    refine ⟨?_, fun n x => ?_, rfl⟩
    · rw [List.pairwise_map]
      have := letters_increasing h key fn
      rw [List.pairwise_map] at this
      exact this.filter _
    · rw [List.mem_filter, mem_letters]
      simp only [decide_eq_true_eq]
      constructor
      · rintro ⟨⟨h1, h2, h3⟩, h4⟩; exact ⟨h1, h4, h2, h3⟩
      · rintro ⟨h1, h4, h2, h3⟩; exact ⟨⟨h1, h2, h3⟩, h4⟩
  · exact absurd hl (by simp)

theorem serveLoop_ok {env : Env} (hd : Digests env) {K : Bytes → Prop} {h : List Step} {m : Mailbox} (hi : BoxInv env K h m) {pre : Bytes} {topics : List Bytes}
    (hk : ∀ t ∈ topics, K (pre ++ t)) (hlen : h.length ≤ maxON) (r : List (Bytes × Nat)) : ∀ (G : List Event) (r' : List (Bytes × Nat)) (evs : List Event),
    serveLoop env m pre r = (r', .ok evs) → Auth pre topics h G → Closed pre h [] G → (∀ p ∈ r, PosOk pre topics h G p) →
    Auth pre topics h (G ++ evs) ∧ Closed pre h [] (G ++ evs) ∧ (∀ p ∈ r', PosOk pre topics h (G ++ evs) p) ∧
    (∀ p ∈ r, ∀ n x, Stored h (pre ++ p.1) n x → x ≠ [] → Seen (G ++ evs) p.1 n) := by
  induction r with
  | nil =>
    intro G r' evs hs ha hc _
    simp only [serveLoop, Prod.mk.injEq, Except.ok.injEq] at hs
    obtain ⟨rfl, rfl⟩ := hs
    rw [List.append_nil]
    exact ⟨ha, hc, by simp, by simp⟩
  | cons p r ih =>
    obtain ⟨t, idx⟩ := p
    intro G r' evs hs ha hc hp
    simp only [serveLoop] at hs
    split at hs
    · exact absurd hs (by simp)
    rename_i l hl
    split at hs
    · exact absurd hs (by simp)
    rename_i r1 evs1 hr1
    simp only [Prod.mk.injEq, Except.ok.injEq] at hs
    obtain ⟨rfl, rfl⟩ := hs
    have hp0 := hp (t, idx) (by simp)
    have htt : t ∈ topics := hp0.1
    have hle : idx ≤ (arrived (pre ++ t) h).length := hp0.2.1
    have hal := arrived_length (pre ++ t) h
    obtain ⟨h1, h2, _⟩ := clone_ok hd hi (hk t htt) (by omega) hl
    have hcov : ∀ n x, Stored h (pre ++ t) n x → x ≠ [] → Seen G t n ∨ n ∈ l.map (·.1) := by
      intro n x hs hx
      rcases Nat.lt_or_ge n idx with hq | hq
      · exact .inl (hp0.2.2 n x hq hs hx)
      · exact .inr (List.mem_map.2 ⟨(n, x), (h2 n x).2 ⟨hq, hx, kept_of_stored hs, true, hs⟩, rfl⟩)
    have ha1 : Auth pre topics h (G ++ l.map (fun p => (⟨p.1, t, p.2⟩ : Event))) := by
      intro e he
      rcases List.mem_append.1 he with he | he
      · exact ha e he
      · obtain ⟨⟨n, x⟩, hq, rfl⟩ := List.mem_map.1 he
        obtain ⟨_, g2, _, g4⟩ := (h2 n x).1 hq
        exact ⟨htt, g2, g4⟩
    have hc1 : Closed pre h [] (G ++ l.map (fun p => (⟨p.1, t, p.2⟩ : Event))) := by
      rw [closed_append]
      refine ⟨hc, ?_⟩
      rw [List.nil_append]
      exact closed_topic l G hcov h1
    have hcov1 : ∀ n x, Stored h (pre ++ t) n x → x ≠ [] → Seen (G ++ l.map (fun p => (⟨p.1, t, p.2⟩ : Event))) t n := by
      intro n x hs hx
      rcases hcov n x hs hx with hq | hq
      · exact hq.left
      · obtain ⟨⟨n', y⟩, hy, rfl⟩ := List.mem_map.1 hq
        exact ⟨⟨n', t, y⟩, List.mem_append.2 (.inr (List.mem_map.2 ⟨(n', y), hy, rfl⟩)), rfl, rfl⟩
    obtain ⟨g1, g2, g3, g4⟩ := ih _ r1 evs1 hr1 ha1 hc1 (fun p hq => by
      have := hp p (List.mem_cons_of_mem _ hq)
      exact ⟨this.1, this.2.1, fun n x hn hs hx => (this.2.2 n x hn hs hx).left⟩)
    rw [List.append_assoc] at g1 g2 g3 g4
    refine ⟨g1, g2, ?_, ?_⟩
    · intro p hq
      rcases List.mem_cons.1 hq with rfl | hq
      · refine ⟨htt, ?_, fun n x _ hs hx => ?_⟩
        · have := increasing_length (l.map (·.1)) idx (arrived (pre ++ t) h).length h1 (fun n hn => by
            obtain ⟨⟨n', y⟩, hy, rfl⟩ := List.mem_map.1 hn
            obtain ⟨q1, _, _, b, q2⟩ := (h2 n' y).1 hy
            exact ⟨q1, lt_of_arrived q2⟩) hle
          simpa using this
        · rw [← List.append_assoc]
          exact (hcov1 n x hs hx).left
      · exact g3 p hq
    · intro p hq n x hs hx
      rcases List.mem_cons.1 hq with rfl | hq
      · rw [← List.append_assoc]
        exact (hcov1 n x hs hx).left
      · exact g4 p hq n x hs hx

theorem look_set (l : List (Bytes × Nat)) (k : Bytes) (v : Nat) (t : Bytes) : look (set k v l) t = if t = k then some v else look l t := by
  unfold look
  induction l with
  | nil =>
    unfold set
    rw [List.find?_cons]
    by_cases h : k = t
    · subst h; simp
    · rw [if_neg (Ne.symm h)]; simp [h]
  | cons p l ih =>
    unfold set
    by_cases hp : p.1 = k
    · rw [if_pos hp, List.find?_cons, List.find?_cons]
      by_cases h : k = t
      · subst h; simp
      · rw [if_neg (Ne.symm h)]; simp [h, hp]
    · rw [if_neg hp, List.find?_cons, List.find?_cons]
      by_cases h : p.1 = t
      · subst h; simp [hp]
      · simp only [h, decide_false]
        exact ih

theorem drop_fly {pre : Bytes} {topics : List Bytes} {h : List Step} {g f : List Event} (ha : Auth pre topics h (g ++ f)) (hc : Closed pre h [] (g ++ f)) :
    Auth pre topics h g ∧ Closed pre h [] g :=
  ⟨fun e he => ha e (List.mem_append.2 (.inl he)), (closed_append.1 hc).1⟩

/-- Losing the connection. -/
theorem inv_cutoff {pre : Bytes} {topics : List Bytes} {h : List Step} {s : Sys} (hi : InvP pre topics h s) (box : Mailbox) :
    InvP pre topics h { s with box := box, conn := none } := by
  obtain ⟨h1, h2⟩ := drop_fly hi.auth hi.closed
  refine ⟨?_, ?_, ?_, hi.tops, hi.held⟩
  · show Auth pre topics h (s.given ++ []); rw [List.append_nil]; exact h1
  · show Closed pre h [] (s.given ++ []); rw [List.append_nil]; exact h2
  · intro c hc; exact absurd hc (by simp)

theorem mem_ask {tops : List (Bytes × Nat)} {topics : List Bytes} {p : Bytes × Nat} (h : p ∈ ask tops topics) :
    p.1 ∈ topics ∧ ((look tops p.1 = none ∧ p.2 = 0) ∨ ∃ n, look tops p.1 = some n ∧ p.2 = n + 1) := by
  unfold ask at h
  obtain ⟨t, ht, rfl⟩ := List.mem_map.1 h
  refine ⟨ht, ?_⟩
  cases hq : look tops t with
  | none => exact .inl ⟨rfl, rfl⟩
  | some n => exact .inr ⟨n, rfl, rfl⟩

theorem step_inv {env : Env} (hd : Digests env) {K : Bytes → Prop} {pre : Bytes} {topics : List Bytes} (hk : ∀ t ∈ topics, K (pre ++ t))
    (hne : ∀ t ∈ topics, t ≠ []) {h : List Step} (hlen : h.length < maxON) {s : Sys} (hb : BoxInv env K h s.box) (hi : InvP pre topics h s) (x : Step) :
    InvP pre topics (h ++ [x]) (step env pre topics s x) := by
  have hg := inv_grow x hi
  cases x with
  | store k m => exact ⟨hg.auth, hg.closed, hg.pos, hg.tops, hg.held⟩
  | cut k m => exact inv_cutoff hg _
  | connect =>
    simp only [step]
    split
    · obtain ⟨h1, h2⟩ := drop_fly hg.auth hg.closed
      refine ⟨?_, ?_, ?_, hg.tops, hg.held⟩
      · show Auth _ _ _ (s.given ++ []); rw [List.append_nil]; exact h1
      · show Closed _ _ _ (s.given ++ []); rw [List.append_nil]; exact h2
      · intro c hc p hp
        simp only [Option.some.injEq] at hc
        subst hc
        obtain ⟨q1, q2⟩ := mem_ask hp
        show PosOk _ _ _ (s.given ++ []) p
        rw [List.append_nil]
        rcases q2 with ⟨_, q3⟩ | ⟨n, q2, q3⟩
        · exact ⟨q1, by omega, fun n m hn _ _ => by omega⟩
        · obtain ⟨e, he, rn, ri⟩ := hg.tops p.1 n q2
          obtain ⟨_, _, b, r3⟩ := h1 e he
          rw [rn, ri] at r3
          have := lt_of_arrived r3
          refine ⟨q1, by omega, fun n' m hn hs hm => ?_⟩
          have := closed_mem h2 he (n := n') (m := m) (by omega) (by rw [rn]; exact hs) hm
          rw [rn] at this
          simpa using this
    · exact hg
  | serve =>
    simp only [step]
    split
    · exact hg
    rename_i c hc
    unfold serve
    split
    · exact inv_cutoff hg _
    rename_i pos evs hs
    have hb' : BoxInv env K (h ++ [Step.serve]) s.box := other_inv hb (fun _ => rfl) (fun _ => rfl)
    have hf : flyOf s = c.fly := by unfold flyOf; rw [hc]
    obtain ⟨g1, g2, g3, _⟩ := serveLoop_ok hd hb' hk (by simp; omega) c.pos (s.given ++ c.fly) pos evs hs (by rw [← hf]; exact hg.auth)
      (by rw [← hf]; exact hg.closed) (hg.pos c hc)
    rw [List.append_assoc] at g1 g2 g3
    refine ⟨g1, g2, ?_, hg.tops, hg.held⟩
    intro c' hc' p hp
    simp only [Option.some.injEq] at hc'
    subst hc'
    exact g3 p hp
  | take =>
    simp only [step]
    split
    · exact hg
    rename_i c hc
    split
    · unfold take
      cases hfl : c.fly with
      | nil => exact hg
      | cons e r =>
        have hf : flyOf s = e :: r := by unfold flyOf; rw [hc]; exact hfl
        have ha := hg.auth
        have hcl := hg.closed
        rw [hf] at ha hcl
        obtain ⟨q1, q2, _⟩ := ha e (by simp)
        dsimp only
        rw [if_neg (by
          rintro (hq | hq)
          · exact q2 hq
          · exact hne _ q1 hq)]
        have happ : (s.given ++ [e]) ++ r = s.given ++ e :: r := by simp
        refine ⟨?_, ?_, ?_, ?_, ?_⟩
        · show Auth _ _ _ ((s.given ++ [e]) ++ r); rw [happ]; exact ha
        · show Closed _ _ _ ((s.given ++ [e]) ++ r); rw [happ]; exact hcl
        · intro c' hc' p hp
          simp only [Option.some.injEq] at hc'
          subst hc'
          show PosOk _ _ _ ((s.given ++ [e]) ++ r) p
          rw [happ, ← hfl]
          exact hg.pos c hc p hp
        · intro t n hq
          obtain ⟨e', he', hr⟩ := hg.tops t n hq
          exact ⟨e', List.mem_append.2 (.inl he'), hr⟩
        · intro e' he'
          simp only [Option.some.injEq] at he'
          subst he'
          simp
    · exact hg
  | note =>
    simp only [step]
    split
    · exact hg
    rename_i e he
    refine ⟨hg.auth, hg.closed, hg.pos, ?_, by simp⟩
    intro t n hq
    replace hq : look (set e.name e.id s.tops) t = some n := hq
    rw [look_set] at hq
    split at hq
    · rename_i ht
      injection hq with hq
      exact ⟨e, hg.held e he, ht.symm, hq⟩
    · exact hg.tops t n hq
  | work =>
    simp only [step]
    split
    · exact hg
    · exact ⟨hg.auth, hg.closed, hg.pos, hg.tops, hg.held⟩
  | crash =>
    have := inv_cutoff hg s.box
    exact ⟨this.auth, this.closed, this.pos, this.tops, by simp [step]⟩

theorem run_inv {env : Env} (hd : Digests env) {K : Bytes → Prop} (hK : Apart K) {pre : Bytes} {topics : List Bytes} (hk : ∀ t ∈ topics, K (pre ++ t))
    (hne : ∀ t ∈ topics, t ≠ []) (h : List Step) (hkeys : ∀ k ∈ keysOf h, K k) (hlen : h.length ≤ maxON) :
    InvP pre topics h (run env pre topics init h) := by
  induction h using snoc_ind with
  | h0 =>
    refine ⟨?_, trivial, ?_, ?_, ?_⟩
    · intro e he; simp [run, init, flyOf] at he
    · intro c hc; simp [run, init] at hc
    · intro t r hr; simp [run, init, look] at hr
    · intro e he; simp [run, init] at he
  | h1 h x ih =>
    simp only [List.length_append, List.length_singleton] at hlen
    have hk' : ∀ k ∈ keysOf h, K k := fun k hq => hkeys k (keysOf_snoc.2 (.inl hq))
    rw [run_snoc]
    exact step_inv hd hk hne (by omega) (run_box hd hK pre topics h hk' (by omega)) (ih hk' (by omega)) x

/-- **C110 (nothing skipped), partial.** Whatever arrived, however often the provider or the client died, connections were lost or made again: when the
client has recorded a number for a topic, then every non-empty message stored for its mailbox with that number or a smaller one
has been handed on by the poller, with its number and topic.  Missing: mailbox keys one of which is another followed by a dot; and
handed on is not processed: what a client that dies has in its queue is lost (`c110_lost`). -/
theorem c110_none_skipped_partial {env : Env} (hd : Digests env) {K : Bytes → Prop} (hK : Apart K) {pre : Bytes} {topics : List Bytes}
    (hk : ∀ t ∈ topics, K (pre ++ t)) (hne : ∀ t ∈ topics, t ≠ []) (h : List Step) (hkeys : ∀ k ∈ keysOf h, K k) (hlen : h.length ≤ maxON)
    {t : Bytes} {r : Nat} (hr : look (run env pre topics init h).tops t = some r) {n : Nat} {m : Bytes} (hn : n ≤ r) (hs : Stored h (pre ++ t) n m)
    (hm : m ≠ []) : ⟨n, t, m⟩ ∈ (run env pre topics init h).given := by
  have hi := run_inv hd hK hk hne h hkeys hlen
  obtain ⟨h1, h2⟩ := drop_fly hi.auth hi.closed
  obtain ⟨e, he, rfl, rfl⟩ := hi.tops t r hr
  obtain ⟨e', he', q1, q2⟩ := closed_mem h2 he hn hs hm
  rw [List.nil_append] at he'
  obtain ⟨_, _, b, q3⟩ := h1 e' he'
  rw [q1, q2, show (arrived (pre ++ e.name) h)[n]? = some (m, true) from hs] at q3
  injection q3 with q3
  injection q3 with q3 _
  obtain ⟨i, nm, dt⟩ := e'
  simp only at q1 q2 q3
  rw [q1, q2, ← q3] at he'
  exact he'

/-- **C112 (only one's own), partial.** Every message a poller hands on is one that arrived for the mailbox of its own identifier at the topic and
with the number it came with.  Missing: mailbox keys one of which is another followed by a dot. -/
theorem c112_own_partial {env : Env} (hd : Digests env) {K : Bytes → Prop} (hK : Apart K) {pre : Bytes} {topics : List Bytes}
    (hk : ∀ t ∈ topics, K (pre ++ t)) (hne : ∀ t ∈ topics, t ≠ []) (h : List Step) (hkeys : ∀ k ∈ keysOf h, K k) (hlen : h.length ≤ maxON)
    {e : Event} (he : e ∈ (run env pre topics init h).given) : e.name ∈ topics ∧ ∃ b, (arrived (pre ++ e.name) h)[e.id]? = some (e.data, b) := by
  have hi := run_inv hd hK hk hne h hkeys hlen
  obtain ⟨h1, _, h3⟩ := hi.auth e (List.mem_append.2 (.inl he))
  exact ⟨h1, h3⟩

/-! ## Catching up -/

/-- Taking events one after the other. -/
def drain (k : Nat) : List Step := (List.replicate k [Step.take, Step.note]).flatten

theorem drain_succ (k : Nat) : drain (k + 1) = .take :: .note :: drain k := by
  unfold drain; rw [List.replicate_succ]; rfl

theorem run_cons (env : Env) (pre : Bytes) (topics : List Bytes) (s : Sys) (x : Step) (h : List Step) :
    run env pre topics s (x :: h) = run env pre topics (step env pre topics s x) h := rfl

theorem run_append (env : Env) (pre : Bytes) (topics : List Bytes) (s : Sys) (a b : List Step) :
    run env pre topics s (a ++ b) = run env pre topics (run env pre topics s a) b := by
  unfold run; rw [List.foldl_append]

theorem run_drain (env : Env) (pre : Bytes) (topics : List Bytes) : ∀ (k : Nat) (s : Sys) (c : Conn), s.conn = some c → s.held = none →
    (∀ e ∈ c.fly, e.data ≠ [] ∧ e.name ≠ []) → c.fly.length ≤ k → (run env pre topics s (drain k)).given = s.given ++ c.fly
  | 0, s, c, _, _, _, hl => by
    have : c.fly = [] := List.length_eq_zero_iff.1 (by omega)
    rw [this, List.append_nil]; rfl
  | k + 1, s, c, hc, hh, he, hl => by
    rw [drain_succ, run_cons, run_cons]
    cases hf : c.fly with
    | nil =>
      have h1 : step env pre topics s .take = s := by
        simp only [step, hc, hh, if_true, take, hf]
      have h2 : step env pre topics s .note = s := by simp only [step, hh]
      rw [h1, h2]
      have := run_drain env pre topics k s c hc hh he (by rw [hf]; simp)
      rw [hf] at this
      exact this
    | cons e r =>
      obtain ⟨q1, q2⟩ := he e (by rw [hf]; simp)
      have h1 : step env pre topics s .take =
          { s with conn := some { c with fly := r }, held := some e, queue := s.queue ++ [e], given := s.given ++ [e] } := by
        simp only [step, hc, hh, if_true, take, hf, q1, q2, or_self, if_false]
      rw [h1]
      have := run_drain env pre topics k (step env pre topics { s with conn := some { c with fly := r }, held := some e, queue := s.queue ++ [e], given := s.given ++ [e] } .note)
        { c with fly := r } rfl rfl (fun e' he' => he e' (by rw [hf]; simp [show e' ∈ r from he'])) (by
          rw [hf] at hl
          simp only [List.length_cons] at hl
          show r.length ≤ k
          omega)
      rw [this]
      show (s.given ++ [e]) ++ r = _
      simp

theorem serveLoop_text {env : Env} (hd : Digests env) {K : Bytes → Prop} {h : List Step} {m : Mailbox} (hi : BoxInv env K h m) {pre : Bytes}
    (r : List (Bytes × Nat)) (hr : ∀ p ∈ r, K (pre ++ p.1) ∧ p.2 ≤ maxON)
    (ht : ∀ p ∈ r, ∀ x b, (x, b) ∈ arrived (pre ++ p.1) h → env.text x = true) : ∃ r' evs, serveLoop env m pre r = (r', .ok evs) := by
  induction r with
  | nil => exact ⟨[], [], rfl⟩
  | cons p r ih =>
    obtain ⟨t, idx⟩ := p
    obtain ⟨r', evs, h1⟩ := ih (fun p hp => hr p (List.mem_cons_of_mem _ hp)) (fun p hp => ht p (List.mem_cons_of_mem _ hp))
    obtain ⟨g1, g2⟩ := hr (t, idx) (by simp)
    have h2 := clone_eq hd hi g1 g2
    rw [if_pos (List.all_eq_true.2 (fun p hp => by
      obtain ⟨n, x⟩ := p
      obtain ⟨_, _, b, hb⟩ := mem_letters.1 hp
      exact ht (t, idx) (by simp) x b (List.mem_of_getElem? hb)))] at h2
    simp only [serveLoop]
    rw [h2, h1]
    exact ⟨_, _, rfl⟩

theorem held_note (env : Env) (pre : Bytes) (topics : List Bytes) (s : Sys) : (step env pre topics s .note).held = none := by
  simp only [step]; split
  · rename_i h; exact h
  · rfl

/-- **C110 (catching up), partial.** From whatever state, if the client asks anew, the provider answers and the client takes all events of the answer, then every
non-empty message ever stored for a subscribed mailbox has been handed on.  Missing: mailbox keys one of which is another followed by a dot; messages that
are not text, one of which stops its topic and all others for good (`c110_poisoned`). -/
theorem c110_delivered_partial {env : Env} (hd : Digests env) {K : Bytes → Prop} (hK : Apart K) {pre : Bytes} {topics : List Bytes}
    (hk : ∀ t ∈ topics, K (pre ++ t)) (hne : ∀ t ∈ topics, t ≠ []) (h : List Step) (hkeys : ∀ k ∈ keysOf h, K k) (hlen : h.length + 3 ≤ maxON)
    (ht : ∀ t ∈ topics, ∀ x b, (x, b) ∈ arrived (pre ++ t) h → env.text x = true) :
    ∃ k0, ∀ k, k0 ≤ k → ∀ t ∈ topics, ∀ n m, Stored h (pre ++ t) n m → m ≠ [] →
      ⟨n, t, m⟩ ∈ (run env pre topics init (h ++ [.note, .connect, .serve] ++ drain k)).given := by
  let h2 := h ++ [Step.note] ++ [Step.connect]
  have hkeys2 : ∀ k ∈ keysOf h2, K k := by
    intro k hq
    rcases keysOf_snoc.1 hq with hq | hq
    · rcases keysOf_snoc.1 hq with hq | hq
      · exact hkeys k hq
      · simp [keysOf] at hq
    · simp [keysOf] at hq
  have hlen2 : h2.length = h.length + 2 := by simp [h2]
  have harr : ∀ k, arrived k h2 = arrived k h := fun k => by simp [h2, arrived_append, arrived]
  have hb := run_box hd hK pre topics h2 hkeys2 (by omega)
  have hi := run_inv hd hK hk hne h2 hkeys2 (by omega)
  let s1 := step env pre topics (run env pre topics init h) .note
  have hs1 : s1.held = none := held_note env pre topics _
  have hrun : run env pre topics init h2 = { s1 with conn := some ⟨ask s1.tops topics, []⟩ } := by
    show run env pre topics init (h ++ [Step.note] ++ [Step.connect]) = _
    rw [run_snoc, run_snoc]
    show step env pre topics s1 .connect = _
    simp only [step]
    rw [if_pos hs1]
  have hpos := hi.pos ⟨ask s1.tops topics, []⟩ (by rw [hrun])
  have hbb : BoxInv env K (h2 ++ [Step.serve]) (run env pre topics init h2).box := other_inv hb (fun _ => rfl) (fun _ => rfl)
  obtain ⟨r', evs, hsv⟩ := serveLoop_text hd hb (pre := pre) (ask s1.tops topics) (fun p hp => by
    have h1 := hpos p hp
    have h3 := arrived_length (pre ++ p.1) h2
    have h4 := h1.2.1
    exact ⟨hk _ h1.1, by omega⟩) (fun p hp x b hx => ht p.1 (hpos p hp).1 x b (by rw [harr] at hx; exact hx))
  have hfly : flyOf (run env pre topics init h2) = [] := by rw [hrun]; rfl
  have hgiv : (run env pre topics init h2).given = s1.given := by rw [hrun]
  have hauth := hi.auth
  have hclosed := hi.closed
  rw [hfly, List.append_nil] at hauth hclosed
  obtain ⟨g1, g2, g3, g4⟩ := serveLoop_ok hd hb hk (by omega) (ask s1.tops topics) (run env pre topics init h2).given r' evs hsv hauth hclosed (fun p hp => by
    have := hpos p hp
    rw [List.append_nil] at this
    exact this)
  let s3 := step env pre topics (run env pre topics init h2) .serve
  have hs3 : s3 = { run env pre topics init h2 with conn := some ⟨r', evs⟩ } := by
    show step env pre topics (run env pre topics init h2) .serve = _
    have hcn : (run env pre topics init h2).conn = some ⟨ask s1.tops topics, []⟩ := by rw [hrun]
    simp only [step]
    rw [hcn]
    simp only [serve]
    rw [hsv]
    rfl
  refine ⟨evs.length, fun k hkk t htt n m hs hm => ?_⟩
  have happ : h ++ [.note, .connect, .serve] ++ drain k = (h2 ++ [Step.serve]) ++ drain k := by simp [h2]
  rw [happ, run_append, run_snoc]
  show _ ∈ (run env pre topics s3 (drain k)).given
  have hd3 := run_drain env pre topics k s3 ⟨r', evs⟩ (by rw [hs3]) (by rw [hs3, hrun]; exact hs1) (fun e he => by
    obtain ⟨q1, q2, _⟩ := g1 e (List.mem_append.2 (.inr he))
    exact ⟨q2, hne _ q1⟩) hkk
  rw [hd3, hs3]
  show _ ∈ (run env pre topics init h2).given ++ evs
  have hin : ∃ i, (t, i) ∈ ask s1.tops topics := ⟨_, List.mem_map.2 ⟨t, htt, rfl⟩⟩
  obtain ⟨i, hin⟩ := hin
  obtain ⟨e, he, q1, q2⟩ := g4 (t, i) hin n m (by unfold Stored; rw [harr]; exact hs) hm
  obtain ⟨_, _, b, q3⟩ := g1 e he
  rw [harr, q1, q2, show (arrived (pre ++ t) h)[n]? = some (m, true) from hs] at q3
  injection q3 with q3
  injection q3 with q3 _
  obtain ⟨i', nm, dt⟩ := e
  simp only at q1 q2 q3
  rw [q1, q2, ← q3] at he
  exact he

end Verif.Mbx
