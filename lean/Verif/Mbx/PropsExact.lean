import Verif.Mbx.PropsPoll

/-! # C111: messages are handed on once and in order -/

namespace Verif.Mbx
open Verif.Db

/-! ## Specification -/

/-- The events that a topic should yield: all messages that arrived for it, numbered from 0 in the order of their arrival. -/
def expected (pre : Bytes) (h : List Step) (t : Bytes) : List Event := ((arrived (pre ++ t) h).map (·.1)).zipIdx.map (fun p => ⟨p.2, t, p.1⟩)

/-- Events of a topic. -/
def ofTopic (t : Bytes) (l : List Event) : List Event := l.filter (fun e => decide (e.name = t))

/-- Neither side dies, and no message is empty. -/
structure Smooth (h : List Step) : Prop where
  cut : ∀ k m, Step.cut k m ∉ h
  crash : Step.crash ∉ h
  full : ∀ k, Step.store k [] ∉ h

/-! ## Lemmas -/

theorem zipIdx_from {α : Type} (l : List α) (k fn : Nat) : (l.zipIdx k).filter (fun p => decide (fn ≤ p.2)) = (l.zipIdx k).drop (fn - k) := by
  induction l generalizing k with
  | nil => simp
  | cons a l ih =>
    rw [List.zipIdx_cons]
    by_cases h : fn ≤ k
    · rw [List.filter_cons_of_pos (by simpa using h), ih, show fn - k = 0 by omega, show fn - (k + 1) = 0 by omega]; rfl
    · rw [List.filter_cons_of_neg (by simpa using h), ih, show fn - k = (fn - (k + 1)) + 1 by omega]; rfl

theorem letters_from {h : List Step} (hs : Smooth h) (k : Bytes) (fn : Nat) :
    (letters h k fn).filter (fun p : Nat × Bytes => decide (p.2 ≠ [])) = (((arrived k h).map (·.1)).zipIdx.map (fun p => (p.2, p.1))).drop fn := by
  rw [List.filter_eq_self.2]
  · have : letters h k fn = ((arrived k h).zipIdx.filter (fun p => decide (fn ≤ p.2))).map (fun p => (p.2, p.1.1)) := by
      unfold letters
      congr 1
      apply List.filter_congr
      rintro ⟨⟨m, b⟩, n⟩ hp
      rw [kept_all hs.cut (List.fst_mem_of_mem_zipIdx hp), Bool.and_true]
    rw [this, zipIdx_from, List.zipIdx_map, List.map_map, ← List.map_drop]; rfl
  · rintro ⟨n, x⟩ hp
    obtain ⟨_, _, b, hb⟩ := mem_letters.1 hp
    rcases mem_arrived (List.mem_of_getElem? hb) with ⟨_, h1⟩ | ⟨_, h1⟩
    · have : x ≠ [] := fun hx => hs.full k (hx ▸ h1)
      simp [this]
    · exact absurd h1 (hs.cut _ _)

theorem expected_length (pre : Bytes) (h : List Step) (t : Bytes) : (expected pre h t).length = (arrived (pre ++ t) h).length := by
  simp [expected]

theorem expected_grow (pre : Bytes) (h : List Step) (x : Step) (t : Bytes) : expected pre h t <+: expected pre (h ++ [x]) t := by
  unfold expected
  rw [arrived_append, List.map_append, List.zipIdx_append, List.map_append]
  exact List.prefix_append _ _

theorem expected_id {pre : Bytes} {h : List Step} {t : Bytes} {n : Nat} {e : Event} (he : (expected pre h t)[n]? = some e) : e.id = n := by
  unfold expected at he
  simp only [List.getElem?_map, List.getElem?_zipIdx, Option.map_map, Option.map_eq_some_iff] at he
  obtain ⟨_, _, rfl⟩ := he
  simp

theorem ofTopic_append (t : Bytes) (a b : List Event) : ofTopic t (a ++ b) = ofTopic t a ++ ofTopic t b := List.filter_append ..

theorem ofTopic_self (t : Bytes) (l : List (Nat × Bytes)) : ofTopic t (l.map (fun p => ⟨p.1, t, p.2⟩)) = l.map (fun p => ⟨p.1, t, p.2⟩) := by
  unfold ofTopic
  rw [List.filter_eq_self]
  intro e he
  obtain ⟨p, _, rfl⟩ := List.mem_map.1 he
  simp

theorem ofTopic_other {t t' : Bytes} (ht : t' ≠ t) (l : List (Nat × Bytes)) : ofTopic t (l.map (fun p => ⟨p.1, t', p.2⟩)) = [] := by
  unfold ofTopic
  rw [List.filter_eq_nil_iff]
  intro e he
  obtain ⟨p, _, rfl⟩ := List.mem_map.1 he
  simp [ht]

theorem serveLoop_exact {env : Env} (hd : Digests env) {K : Bytes → Prop} {h : List Step} (hsm : Smooth h) {m : Mailbox} (hi : BoxInv env K h m) {pre : Bytes}
    (hlen : h.length ≤ maxON) (r : List (Bytes × Nat)) : ∀ (r' : List (Bytes × Nat)) (evs : List Event), serveLoop env m pre r = (r', .ok evs) →
    (∀ p ∈ r, K (pre ++ p.1) ∧ p.2 ≤ (arrived (pre ++ p.1) h).length) → (r.map (·.1)).Nodup →
    r'.map (·.1) = r.map (·.1) ∧ (∀ p ∈ r', p.2 = (arrived (pre ++ p.1) h).length) ∧
    (∀ p ∈ r, ofTopic p.1 evs = (expected pre h p.1).drop p.2) ∧ (∀ t, t ∉ r.map (·.1) → ofTopic t evs = []) := by
  induction r with
  | nil =>
    intro r' evs hs _ _
    simp only [serveLoop, Prod.mk.injEq, Except.ok.injEq] at hs
    obtain ⟨rfl, rfl⟩ := hs
    exact ⟨rfl, by simp, by simp, fun _ _ => rfl⟩
  | cons p r ih =>
    obtain ⟨t, idx⟩ := p
    intro r' evs hs hp hn
    simp only [serveLoop] at hs
    split at hs
    · exact absurd hs (by simp)
    rename_i l hl
    split at hs
    · exact absurd hs (by simp)
    rename_i r1 evs1 hr1
    simp only [Prod.mk.injEq, Except.ok.injEq] at hs
    obtain ⟨rfl, rfl⟩ := hs
    simp only [List.map_cons, List.nodup_cons] at hn
    obtain ⟨g1, g2, g3, g4⟩ := ih r1 evs1 hr1 (fun p hq => hp p (List.mem_cons_of_mem _ hq)) hn.2
    obtain ⟨hk, hle⟩ := hp (t, idx) (by simp)
    replace hle : idx ≤ (arrived (pre ++ t) h).length := hle
    have hal := arrived_length (pre ++ t) h
    obtain ⟨_, _, h3⟩ := clone_ok hd hi hk (by omega) hl
    rw [letters_from hsm] at h3
    have hev : l.map (fun p => (⟨p.1, t, p.2⟩ : Event)) = (expected pre h t).drop idx := by
      rw [h3, List.map_drop, List.map_map]; rfl
    have hll : idx + l.length = (arrived (pre ++ t) h).length := by
      rw [h3]; simp; omega
    refine ⟨by simp [g1], ?_, ?_, ?_⟩
    · intro p hq
      rcases List.mem_cons.1 hq with rfl | hq
      · exact hll
      · exact g2 p hq
    · intro p hq
      rcases List.mem_cons.1 hq with rfl | hq
      · rw [ofTopic_append, ofTopic_self, hev, g4 _ hn.1, List.append_nil]
      · have : t ≠ p.1 := fun ht => hn.1 (ht ▸ List.mem_map.2 ⟨p, hq, rfl⟩)
        rw [ofTopic_append, ofTopic_other this, List.nil_append]
        exact g3 p hq
    · intro t' ht
      simp only [List.map_cons, List.mem_cons, not_or] at ht
      rw [ofTopic_append, ofTopic_other (Ne.symm ht.1), List.nil_append]
      exact g4 t' ht.2

/-- Of the events handed on for a topic, how many the client has recorded. -/
def recorded (s : Sys) (t : Bytes) : Nat := (ofTopic t s.given).length - (match s.held with
  | some e => if e.name = t then 1 else 0
  | none => 0)

structure InvE (pre : Bytes) (topics : List Bytes) (h : List Step) (s : Sys) : Prop where
  bag : s.done ++ s.queue = s.given
  given : ∀ t ∈ topics, ofTopic t s.given <+: expected pre h t
  held : ∀ e, s.held = some e → e.id + 1 = (ofTopic e.name s.given).length
  tops : ∀ t ∈ topics, look s.tops t = if recorded s t = 0 then none else some (recorded s t - 1)
  conn : ∀ c, s.conn = some c → c.pos.map (·.1) = topics ∧
    ∀ p ∈ c.pos, ofTopic p.1 (s.given ++ c.fly) <+: expected pre h p.1 ∧ (ofTopic p.1 (s.given ++ c.fly)).length = p.2

theorem invE_grow {pre : Bytes} {topics : List Bytes} {h : List Step} {s : Sys} (x : Step) (hi : InvE pre topics h s) : InvE pre topics (h ++ [x]) s :=
  ⟨hi.bag, fun t ht => (hi.given t ht).trans (expected_grow pre h x t), hi.held, hi.tops, fun c hc =>
    ⟨(hi.conn c hc).1, fun p hp => ⟨((hi.conn c hc).2 p hp).1.trans (expected_grow pre h x p.1), ((hi.conn c hc).2 p hp).2⟩⟩⟩

theorem prefix_fill {α : Type} {a l : List α} {n : Nat} (hp : a <+: l) (hl : a.length = n) : a ++ l.drop n = l := by
  obtain ⟨b, rfl⟩ := hp
  rw [← hl, List.drop_left]

theorem stepE {env : Env} (hd : Digests env) {K : Bytes → Prop} {pre : Bytes} {topics : List Bytes} (hk : ∀ t ∈ topics, K (pre ++ t)) (hne : ∀ t ∈ topics, t ≠ [])
    (hnd : topics.Nodup) {h : List Step} {s : Sys} (x : Step) (hsm : Smooth (h ++ [x])) (hlen : h.length < maxON) (hb : BoxInv env K h s.box)
    (hp : InvP pre topics h s) (hi : InvE pre topics h s) : InvE pre topics (h ++ [x]) (step env pre topics s x) := by
  have hg := invE_grow x hi
  cases x with
  | store k m => exact ⟨hg.bag, hg.given, hg.held, hg.tops, hg.conn⟩
  | cut k m => exact absurd (by simp) (hsm.cut k m)
  | crash => exact absurd (by simp) hsm.crash
  | connect =>
    simp only [step]
    split
    · rename_i hh
      refine ⟨hg.bag, hg.given, hg.held, hg.tops, ?_⟩
      intro c hc
      simp only [Option.some.injEq] at hc
      subst hc
      refine ⟨by
        show (ask s.tops topics).map (·.1) = topics
        unfold ask
        rw [List.map_map]
        exact List.map_id topics, fun p hq => ?_⟩
      show ofTopic p.1 (s.given ++ []) <+: _ ∧ (ofTopic p.1 (s.given ++ [])).length = p.2
      rw [List.append_nil]
      obtain ⟨q1, q2⟩ := mem_ask hq
      refine ⟨hg.given _ q1, ?_⟩
      have h1 := hg.tops _ q1
      have h2 : recorded s p.1 = (ofTopic p.1 s.given).length := by unfold recorded; rw [hh]; rfl
      rw [h2] at h1
      rcases q2 with ⟨q2, q3⟩ | ⟨n, q2, q3⟩
      · rw [q2] at h1
        split at h1
        · omega
        · exact absurd h1 (by simp)
      · rw [q2] at h1
        split at h1
        · exact absurd h1 (by simp)
        · injection h1 with h1; omega
    · exact hg
  | serve =>
    simp only [step]
    split
    · exact hg
    rename_i c hc
    unfold serve
    split
    · exact ⟨hg.bag, hg.given, hg.held, hg.tops, fun c hc => absurd hc (by simp)⟩
    rename_i pos evs hs
    have hb' : BoxInv env K (h ++ [Step.serve]) s.box := other_inv hb (fun _ => rfl) (fun _ => rfl)
    obtain ⟨c1, c2⟩ := hg.conn c hc
    have hmem : ∀ p ∈ c.pos, p.1 ∈ topics := fun p hq => by rw [← c1]; exact List.mem_map.2 ⟨p, hq, rfl⟩
    obtain ⟨g1, g2, g3, _⟩ := serveLoop_exact hd hsm hb' (by simp; omega) c.pos pos evs hs (fun p hq => by
      refine ⟨hk _ (hmem p hq), ?_⟩
      have := (c2 p hq).1.length_le
      rw [(c2 p hq).2, expected_length] at this
      exact this) (by rw [c1]; exact hnd)
    refine ⟨hg.bag, hg.given, hg.held, hg.tops, ?_⟩
    intro c' hc'
    simp only [Option.some.injEq] at hc'
    subst hc'
    refine ⟨g1.trans c1, fun p hq => ?_⟩
    have h1 := g2 p hq
    have h2 : p.1 ∈ c.pos.map (·.1) := by rw [← g1]; exact List.mem_map.2 ⟨p, hq, rfl⟩
    obtain ⟨p0, hq0, he0⟩ := List.mem_map.1 h2
    obtain ⟨d1, d2⟩ := c2 p0 hq0
    have d3 := g3 p0 hq0
    rw [he0] at d1 d2 d3
    have : ofTopic p.1 (s.given ++ (c.fly ++ evs)) = expected pre (h ++ [Step.serve]) p.1 := by
      rw [← List.append_assoc, ofTopic_append, d3]
      exact prefix_fill d1 d2
    show ofTopic p.1 (s.given ++ (c.fly ++ evs)) <+: _ ∧ (ofTopic p.1 (s.given ++ (c.fly ++ evs))).length = p.2
    rw [this, expected_length, h1]
    exact ⟨List.prefix_refl _, rfl⟩
  | take =>
    simp only [step]
    split
    · exact hg
    rename_i c hc
    split
    · rename_i hh
      unfold take
      cases hfl : c.fly with
      | nil => exact hg
      | cons e r =>
        have hf : flyOf s = e :: r := by unfold flyOf; rw [hc]; exact hfl
        obtain ⟨q1, q2, _⟩ := hp.auth e (by rw [hf]; simp)
        dsimp only
        rw [if_neg (by
          rintro (hq | hq)
          · exact q2 hq
          · exact hne _ q1 hq)]
        obtain ⟨c1, c2⟩ := hg.conn c hc
        have happ : s.given ++ c.fly = (s.given ++ [e]) ++ r := by rw [hfl]; simp
        have hpre : ∀ t ∈ topics, ofTopic t (s.given ++ [e]) <+: expected pre (h ++ [Step.take]) t := by
          intro t ht
          rw [← c1] at ht
          obtain ⟨p, hq, rfl⟩ := List.mem_map.1 ht
          have := (c2 p hq).1
          rw [happ, ofTopic_append] at this
          exact (List.prefix_append _ _).trans this
        refine ⟨?_, hpre, ?_, ?_, ?_⟩
        · show s.done ++ (s.queue ++ [e]) = s.given ++ [e]
          rw [← List.append_assoc, hg.bag]
        · intro e' he'
          simp only [Option.some.injEq] at he'
          subst he'
          show e.id + 1 = (ofTopic e.name (s.given ++ [e])).length
          have h1 := hpre e.name q1
          have h2 : ofTopic e.name (s.given ++ [e]) = ofTopic e.name s.given ++ [e] := by rw [ofTopic_append]; simp [ofTopic]
          rw [h2] at h1 ⊢
          obtain ⟨b, hb⟩ := h1
          have h3 : (expected pre (h ++ [Step.take]) e.name)[(ofTopic e.name s.given).length]? = some e := by
            rw [← hb, List.append_assoc, List.getElem?_append_right (Nat.le_refl _), Nat.sub_self]; rfl
          have := expected_id h3
          simp only [List.length_append, List.length_singleton]
          omega
        · intro t ht
          have h1 := hg.tops t ht
          have h2 : recorded s t = (ofTopic t s.given).length := by unfold recorded; rw [hh]; rfl
          have h3 : recorded { s with conn := some { c with fly := r }, held := some e, queue := s.queue ++ [e], given := s.given ++ [e] } t =
              (ofTopic t s.given).length := by
            unfold recorded
            dsimp only
            rw [ofTopic_append, List.length_append]
            by_cases hq : e.name = t
            · rw [if_pos hq]; simp [ofTopic, hq]
            · rw [if_neg hq]; simp [ofTopic, hq]
          rw [h3, ← h2]
          exact h1
        · intro c' hc'
          simp only [Option.some.injEq] at hc'
          subst hc'
          refine ⟨c1, fun p hq => ?_⟩
          show ofTopic p.1 ((s.given ++ [e]) ++ r) <+: _ ∧ _ = _
          have := c2 p hq
          rw [happ] at this
          exact this
    · exact hg
  | note =>
    simp only [step]
    split
    · exact hg
    rename_i e he
    refine ⟨hg.bag, hg.given, by simp, ?_, hg.conn⟩
    intro t ht
    have h1 := hg.tops t ht
    have h2 := hg.held e he
    have h3 : recorded { s with held := none, tops := set e.name e.id s.tops } t = (ofTopic t s.given).length := rfl
    rw [h3]
    show look (set e.name e.id s.tops) t = _
    rw [look_set]
    by_cases hq : t = e.name
    · subst hq
      rw [if_pos rfl, if_neg (by omega)]
      congr 1; omega
    · rw [if_neg hq, h1]
      have : recorded s t = (ofTopic t s.given).length := by
        unfold recorded; rw [he]; simp [Ne.symm hq]
      rw [this]
  | work =>
    simp only [step]
    split
    · exact hg
    · rename_i e r hq
      refine ⟨?_, hg.given, hg.held, hg.tops, hg.conn⟩
      show (s.done ++ [e]) ++ r = s.given
      rw [← hg.bag, hq]; simp

theorem smooth_init {h : List Step} {x : Step} (hs : Smooth (h ++ [x])) : Smooth h :=
  ⟨fun k m hq => hs.cut k m (by simp [hq]), fun hq => hs.crash (by simp [hq]), fun k hq => hs.full k (by simp [hq])⟩

theorem runE {env : Env} (hd : Digests env) {K : Bytes → Prop} (hK : Apart K) {pre : Bytes} {topics : List Bytes} (hk : ∀ t ∈ topics, K (pre ++ t))
    (hne : ∀ t ∈ topics, t ≠ []) (hnd : topics.Nodup) (h : List Step) (hkeys : ∀ k ∈ keysOf h, K k) (hlen : h.length ≤ maxON) (hsm : Smooth h) :
    InvE pre topics h (run env pre topics init h) := by
  induction h using snoc_ind with
  | h0 =>
    refine ⟨rfl, fun t _ => List.nil_prefix, ?_, ?_, ?_⟩
    · intro e he; simp [run, init] at he
    · intro t ht; simp [run, init, look, recorded, ofTopic]
    · intro c hc; simp [run, init] at hc
  | h1 h x ih =>
    simp only [List.length_append, List.length_singleton] at hlen
    have hk' : ∀ k ∈ keysOf h, K k := fun k hq => hkeys k (keysOf_snoc.2 (.inl hq))
    rw [run_snoc]
    exact stepE hd hk hne hnd x hsm (by omega) (run_box hd hK pre topics h hk' (by omega)) (run_inv hd hK hk hne h hk' (by omega))
      (ih hk' (by omega) (smooth_init hsm))

/-- **C111, partial.** While neither side dies, and however connections are lost or made again, the messages handed on for a topic are
exactly the first so many that arrived for it, each once, in the order of their arrival and with the numbers 0, 1, 2, …; and what has left the queue for the parser,
followed by what is still in it, is all that was handed on.  Missing: mailbox keys one of which is another followed by a dot; empty
messages and deaths, after each of which a message can be handed on twice (`c111_twice_gap`, `c111_twice_crash`), and the death of the client,
after which some may never be parsed (`c110_lost`). -/
theorem c111_exact_partial {env : Env} (hd : Digests env) {K : Bytes → Prop} (hK : Apart K) {pre : Bytes} {topics : List Bytes} (hk : ∀ t ∈ topics, K (pre ++ t))
    (hne : ∀ t ∈ topics, t ≠ []) (hnd : topics.Nodup) (h : List Step) (hkeys : ∀ k ∈ keysOf h, K k) (hlen : h.length ≤ maxON) (hsm : Smooth h) :
    (∀ t ∈ topics, ∃ k ≤ (arrived (pre ++ t) h).length, ofTopic t (run env pre topics init h).given = (expected pre h t).take k) ∧
    (run env pre topics init h).done ++ (run env pre topics init h).queue = (run env pre topics init h).given := by
  have hi := runE hd hK hk hne hnd h hkeys hlen hsm
  refine ⟨fun t ht => ?_, hi.bag⟩
  have h1 := hi.given t ht
  refine ⟨(ofTopic t (run env pre topics init h).given).length, ?_, ?_⟩
  · have := h1.length_le
    rw [expected_length] at this
    exact this
  · exact List.prefix_iff_eq_take.1 h1

end Verif.Mbx
