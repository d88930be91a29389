import Verif.Mad.CompactVary

/-! # What the most compact form determines -/

namespace Verif.Mad

open Verif.B64 Verif.Matter

/-- Text of one byte per character below 128 is UTF-8. -/
def Ascii (env : Env) : Prop := ∀ b, (∀ x ∈ b, x < 128) → env.utf8 b = true

section
variable {w : World} {kind : Kind} {saids : Saids}

theorem idx_range {c : Char} (h : (idx c).isSome = true) : c.toNat < 128 ∧ c ≠ '+' ∧ c ≠ '/' := by
  have key : alphabet.all (fun c => decide (c.toNat < 128) && decide (c ≠ '+') && decide (c ≠ '/')) = true := by decide +kernel
  have hm : c ∈ alphabet := by
    unfold idx at h
    dsimp only at h
    split at h
    · next hk => exact List.idxOf_lt_length_iff.1 hk
    · exact absurd h (by simp)
  have := List.all_eq_true.1 key c hm
  simp only [Bool.and_eq_true, decide_eq_true_eq] at this
  exact ⟨this.1.1, this.1.2, this.2⟩

theorem good_b64 {env : Env} (ha : Ascii env) {t : List Char} (h : reb64 t = true) : Good env (.text t) := by
  have hc : ∀ c ∈ t, (idx c).isSome = true := fun c hc => by
    unfold reb64 at h
    exact List.all_eq_true.1 h c hc
  rw [Good]
  refine ⟨⟨fun c h => Nat.lt_trans (idx_range (hc c h)).1 (by omega), ha _ ?_⟩, fun _ => ⟨?_, ?_⟩⟩
  · intro x hx
    obtain ⟨c, h1, rfl⟩ := List.mem_map.1 hx
    exact (idx_range (hc c h1)).1
  · intro h1; exact (idx_range (hc _ h1)).2.1 rfl
  · intro h1; exact (idx_range (hc _ h1)).2.2 rfl

theorem digest_b64 {code ser t : List Char} (hw : HashOk w) (h : digestOf w code ser = .ok t) : reb64 t = true := by
  unfold digestOf at h
  split at h
  · exact absurd h (by simp)
  split at h
  · exact absurd h (by simp)
  next hc =>
  simp only [Decidable.not_not] at hc
  obtain ⟨h1, _⟩ := hash_size hw hc ser
  unfold qb64Of at h
  split at h
  · exact absurd h (by simp)
  next m hm =>
  obtain ⟨q, q1, q2, q3⟩ := make_reads h1 hm
  have hq := q1.text
  rw [h] at hq
  injection hq with hq
  subst hq
  exact q2

theorem good_filled {env : Env} (f : List Char → List Char) (s : Saids) : ∀ (fs : Flds), (∀ l c, (l, c) ∈ s → l ∈ fs.map (·.1) → Good env (.text (f c))) →
    GoodFlds env fs → GoodFlds env (filled f s fs)
  | [], _, _ => by simp [filled, GoodFlds]
  | (l, v) :: r, hf, h => by
    rw [GoodFlds] at h
    have := good_filled f s r (fun l c h1 h2 => hf l c h1 (by rw [List.map_cons]; exact List.mem_cons_of_mem _ h2)) h.2.2
    unfold filled at this ⊢
    rw [List.map_cons, GoodFlds]
    refine ⟨h.1, ?_, this⟩
    dsimp only
    cases hg : getKey s l with
    | none => exact h.2.1
    | some c => exact hf l c (getKey_mem hg) (by simp)

theorem good_made {env : Env} (ha : Ascii env) (hw : HashOk w) (hs : Dict saids) {strict : Bool} {mad mad' : Flds} {raw : List Char} {s : Saids}
    (hg : Good env (.map mad)) (h : makify w kind strict saids mad = .ok (raw, mad', s)) : Good env (.map mad') := by
  rw [Good] at hg ⊢
  obtain ⟨ser, f, h1, h2, _, h4, _⟩ := makify_facts hw hg.1 hs h
  rw [h2]
  refine ⟨by rw [filled_keys]; exact hg.1, good_filled f s mad ?_ hg.2⟩
  intro l c hl hm
  refine good_b64 ha (digest_b64 hw (h4 l c hl ?_))
  cases hk : getKey mad l with
  | some _ => rfl
  | none => exact absurd hm (getKey_none.1 hk)

theorem good_field {env : Env} : ∀ {fs : Flds}, GoodFlds env fs → ∀ p ∈ fs, Good env p.2
  | [], _, p, hp => absurd hp (by simp)
  | (l, v) :: r, h, p, hp => by
    rw [GoodFlds] at h
    rw [List.mem_cons] at hp
    rcases hp with rfl | hp
    · exact h.2.1
    · exact good_field h.2.2 p hp

theorem good_saidVal {env : Env} {fs : Flds} (h : GoodFlds env fs) : Good env (saidVal saids fs) := by
  unfold saidVal
  split
  · simp [Good]
  split
  · next hg => exact good_field h _ (getKey_mem hg)
  · simp [Good]

mutual
theorem rolledV_good (w : World) (kind : Kind) (saids : Saids) (env : Env) (ha : Ascii env) (hw : HashOk w) (hs : Dict saids) : ∀ (v x : Val), Good env v →
    rolledV w kind saids v = .ok x → Good env x
  | .map fs, x, g, h => by
    rw [Good] at g
    rw [rolledV] at h
    split at h
    · exact absurd h (by simp)
    next fs1 hf =>
    have h1 := rolledF_good w kind saids env ha hw hs fs fs1 g.2 hf
    have hg : Good env (.map fs1) := by rw [Good]; exact ⟨by rw [rolledF_keys hf]; exact g.1, h1⟩
    split at h
    · split at h
      · exact absurd h (by simp)
      next hm =>
      injection h with h
      subst h
      have := good_made ha hw hs hg hm
      rw [Good] at this
      exact good_saidVal this.2
    · injection h with h
      subst h
      exact hg
  | .null, x, g, h => by simp only [rolledV, Except.ok.injEq] at h; subst h; exact g
  | .bool _, x, g, h => by simp only [rolledV, Except.ok.injEq] at h; subst h; exact g
  | .num _, x, g, h => by simp only [rolledV, Except.ok.injEq] at h; subst h; exact g
  | .text _, x, g, h => by simp only [rolledV, Except.ok.injEq] at h; subst h; exact g
  | .list _, x, g, h => by simp only [rolledV, Except.ok.injEq] at h; subst h; exact g

theorem rolledF_good (w : World) (kind : Kind) (saids : Saids) (env : Env) (ha : Ascii env) (hw : HashOk w) (hs : Dict saids) : ∀ (fs fs1 : Flds), GoodFlds env fs →
    rolledF w kind saids fs = .ok fs1 → GoodFlds env fs1
  | [], _, g, h => by simp only [rolledF, Except.ok.injEq] at h; subst h; exact g
  | (l, v) :: r, fs1, g, h => by
    rw [GoodFlds] at g
    rw [rolledF] at h
    split at h
    · exact absurd h (by simp)
    split at h
    · exact absurd h (by simp)
    next v1 hv =>
    split at h
    · exact absurd h (by simp)
    next r1 hr =>
    injection h with h
    subst h
    rw [GoodFlds]
    exact ⟨g.1, rolledV_good w kind saids env ha hw hs v v1 g.2.1 hv, rolledF_good w kind saids env ha hw hs r r1 g.2.2 hr⟩
end

theorem rolledTop_good {env : Env} (ha : Ascii env) (hw : HashOk w) (hs : Dict saids) {mad r : Flds} (g : Good env (.map mad))
    (h : rolledTop w kind saids mad = .ok r) : Good env (.map r) := by
  rw [Good] at g
  rw [rolledTop] at h
  split at h
  · exact absurd h (by simp)
  next fs1 hf =>
  have h1 := rolledF_good w kind saids env ha hw hs mad fs1 g.2 hf
  have hg : Good env (.map fs1) := by rw [Good]; exact ⟨by rw [rolledF_keys hf]; exact g.1, h1⟩
  split at h
  · split at h
    · exact absurd h (by simp)
    next hm =>
    injection h with h
    subst h
    exact good_made ha hw hs hg hm
  · injection h with h
    subst h
    exact hg

theorem block_good {env : Env} {v : Val} {b : Flds} (h : Block v b) (g : Good env v) : Good env (.map b) := by
  induction h with
  | self fs => exact g
  | inner hm _ ih => rw [Good] at g; exact ih (good_field g.2 _ hm)

theorem tidy_field : ∀ {fs : Flds}, TidyF fs → ∀ p ∈ fs, Tidy p.2
  | [], _, p, hp => absurd hp (by simp)
  | (l, v) :: r, h, p, hp => by
    rw [TidyF] at h
    rw [List.mem_cons] at hp
    rcases hp with rfl | hp
    · exact h.2.1
    · exact tidy_field h.2.2 p hp

/-- A commitment: maps that verify with the same first SAID are the same but for their SAIDs, or collide. -/
def Commits (w : World) (kind : Kind) (saids : Saids) (P : Flds → Prop) : Prop :=
  ∀ r1 r2 l d v, P r1 → P r2 → verify w kind true saids r1 = .ok () → verify w kind true saids r2 = .ok () → (l, d) ∈ saids → (l, v) ∈ r1 → (l, v) ∈ r2 →
    masked (saids.map (·.1)) r1 = masked (saids.map (·.1)) r2 ∨ Collision w kind true saids r1 r2

theorem rolledV_said {fs : Flds} {x : Val} (ha : anySaid saids fs = true) (h : rolledV w kind saids (.map fs) = .ok x) :
    ∃ r, rolledTop w kind saids fs = .ok r ∧ x = saidVal saids r := by
  rw [rolledV] at h
  rw [rolledTop]
  split at h
  · exact absurd h (by simp)
  rw [if_pos ha] at h ⊢
  split at h
  · exact absurd h (by simp)
  next hm =>
  injection h with h
  exact ⟨_, rfl, h.symm⟩

/-- What is known of the most compact form of a map with SAIDs. -/
theorem rolledTop_said (hw : HashOk w) (hs : Dict saids) {fs r : Flds} (hd : Dict fs) (hp : Primary saids fs) (ha : anySaid saids fs = true)
    (h : rolledTop w kind saids fs = .ok r) :
    verify w kind true saids r = .ok () ∧ (∃ p s v, saids = p :: s ∧ (p.1, v) ∈ r ∧ saidVal saids r = v) ∧
    ∃ f1, rolledF w kind saids fs = .ok f1 ∧ masked (saids.map (·.1)) r = masked (saids.map (·.1)) f1 := by
  rw [rolledTop] at h
  split at h
  · exact absurd h (by simp)
  next f1 hf =>
  rw [if_pos ha] at h
  split at h
  · exact absurd h (by simp)
  next raw f2 s hm =>
  injection h with h
  subst h
  have hd1 : Dict f1 := by unfold Dict; rw [rolledF_keys hf]; exact hd
  refine ⟨(c117_made_verifies w kind true saids s f1 f2 raw hw hd1 hs hm).1, ?_, f1, hf, c117_others_kept w kind true saids s f1 f2 raw hw hd1 hs hm⟩
  obtain ⟨p, t, v, e, hv⟩ := hp ha
  have hk : f2.map (·.1) = fs.map (·.1) := by
    obtain ⟨_, f, _, h2, _⟩ := makify_facts hw hd1 hs hm
    rw [h2, filled_keys, rolledF_keys hf]
  cases hg : getKey f2 p.1 with
  | none =>
    rw [getKey_none, hk] at hg
    exact absurd (List.mem_map.2 ⟨_, getKey_mem hv, rfl⟩) hg
  | some u =>
    refine ⟨p, t, u, e, getKey_mem hg, ?_⟩
    rw [e]
    unfold saidVal
    dsimp only
    rw [hg]

theorem masked_cons {ls : List (List Char)} {l k : List Char} {v u : Val} {r s : Flds} (h : masked ls ((l, v) :: r) = masked ls ((k, u) :: s)) :
    l = k ∧ (l ∉ ls → v = u) ∧ masked ls r = masked ls s := by
  simp only [masked, List.map_cons, List.cons.injEq, Prod.mk.injEq] at h
  obtain ⟨⟨rfl, h1⟩, h2⟩ := h
  refine ⟨rfl, ?_, h2⟩
  intro hn
  rw [if_neg hn, if_neg hn] at h1
  injection h1

theorem saidLabel_iff {l : List Char} : saidLabel saids l = true ↔ l ∈ saids.map (·.1) := by
  unfold saidLabel
  cases hg : getKey saids l with
  | none => simpa using getKey_none.1 hg
  | some c => simpa using ⟨c, getKey_mem hg⟩

theorem rolledV_isMap (hw : HashOk w) (hs : Dict saids) {fs : Flds} {x : Val} (hd : Dict fs) (h : rolledV w kind saids (.map fs) = .ok x) :
    isMap x = !anySaid saids fs := by
  rw [rolledV] at h
  split at h
  · exact absurd h (by simp)
  next f1 hf =>
  have hd1 : Dict f1 := by unfold Dict; rw [rolledF_keys hf]; exact hd
  split at h
  · next ha =>
    split at h
    · exact absurd h (by simp)
    next hm =>
    injection h with h
    subst h
    rw [(made_said hw hs hd1 hm).1, ha]; rfl
  · next ha =>
    injection h with h
    subst h
    simp only [Bool.not_eq_true] at ha
    rw [ha]; rfl

mutual
theorem agreeV {P : Flds → Prop} (hw : HashOk w) (hs : Dict saids) (hcom : Commits w kind saids P) : ∀ (v u x : Val),
    Tidy v → Tidy u → (∀ b, Block v b → Primary saids b) → (∀ b, Block u b → Primary saids b) →
    (∀ b r, Block v b → rolledTop w kind saids b = .ok r → P r) → (∀ b r, Block u b → rolledTop w kind saids b = .ok r → P r) →
    rolledV w kind saids v = .ok x → rolledV w kind saids u = .ok x → Agree w kind saids v u ∨ CollisionIn w kind saids v u
  | .map fs, u, x, tv, tu, pv, pu, gv, gu, hv, hu => by
    have tv' := tv
    rw [Tidy] at tv'
    by_cases hmu : isMap u = true
    · cases u with
      | map gs =>
        have tu' := tu
        rw [Tidy] at tu'
        have e1 := rolledV_isMap hw hs tv'.1 hv
        have e2 := rolledV_isMap hw hs tu'.1 hu
        have key : ∀ f1 g1, rolledF w kind saids fs = .ok f1 → rolledF w kind saids gs = .ok g1 →
            masked (saids.map (·.1)) f1 = masked (saids.map (·.1)) g1 → Agree w kind saids (.map fs) (.map gs) ∨ CollisionIn w kind saids (.map fs) (.map gs) := by
          intro f1 g1 hf hg hm
          rcases agreeF hw hs hcom fs gs f1 g1 tv'.2 tu'.2
            (fun p hp b hb => pv b (.inner hp hb)) (fun p hp b hb => pu b (.inner hp hb))
            (fun p hp b r hb => gv b r (.inner hp hb)) (fun p hp b r hb => gu b r (.inner hp hb)) hf hg hm with h | ⟨p, hp, q, hq, b1, b2, r1, r2, c1, c2, c3⟩
          · exact .inl (.maps h)
          · exact .inr ⟨b1, b2, r1, r2, .inner hp c1, .inner hq c2, c3⟩
        by_cases ha : anySaid saids fs = true
        · have hb : anySaid saids gs = true := by rw [ha, e2] at e1; simpa using e1
          obtain ⟨r1, t1, s1⟩ := rolledV_said ha hv
          obtain ⟨r2, t2, s2⟩ := rolledV_said hb hu
          obtain ⟨v1, ⟨p, s, y, q1, q2, q3⟩, f1, f2, f3⟩ := rolledTop_said hw hs tv'.1 (pv _ (.self _)) ha t1
          obtain ⟨v2, ⟨p', s', y', q1', q2', q3'⟩, g1, g2, g3⟩ := rolledTop_said hw hs tu'.1 (pu _ (.self _)) hb t2
          have hpp : p' = p := by rw [q1] at q1'; injection q1' with q1' _; exact q1'.symm
          subst hpp
          have hyy : y' = y := by rw [← q3, ← q3', ← s1, ← s2]
          subst hyy
          rcases hcom r1 r2 p'.1 p'.2 y' (gv _ _ (.self _) t1) (gu _ _ (.self _) t2) v1 v2 (by rw [q1]; simp) q2 q2' with h | h
          · rw [f3, g3] at h
            exact key f1 g1 f2 g2 h
          · exact .inr ⟨fs, gs, r1, r2, .self _, .self _, t1, t2, h⟩
        · have hb : ¬ anySaid saids gs = true := by
            intro hb
            rw [e2, hb] at e1
            simp at e1
            exact ha e1
          rw [rolledV] at hv hu
          split at hv
          · exact absurd hv (by simp)
          next f1 hf =>
          split at hu
          · exact absurd hu (by simp)
          next g1 hg =>
          rw [if_neg ha] at hv
          rw [if_neg hb] at hu
          injection hv with hv
          injection hu with hu
          have : f1 = g1 := by rw [← hu] at hv; injection hv
          exact key f1 g1 hf hg (by rw [this])
      | null => simp [isMap] at hmu
      | bool _ => simp [isMap] at hmu
      | num _ => simp [isMap] at hmu
      | text _ => simp [isMap] at hmu
      | list _ => simp [isMap] at hmu
    · simp only [Bool.not_eq_true] at hmu
      rw [rolledV_notMap hmu] at hu
      injection hu with hu
      subst hu
      have e := rolledV_isMap hw hs tv'.1 hv
      rw [hmu] at e
      exact .inl (.left fs u (by simpa using e.symm) hv)
  | .null, u, x, tv, tu, pv, pu, gv, gu, hv, hu => leafAgree hw hs rfl tu hv hu
  | .bool _, u, x, tv, tu, pv, pu, gv, gu, hv, hu => leafAgree hw hs rfl tu hv hu
  | .num _, u, x, tv, tu, pv, pu, gv, gu, hv, hu => leafAgree hw hs rfl tu hv hu
  | .text _, u, x, tv, tu, pv, pu, gv, gu, hv, hu => leafAgree hw hs rfl tu hv hu
  | .list _, u, x, tv, tu, pv, pu, gv, gu, hv, hu => leafAgree hw hs rfl tu hv hu

theorem leafAgree (hw : HashOk w) (hs : Dict saids) {v u x : Val} (hm : isMap v = false) (tu : Tidy u)
    (hv : rolledV w kind saids v = .ok x) (hu : rolledV w kind saids u = .ok x) : Agree w kind saids v u ∨ CollisionIn w kind saids v u := by
  rw [rolledV_notMap hm] at hv
  injection hv with hv
  subst hv
  by_cases hmu : isMap u = true
  · cases u with
    | map gs =>
      rw [Tidy] at tu
      have e := rolledV_isMap hw hs tu.1 hu
      rw [hm] at e
      exact .inl (.right gs v (by simpa using e.symm) hu)
    | null => simp [isMap] at hmu
    | bool _ => simp [isMap] at hmu
    | num _ => simp [isMap] at hmu
    | text _ => simp [isMap] at hmu
    | list _ => simp [isMap] at hmu
  · simp only [Bool.not_eq_true] at hmu
    rw [rolledV_notMap hmu] at hu
    injection hu with hu
    subst hu
    exact .inl (.same _)

theorem agreeF {P : Flds → Prop} (hw : HashOk w) (hs : Dict saids) (hcom : Commits w kind saids P) : ∀ (fs gs f1 g1 : Flds),
    TidyF fs → TidyF gs → (∀ p ∈ fs, ∀ b, Block p.2 b → Primary saids b) → (∀ p ∈ gs, ∀ b, Block p.2 b → Primary saids b) →
    (∀ p ∈ fs, ∀ b r, Block p.2 b → rolledTop w kind saids b = .ok r → P r) → (∀ p ∈ gs, ∀ b r, Block p.2 b → rolledTop w kind saids b = .ok r → P r) →
    rolledF w kind saids fs = .ok f1 → rolledF w kind saids gs = .ok g1 → masked (saids.map (·.1)) f1 = masked (saids.map (·.1)) g1 →
    AgreeF w kind saids fs gs ∨ ∃ p ∈ fs, ∃ q ∈ gs, CollisionIn w kind saids p.2 q.2
  | [], gs, f1, g1, _, _, _, _, _, _, hf, hg, hm => by
    have k1 := rolledF_keys hf
    have k2 := rolledF_keys hg
    have hl := congrArg List.length hm
    simp only [masked, List.length_map] at hl
    have k1' := congrArg List.length k1
    have k2' := congrArg List.length k2
    simp only [List.length_map, List.length_nil] at k1' k2'
    cases gs with
    | nil => exact .inl .nil
    | cons _ _ => simp only [List.length_cons] at k2'; omega
  | (l, v) :: r, [], f1, g1, _, _, _, _, _, _, hf, hg, hm => by
    have k1' := congrArg List.length (rolledF_keys hf)
    have k2' := congrArg List.length (rolledF_keys hg)
    have hl := congrArg List.length hm
    simp only [masked, List.length_map, List.length_nil, List.length_cons] at hl k1' k2'
    omega
  | (l, v) :: r, (k, u) :: s, f1, g1, tf, tg, pf, pg, qf, qg, hf, hg, hm => by
    rw [TidyF] at tf tg
    rw [rolledF] at hf hg
    split at hf
    · exact absurd hf (by simp)
    split at hf
    · exact absurd hf (by simp)
    next v1 hv =>
    split at hf
    · exact absurd hf (by simp)
    next r1 hr =>
    split at hg
    · exact absurd hg (by simp)
    split at hg
    · exact absurd hg (by simp)
    next u1 hu =>
    split at hg
    · exact absurd hg (by simp)
    next s1 hs1 =>
    injection hf with hf
    injection hg with hg
    subst hf hg
    obtain ⟨rfl, h2, h3⟩ := masked_cons hm
    rcases agreeF hw hs hcom r s r1 s1 tf.2.2 tg.2.2 (fun p hp => pf p (by simp [hp])) (fun p hp => pg p (by simp [hp]))
      (fun p hp => qf p (by simp [hp])) (fun p hp => qg p (by simp [hp])) hr hs1 h3 with h | ⟨p, hp, q, hq, h⟩
    · by_cases hl : saidLabel saids l = true
      · exact .inl (.said hl h)
      · have hvu := h2 (fun hc => hl (saidLabel_iff.2 hc))
        subst hvu
        rcases agreeV hw hs hcom v u v1 tf.2.1 tg.2.1 (pf (l, v) (by simp)) (pg (l, u) (by simp)) (qf (l, v) (by simp)) (qg (l, u) (by simp)) hv hu with a | a
        · exact .inl (.field a h)
        · exact .inr ⟨(l, v), by simp, (l, u), by simp, a⟩
    · exact .inr ⟨p, by simp [hp], q, by simp [hq], h⟩
end

theorem anySaid_of_mem {l d : List Char} {v : Val} {fs : Flds} (h : (l, d) ∈ saids) (hv : (l, v) ∈ fs) : anySaid saids fs = true := by
  unfold anySaid
  rw [List.any_eq_true]
  refine ⟨(l, d), h, ?_⟩
  dsimp only
  cases hg : getKey fs l with
  | some _ => rfl
  | none => exact absurd (List.mem_map.2 ⟨_, hv, rfl⟩) (getKey_none.1 hg)

theorem block_tidy {v : Val} {b : Flds} (h : Block v b) (t : Tidy v) : Tidy (.map b) := by
  induction h with
  | self fs => exact t
  | inner hm _ ih => rw [Tidy] at t; exact ih (tidy_field t.2 _ hm)

theorem rolledTop_keys (hw : HashOk w) (hs : Dict saids) {mad r : Flds} (t : Dict mad) (h : rolledTop w kind saids mad = .ok r) : r.map (·.1) = mad.map (·.1) := by
  rw [rolledTop] at h
  split at h
  · exact absurd h (by simp)
  next f1 hf =>
  have hk := rolledF_keys hf
  split at h
  · split at h
    · exact absurd h (by simp)
    next hm =>
    injection h with h
    subst h
    obtain ⟨_, f, _, h2, _⟩ := makify_facts hw (by rw [hk]; exact t) hs hm
    rw [h2, filled_keys, hk]
  · injection h with h
    subst h
    exact hk

theorem rolledTop_dict (hw : HashOk w) (hs : Dict saids) {mad r : Flds} (t : Tidy (.map mad)) (h : rolledTop w kind saids mad = .ok r) : Dict r := by
  rw [Tidy] at t
  unfold Dict
  rw [rolledTop_keys hw hs t.1 h]
  exact t.1

/-- No map with SAIDs within. -/
def Flat (saids : Saids) (v : Val) : Prop := ∀ b, Block v b → anySaid saids b = false

theorem flat_notMap {v : Val} (h : isMap v = false) : Flat saids v := by
  intro b hb
  cases hb <;> simp [isMap] at h

mutual
theorem rolledV_flat (w : World) (kind : Kind) (saids : Saids) (hw : HashOk w) (hs : Dict saids) : ∀ (v x : Val), Tidy v → rolledV w kind saids v = .ok x → Flat saids x
  | .map fs, x, t, h => by
    have t' := t
    rw [Tidy] at t'
    by_cases ha : anySaid saids fs = true
    · exact flat_notMap (by rw [rolledV_isMap hw hs t'.1 h, ha]; rfl)
    · rw [rolledV] at h
      split at h
      · exact absurd h (by simp)
      next f1 hf =>
      rw [if_neg ha] at h
      injection h with h
      subst h
      intro b hb
      cases hb with
      | self => rw [anySaid_keys (rolledF_keys hf)]; simpa using ha
      | inner hm hb => exact rolledF_flat w kind saids hw hs fs f1 t'.2 hf _ _ hm b hb
  | .null, x, t, h => by simp only [rolledV, Except.ok.injEq] at h; subst h; exact flat_notMap rfl
  | .bool _, x, t, h => by simp only [rolledV, Except.ok.injEq] at h; subst h; exact flat_notMap rfl
  | .num _, x, t, h => by simp only [rolledV, Except.ok.injEq] at h; subst h; exact flat_notMap rfl
  | .text _, x, t, h => by simp only [rolledV, Except.ok.injEq] at h; subst h; exact flat_notMap rfl
  | .list _, x, t, h => by simp only [rolledV, Except.ok.injEq] at h; subst h; exact flat_notMap rfl

theorem rolledF_flat (w : World) (kind : Kind) (saids : Saids) (hw : HashOk w) (hs : Dict saids) : ∀ (fs f1 : Flds), TidyF fs → rolledF w kind saids fs = .ok f1 →
    ∀ l x, (l, x) ∈ f1 → Flat saids x
  | [], f1, _, h, l, x, hx => by simp only [rolledF, Except.ok.injEq] at h; subst h; exact absurd hx (by simp)
  | (k, v) :: r, f1, t, h, l, x, hx => by
    rw [TidyF] at t
    rw [rolledF] at h
    split at h
    · exact absurd h (by simp)
    split at h
    · exact absurd h (by simp)
    next v1 hv =>
    split at h
    · exact absurd h (by simp)
    next r1 hr =>
    injection h with h
    subst h
    rw [List.mem_cons] at hx
    rcases hx with hx | hx
    · injection hx with _ hx
      subst hx
      exact rolledV_flat w kind saids hw hs v x t.2.1 hv
    · exact rolledF_flat w kind saids hw hs r r1 t.2.2 hr l x hx
end

theorem rolledTop_flat (hw : HashOk w) (hs : Dict saids) {mad r : Flds} (d : Dict mad) (t : TidyF mad) (h : rolledTop w kind saids mad = .ok r) :
    ∀ l x, (l, x) ∈ r → Flat saids x := by
  intro l x hx
  rw [rolledTop] at h
  split at h
  · exact absurd h (by simp)
  next f1 hf =>
  have hF := rolledF_flat w kind saids hw hs mad f1 t hf
  split at h
  · split at h
    · exact absurd h (by simp)
    next hm =>
    injection h with h
    subst h
    obtain ⟨_, f, _, h2, _⟩ := makify_facts hw (by rw [rolledF_keys hf]; exact d) hs hm
    rw [h2] at hx
    unfold filled at hx
    obtain ⟨⟨k, y⟩, hy, e⟩ := List.mem_map.1 hx
    dsimp only at e
    injection e with e1 e2
    subst e1
    unfold fillVal at e2
    split at e2
    · subst e2; exact flat_notMap rfl
    · subst e2; exact hF _ _ hy
  · injection h with h
    subst h
    exact hF _ _ hx

mutual
theorem variant_tidy (hs : Dict saids) (hw : HashOk w) : ∀ {v u : Val}, Variant w kind saids v u → Tidy v → Tidy u
  | _, _, .same v, t => t
  | _, _, .hidden fs x ha hr, t => by
    rw [Tidy] at t
    have := rolledV_isMap hw hs t.1 hr
    rw [ha] at this
    cases x <;> simp [isMap] at this <;> simp [Tidy]
  | _, _, .map h, t => by
    rw [Tidy] at t ⊢
    exact ⟨by rw [variantF_keys h]; exact t.1, variantF_tidy hs hw h t.2⟩

theorem variantF_tidy (hs : Dict saids) (hw : HashOk w) : ∀ {fs gs : Flds}, VariantF w kind saids fs gs → TidyF fs → TidyF gs
  | _, _, .nil, t => t
  | _, _, .field _ hv h, t => by
    rw [TidyF] at t ⊢
    exact ⟨t.1, variant_tidy hs hw hv t.2.1, variantF_tidy hs hw h t.2.2⟩
  | _, _, .said (u := u) _ _ hu _ h, t => by
    rw [TidyF] at t ⊢
    refine ⟨t.1, ?_, variantF_tidy hs hw h t.2.2⟩
    cases u <;> simp [isMap] at hu <;> simp [Tidy]
end

theorem variant_top (hs : Dict saids) (hw : HashOk w) {mad mad' : Flds} (h : VariantF w kind saids mad mad') (t : Tidy (.map mad)) (r : Flds) :
    rolledTop w kind saids mad = .ok r ↔ rolledTop w kind saids mad' = .ok r := by
  have t' := t
  rw [Tidy] at t'
  obtain ⟨hF1, hF2⟩ := variantF_rolled hs hw h t'.2
  have hsym : anySaid saids mad' = anySaid saids mad := anySaid_keys (variantF_keys h)
  have main : ∀ f1 g1, rolledF w kind saids mad = .ok f1 → rolledF w kind saids mad' = .ok g1 → AllAlike saids f1 g1 →
      (rolledTop w kind saids mad = .ok r ↔ rolledTop w kind saids mad' = .ok r) := by
    intro f1 g1 hf hg ha
    have hnf : (f1.map (·.1)).Nodup := by rw [rolledF_keys hf]; exact t'.1
    have hng : (g1.map (·.1)).Nodup := by rw [alike_keys ha]; exact hnf
    unfold rolledTop
    rw [hf, hg]
    dsimp only
    rw [hsym]
    by_cases hsd : anySaid saids mad = true
    · rw [if_pos hsd, if_pos hsd]
      constructor
      · intro h
        split at h
        · exact absurd h (by simp)
        next hm => rw [makify_alike hnf hs ha hm]; exact h
      · intro h
        split at h
        · exact absurd h (by simp)
        next hm => rw [makify_alike hng hs (allAlike_symm ha) hm]; exact h
    · rw [if_neg hsd, if_neg hsd, alike_eq ha (by rw [anySaid_keys (rolledF_keys hf)]; simpa using hsd)]
  cases hf : rolledF w kind saids mad with
  | ok f1 =>
    obtain ⟨g1, hg, ha⟩ := hF1 f1 hf
    exact main f1 g1 hf hg ha
  | error e =>
    cases hg : rolledF w kind saids mad' with
    | ok g1 =>
      obtain ⟨f1, hf', ha⟩ := hF2 g1 hg
      exact main f1 g1 hf' hg ha
    | error e' => simp [rolledTop, hf, hg]
end

end Verif.Mad
