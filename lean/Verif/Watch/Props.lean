import Verif.Watch.Model

/-! # C194–C196: what is reported of watchers -/

namespace Verif.Watch

open Verif.Krm

/-! ## Specification -/

/-- A watcher of the identifier said that its key state is this. -/
def Said (w : World) (oid aid : Id) (sn : Nat) (dig : Dig) : Prop :=
  (∃ o, o ∈ w.obvs ∧ o = ((w.pre, aid, oid), true)) ∧ ∃ said k, Tab.get w.knas (oid, aid) = some said ∧ Tab.get w.ksns said = some k ∧ k.s = sn ∧ k.d = dig

/-- The set of watchers, in some order. -/
structure Watchers (w : World) (oid : Id) (ws : List Id) : Prop where
  nodup : ws.Nodup
  mem : ∀ a, a ∈ ws ↔ (∃ o, o ∈ w.obvs ∧ o = ((w.pre, a, oid), true))

/-- Some watcher contradicts the local key state at its number. -/
def Contradicts (w : World) (oid : Id) (my : Ksr) : Prop := ∃ a d, Said w oid a my.s d ∧ d ≠ my.d

/-- Two watchers are ahead with different digests. -/
def Disagree (w : World) (oid : Id) (my : Ksr) : Prop :=
  ∃ a b m n d e, Said w oid a m d ∧ Said w oid b n e ∧ my.s < m ∧ my.s < n ∧ d ≠ e

theorem isWatcher_iff (w : World) (oid a : Id) : isWatcher w oid a = true ↔ ∃ o, o ∈ w.obvs ∧ o = ((w.pre, a, oid), true) := by
  unfold isWatcher
  rw [List.any_eq_true]
  constructor
  · rintro ⟨⟨k, b⟩, ho, h⟩
    simp only [Bool.and_eq_true, decide_eq_true_eq] at h
    exact ⟨_, ho, by rw [← h.1, ← h.2]⟩
  · rintro ⟨o, ho, rfl⟩
    exact ⟨_, ho, by simp⟩

/-- What the states are: one for each that answered, as it said. -/
structure States (w : World) (oid : Id) (my : Ksr) (ws : List Id) (l : List Diff) : Prop where
  wits : (l.map (·.wit)).Sublist ws
  sound : ∀ x, x ∈ l → x.wit ∈ ws ∧ x.pre = my.i ∧
    ∃ said k, Tab.get w.knas (oid, x.wit) = some said ∧ Tab.get w.ksns said = some k ∧ k.s = x.sn ∧ k.d = x.dig
  full : ∀ a said k, a ∈ ws → Tab.get w.knas (oid, a) = some said → Tab.get w.ksns said = some k → ∃ x, x ∈ l ∧ x.wit = a ∧ x.sn = k.s ∧ x.dig = k.d
  state : ∀ x, x ∈ l → (x.state = .duplicitous ↔ x.sn = my.s ∧ x.dig ≠ my.d) ∧ (x.state = .ahead ↔ my.s < x.sn) ∧ (x.state = .behind ↔ x.sn < my.s) ∧
    (x.state = .even ↔ x.sn = my.s ∧ x.dig = my.d)

theorem statesOf_ok {w : World} {oid : Id} {my : Ksr} : ∀ {ws : List Id} {l : List Diff}, statesOf w oid my ws = .ok l → States w oid my ws l
  | [], l, h => by
    injection h with h
    subst h
    exact ⟨by simp, fun x hx => (by cases hx), fun a _ _ ha => (by cases ha), fun x hx => (by cases hx)⟩
  | a :: ws, l, h => by
    unfold statesOf at h
    cases h1 : Tab.get w.knas (oid, a) with
    | none =>
      rw [h1] at h
      have s := statesOf_ok h
      refine ⟨s.wits.cons a, fun x hx => ⟨by simp [(s.sound x hx).1], (s.sound x hx).2⟩, ?_, s.state⟩
      intro b said k hb hk1 hk2
      rcases List.mem_cons.1 hb with rfl | hb
      · rw [h1] at hk1; cases hk1
      · exact s.full b said k hb hk1 hk2
    | some said =>
      rw [h1] at h
      dsimp only at h
      cases h2 : Tab.get w.ksns said with
      | none => rw [h2] at h; cases h
      | some k =>
        rw [h2] at h
        dsimp only at h
        cases h3 : diffState a my k with
        | error e => rw [h3] at h; cases h
        | ok d =>
          rw [h3] at h
          dsimp only at h
          cases h4 : statesOf w oid my ws with
          | error e => rw [h4] at h; cases h
          | ok r =>
            rw [h4] at h
            injection h with h
            subst h
            have s := statesOf_ok h4
            unfold diffState at h3
            split at h3
            · cases h3
            · rename_i hi
              injection h3 with h3
              have hi : k.i = my.i := Decidable.byContradiction hi
              have e1 : d.wit = a := by rw [← h3]
              have e2 : d.sn = k.s := by rw [← h3]
              have e3 : d.dig = k.d := by rw [← h3]
              have e4 : d.pre = my.i := by rw [← h3, ← hi]
              have e5 : d.state = if my.s = k.s then (if my.d = k.d then .even else .duplicitous) else if my.s > k.s then .behind else .ahead := by rw [← h3]
              refine ⟨?_, ?_, ?_, ?_⟩
              · rw [List.map_cons, e1]
                exact s.wits.cons_cons a
              · intro x hx
                rcases List.mem_cons.1 hx with rfl | hx
                · exact ⟨by simp [e1], e4, said, k, by rw [e1]; exact h1, h2, e2.symm, e3.symm⟩
                · exact ⟨by simp [(s.sound x hx).1], (s.sound x hx).2⟩
              · intro b sb kb hb hk1 hk2
                rcases List.mem_cons.1 hb with rfl | hb
                · rw [h1] at hk1
                  injection hk1 with hk1
                  subst hk1
                  rw [h2] at hk2
                  injection hk2 with hk2
                  subst hk2
                  exact ⟨d, by simp, e1, e2, e3⟩
                · obtain ⟨x, hx, hr⟩ := s.full b sb kb hb hk1 hk2
                  exact ⟨x, by simp [hx], hr⟩
              · intro x hx
                rcases List.mem_cons.1 hx with rfl | hx
                · rw [e5, e2, e3]
                  by_cases g1 : my.s = k.s
                  · rw [if_pos g1]
                    by_cases g2 : my.d = k.d
                    · rw [if_pos g2]
                      simp [g1, g2]
                    · rw [if_neg g2]
                      simp [g1, Ne.symm g2]
                  · rw [if_neg g1]
                    by_cases g2 : my.s > k.s
                    · rw [if_pos g2]
                      simp [Ne.symm g1]
                      omega
                    · rw [if_neg g2]
                      simp [Ne.symm g1]
                      omega
                · exact s.state x hx

theorem mem_inState {s : State} {l : List Diff} {x : Diff} : x ∈ inState s l ↔ x ∈ l ∧ x.state = s := by
  unfold inState; rw [List.mem_filter]; simp

/-- What a successful adjudication did. -/
theorem adjudicate_ok {w : World} {oid : Id} {t : Toad} {ws : List Id} {pick : Nat} {cs : List Cue} (h : adjudicate w oid t ws pick = .ok cs) :
    ∃ n my l, toadOf t ws.length = .ok n ∧ n ≤ ws.length ∧ Tab.get w.kevers oid = some my ∧ States w oid my ws l ∧ cs = judge oid ws n pick l := by
  unfold adjudicate at h
  cases h1 : toadOf t ws.length with
  | error e => rw [h1] at h; cases h
  | ok n =>
    rw [h1] at h
    dsimp only at h
    split at h
    · cases h
    · rename_i hn
      cases h2 : Tab.get w.kevers oid with
      | none => rw [h2] at h; cases h
      | some my =>
        rw [h2] at h
        dsimp only at h
        cases h3 : statesOf w oid my ws with
        | error e => rw [h3] at h; cases h
        | ok l =>
          rw [h3] at h
          injection h with h
          exact ⟨n, my, l, rfl, by omega, rfl, statesOf_ok h3, h.symm⟩

/-- Said is what the states are about. -/
theorem said_iff {w : World} {oid : Id} {my : Ksr} {ws : List Id} {l : List Diff} (hw : Watchers w oid ws) (s : States w oid my ws l) (a : Id) (n : Nat) (d : Dig) :
    Said w oid a n d ↔ ∃ x, x ∈ l ∧ x.wit = a ∧ x.sn = n ∧ x.dig = d := by
  constructor
  · rintro ⟨h1, said, k, h2, h3, rfl, rfl⟩
    exact s.full a said k ((hw.mem a).2 h1) h2 h3
  · rintro ⟨x, hx, rfl, rfl, rfl⟩
    obtain ⟨h1, _, said, k, h2, h3, h4, h5⟩ := s.sound x hx
    exact ⟨(hw.mem _).1 h1, said, k, h2, h3, h4, h5⟩

theorem contradicts_iff {w : World} {oid : Id} {my : Ksr} {ws : List Id} {l : List Diff} (hw : Watchers w oid ws) (s : States w oid my ws l) :
    Contradicts w oid my ↔ ∃ x, x ∈ l ∧ x.state = .duplicitous := by
  constructor
  · rintro ⟨a, d, h, hd⟩
    obtain ⟨x, hx, h1, h2, h3⟩ := (said_iff hw s a my.s d).1 h
    exact ⟨x, hx, (s.state x hx).1.2 ⟨h2, by rw [h3]; exact hd⟩⟩
  · rintro ⟨x, hx, h⟩
    obtain ⟨h1, h2⟩ := (s.state x hx).1.1 h
    exact ⟨x.wit, x.dig, (said_iff hw s _ _ _).2 ⟨x, hx, rfl, h1, rfl⟩, h2⟩

theorem disagree_iff {w : World} {oid : Id} {my : Ksr} {ws : List Id} {l : List Diff} (hw : Watchers w oid ws) (s : States w oid my ws l) :
    Disagree w oid my ↔ ∃ x y, x ∈ l ∧ y ∈ l ∧ x.state = .ahead ∧ y.state = .ahead ∧ x.dig ≠ y.dig := by
  constructor
  · rintro ⟨a, b, m, n, d, e, h1, h2, h3, h4, h5⟩
    obtain ⟨x, hx, _, x2, x3⟩ := (said_iff hw s a m d).1 h1
    obtain ⟨y, hy, _, y2, y3⟩ := (said_iff hw s b n e).1 h2
    exact ⟨x, y, hx, hy, (s.state x hx).2.1.2 (by omega), (s.state y hy).2.1.2 (by omega), by rw [x3, y3]; exact h5⟩
  · rintro ⟨x, y, hx, hy, h1, h2, h3⟩
    exact ⟨x.wit, y.wit, x.sn, y.sn, x.dig, y.dig, (said_iff hw s _ _ _).2 ⟨x, hx, rfl, rfl, rfl⟩, (said_iff hw s _ _ _).2 ⟨y, hy, rfl, rfl, rfl⟩,
      (s.state x hx).2.1.1 h1, (s.state y hy).2.1.1 h2, h3⟩

/-- The decision, by what the states are. -/
theorem judge_cases (oid : Id) (ws : List Id) (n : Int) (pick : Nat) (l : List Diff) :
    ((∃ x, x ∈ l ∧ x.state = .duplicitous) ∧ judge oid ws n pick l = [.duplicitous oid ws (inState .duplicitous l)]) ∨
    ((¬ ∃ x, x ∈ l ∧ x.state = .duplicitous) ∧ (∃ x y, x ∈ l ∧ y ∈ l ∧ x.state = .ahead ∧ y.state = .ahead ∧ x.dig ≠ y.dig) ∧
      judge oid ws n pick l = [.duplicitous oid ws (inState .ahead l)]) ∨
    ((¬ ∃ x, x ∈ l ∧ x.state = .duplicitous) ∧ (¬ ∃ x y, x ∈ l ∧ y ∈ l ∧ x.state = .ahead ∧ y.state = .ahead ∧ x.dig ≠ y.dig) ∧ inState .ahead l ≠ [] ∧
      ((n ≤ (inState .ahead l).length ∧ ∃ x, x ∈ inState .ahead l ∧ judge oid ws n pick l = [.update oid ws x.sn (inState .ahead l)]) ∨
        ((inState .ahead l).length < n ∧ judge oid ws n pick l = []))) ∨
    ((¬ ∃ x, x ∈ l ∧ x.state = .duplicitous) ∧ inState .ahead l = [] ∧
      ((inState .behind l ≠ [] ∧ judge oid ws n pick l = [.lagging oid ws (inState .behind l)]) ∨
        (inState .behind l = [] ∧ judge oid ws n pick l = [.consistent oid ws l]))) := by
  have hd : (inState .duplicitous l).length > 0 ↔ ∃ x, x ∈ l ∧ x.state = .duplicitous := by
    rw [gt_iff_lt, List.length_pos_iff_exists_mem]
    constructor
    · rintro ⟨x, hx⟩; exact ⟨x, mem_inState.1 hx⟩
    · rintro ⟨x, hx⟩; exact ⟨x, mem_inState.2 hx⟩
  unfold judge
  dsimp only
  by_cases h1 : (inState .duplicitous l).length > 0
  · rw [if_pos h1]
    exact Or.inl ⟨hd.1 h1, rfl⟩
  · rw [if_neg h1]
    have h1' := fun h => h1 (hd.2 h)
    right
    cases ha : inState .ahead l with
    | nil =>
      right; right
      refine ⟨h1', rfl, ?_⟩
      dsimp only
      by_cases hb : (inState .behind l).length > 0
      · rw [if_pos hb]
        exact Or.inl ⟨List.ne_nil_of_length_pos hb, rfl⟩
      · rw [if_neg hb]
        exact Or.inr ⟨List.eq_nil_of_length_eq_zero (by omega), rfl⟩
    | cons a r =>
      dsimp only
      have hdis : (r.any fun x => decide (x.dig ≠ a.dig)) = true ↔ ∃ x y, x ∈ l ∧ y ∈ l ∧ x.state = .ahead ∧ y.state = .ahead ∧ x.dig ≠ y.dig := by
        rw [List.any_eq_true]
        have hm : ∀ x, x ∈ l ∧ x.state = .ahead ↔ x = a ∨ x ∈ r := fun x => by rw [← mem_inState, ha]; simp
        constructor
        · rintro ⟨x, hx, h⟩
          have h2 := (hm x).2 (Or.inr hx)
          have h3 := (hm a).2 (Or.inl rfl)
          exact ⟨x, a, h2.1, h3.1, h2.2, h3.2, by simpa using h⟩
        · rintro ⟨x, y, hx, hy, sx, sy, h⟩
          have h2 := (hm x).1 ⟨hx, sx⟩
          have h3 := (hm y).1 ⟨hy, sy⟩
          by_cases hxa : x.dig = a.dig
          · rcases h3 with rfl | h3
            · exact absurd hxa h
            · exact ⟨y, h3, by simp only [decide_eq_true_eq]; rw [← hxa]; exact Ne.symm h⟩
          · rcases h2 with rfl | h2
            · exact absurd rfl hxa
            · exact ⟨x, h2, by simpa using hxa⟩
      by_cases h2 : (r.any fun x => decide (x.dig ≠ a.dig)) = true
      · rw [if_pos h2]
        exact Or.inl ⟨h1', hdis.1 h2, rfl⟩
      · rw [if_neg h2]
        right; left
        refine ⟨h1', fun h => h2 (hdis.2 h), by simp, ?_⟩
        by_cases h3 : ((a :: r).length : Int) ≥ n
        · rw [if_pos h3]
          refine Or.inl ⟨h3, ((a :: r)[pick % (a :: r).length]?).getD a, ?_, rfl⟩
          cases h4 : (a :: r)[pick % (a :: r).length]? with
          | none => simp
          | some x => exact List.mem_of_getElem? h4
        · rw [if_neg h3]
          exact Or.inr ⟨by omega, rfl⟩

/-- A cue that reports duplicity. -/
def Cue.alarm : Cue → Bool
  | .duplicitous .. => true
  | _ => false

/-- **C194.** At most one cue is given. Duplicity is reported exactly if some watcher contradicts the local key state at its number or two that are ahead
have different digests, and those that are named said what is reported of them. -/
theorem c194_duplicity {w : World} {oid : Id} {t : Toad} {ws : List Id} {pick : Nat} {cs : List Cue} (hw : Watchers w oid ws)
    (h : adjudicate w oid t ws pick = .ok cs) :
    cs.length ≤ 1 ∧ ∃ my, Tab.get w.kevers oid = some my ∧
      ((∃ c, c ∈ cs ∧ c.alarm = true) ↔ Contradicts w oid my ∨ Disagree w oid my) ∧
      ∀ o ids dups, .duplicitous o ids dups ∈ cs → o = oid ∧ ids = ws ∧ dups ≠ [] ∧ ∀ x, x ∈ dups → Said w oid x.wit x.sn x.dig := by
  obtain ⟨n, my, l, _, _, hk, s, rfl⟩ := adjudicate_ok h
  have hsaid : ∀ x, x ∈ l → Said w oid x.wit x.sn x.dig := fun x hx => (said_iff hw s _ _ _).2 ⟨x, hx, rfl, rfl, rfl⟩
  have hc := judge_cases oid ws n pick l
  rw [← contradicts_iff hw s, ← disagree_iff hw s] at hc
  refine ⟨?_, my, hk, ?_, ?_⟩
  · rcases hc with ⟨_, e⟩ | ⟨_, _, e⟩ | ⟨_, _, _, ⟨_, x, _, e⟩ | ⟨_, e⟩⟩ | ⟨_, _, ⟨_, e⟩ | ⟨_, e⟩⟩ <;> rw [e] <;> simp
  · rcases hc with ⟨g, e⟩ | ⟨_, g, e⟩ | ⟨g1, g2, _, ⟨_, x, _, e⟩ | ⟨_, e⟩⟩ | ⟨g1, g2, ⟨_, e⟩ | ⟨_, e⟩⟩
    · rw [e]; simp [Cue.alarm, g]
    · rw [e]; simp [Cue.alarm, g]
    · rw [e]; simp [Cue.alarm, g1, g2]
    · rw [e]; simp [g1, g2]
    all_goals
      have hno : ¬ Disagree w oid my := by
        rw [disagree_iff hw s]
        rintro ⟨x, y, hx, _, sx, _⟩
        have : x ∈ inState .ahead l := mem_inState.2 ⟨hx, sx⟩
        rw [g2] at this
        cases this
      rw [e]
      simp [Cue.alarm, g1, hno]
  · intro o ids dups hm
    rcases hc with ⟨g, e⟩ | ⟨_, g, e⟩ | ⟨g1, g2, _, ⟨_, x, _, e⟩ | ⟨_, e⟩⟩ | ⟨g1, g2, ⟨_, e⟩ | ⟨_, e⟩⟩ <;> rw [e] at hm <;>
      simp only [List.mem_singleton, List.not_mem_nil, Cue.duplicitous.injEq, reduceCtorEq] at hm
    · obtain ⟨rfl, rfl, rfl⟩ := hm
      refine ⟨rfl, rfl, ?_, fun x hx => hsaid x (mem_inState.1 hx).1⟩
      obtain ⟨x, hx⟩ := (contradicts_iff hw s).1 g
      exact List.ne_nil_of_mem (mem_inState.2 hx)
    · obtain ⟨rfl, rfl, rfl⟩ := hm
      refine ⟨rfl, rfl, ?_, fun x hx => hsaid x (mem_inState.1 hx).1⟩
      obtain ⟨x, _, hx, _, sx, _⟩ := (disagree_iff hw s).1 g
      exact List.ne_nil_of_mem (mem_inState.2 ⟨hx, sx⟩)

/-- **C195.** An update is recommended only if as many watchers as the threshold, all different, are ahead with one digest, and no watcher contradicts
the local key state or says anything else ahead of it; its number is of one of them. -/
theorem c195_update {w : World} {oid : Id} {t : Toad} {ws : List Id} {pick : Nat} {cs : List Cue} (hw : Watchers w oid ws)
    (h : adjudicate w oid t ws pick = .ok cs) {o : Id} {ids : List Id} {sn : Nat} {aheads : List Diff} (hc : .update o ids sn aheads ∈ cs) :
    ∃ n my d, toadOf t ws.length = .ok n ∧ Tab.get w.kevers oid = some my ∧ n ≤ aheads.length ∧ (aheads.map (·.wit)).Nodup ∧
      (∀ x, x ∈ aheads → Said w oid x.wit x.sn d ∧ my.s < x.sn) ∧ (∃ x, x ∈ aheads ∧ x.sn = sn) ∧
      (∀ a e, Said w oid a my.s e → e = my.d) ∧ ∀ a m e, Said w oid a m e → my.s < m → e = d := by
  obtain ⟨n, my, l, hn, _, hk, s, rfl⟩ := adjudicate_ok h
  have hsaid : ∀ x, x ∈ l → Said w oid x.wit x.sn x.dig := fun x hx => (said_iff hw s _ _ _).2 ⟨x, hx, rfl, rfl, rfl⟩
  rcases judge_cases oid ws n pick l with ⟨_, e⟩ | ⟨_, _, e⟩ | ⟨g1, g2, g3, ⟨g4, x, hx, e⟩ | ⟨_, e⟩⟩ | ⟨_, _, ⟨_, e⟩ | ⟨_, e⟩⟩ <;> rw [e] at hc <;>
    simp only [List.mem_singleton, List.not_mem_nil, Cue.update.injEq, reduceCtorEq] at hc
  obtain ⟨rfl, rfl, rfl, rfl⟩ := hc
  have hone : ∀ y, y ∈ l → y.state = .ahead → y.dig = x.dig := fun y hy sy => Decidable.byContradiction fun hne =>
    g2 ⟨y, x, hy, (mem_inState.1 hx).1, sy, (mem_inState.1 hx).2, hne⟩
  refine ⟨n, my, x.dig, hn, hk, g4, ?_, ?_, ⟨x, hx, rfl⟩, ?_, ?_⟩
  · refine List.Sublist.nodup (List.Sublist.trans (List.Sublist.map _ ?_) s.wits) hw.nodup
    unfold inState
    exact List.filter_sublist
  · intro y hy
    obtain ⟨hy, sy⟩ := mem_inState.1 hy
    refine ⟨?_, (s.state y hy).2.1.1 sy⟩
    rw [← hone y hy sy]
    exact hsaid y hy
  · intro a e ha
    refine Decidable.byContradiction fun hne => g1 ?_
    rw [← contradicts_iff hw s]
    exact ⟨a, e, ha, hne⟩
  · intro a m e ha hm
    obtain ⟨y, hy, _, y2, y3⟩ := (said_iff hw s a m e).1 ha
    rw [← y3]
    exact hone y hy ((s.state y hy).2.1.2 (by omega))

/-- **C195**: consistency is reported exactly if every watcher that answered said what the local key state is; lagging exactly if none is ahead or
contradicts it and some is behind, and those that are named are just those that are behind. -/
theorem c195_others {w : World} {oid : Id} {t : Toad} {ws : List Id} {pick : Nat} {cs : List Cue} (hw : Watchers w oid ws)
    (h : adjudicate w oid t ws pick = .ok cs) : ∃ my, Tab.get w.kevers oid = some my ∧
      ((∃ o ids l, .consistent o ids l ∈ cs) ↔ ∀ a n d, Said w oid a n d → n = my.s ∧ d = my.d) ∧
      (∀ o ids l, .lagging o ids l ∈ cs → (∀ a n d, Said w oid a n d → n < my.s ∨ n = my.s ∧ d = my.d) ∧
        ∀ a, (∃ x, x ∈ l ∧ x.wit = a) ↔ ∃ n d, Said w oid a n d ∧ n < my.s) := by
  obtain ⟨n, my, l, hn, _, hk, s, rfl⟩ := adjudicate_ok h
  refine ⟨my, hk, ?_, ?_⟩
  · have hall : (∀ a n d, Said w oid a n d → n = my.s ∧ d = my.d) ↔ ∀ x, x ∈ l → x.state = .even := by
      constructor
      · intro h x hx
        exact (s.state x hx).2.2.2.2 (h x.wit x.sn x.dig ((said_iff hw s _ _ _).2 ⟨x, hx, rfl, rfl, rfl⟩))
      · intro h a n d ha
        obtain ⟨x, hx, _, h2, h3⟩ := (said_iff hw s a n d).1 ha
        have := (s.state x hx).2.2.2.1 (h x hx)
        rwa [h2, h3] at this
    rw [hall]
    rcases judge_cases oid ws n pick l with ⟨⟨x, hx, sx⟩, e⟩ | ⟨_, ⟨x, _, hx, _, sx, _⟩, e⟩ | ⟨g1, g2, g3, ⟨g4, x, hx, e⟩ | ⟨_, e⟩⟩ | ⟨_, _, ⟨g, e⟩ | ⟨g, e⟩⟩
    · rw [e]
      simp only [List.mem_singleton, reduceCtorEq, exists_false, false_iff]
      intro h; have := h x hx; rw [sx] at this; cases this
    · rw [e]
      simp only [List.mem_singleton, reduceCtorEq, exists_false, false_iff]
      intro h; have := h x hx; rw [sx] at this; cases this
    · rw [e]
      simp only [List.mem_singleton, reduceCtorEq, exists_false, false_iff]
      intro h; have := h x (mem_inState.1 hx).1; rw [(mem_inState.1 hx).2] at this; cases this
    · rw [e]
      simp only [List.not_mem_nil, exists_false, false_iff]
      obtain ⟨x, hx⟩ := List.exists_mem_of_ne_nil _ g3
      intro h; have := h x (mem_inState.1 hx).1; rw [(mem_inState.1 hx).2] at this; cases this
    · rw [e]
      simp only [List.mem_singleton, reduceCtorEq, exists_false, false_iff]
      obtain ⟨x, hx⟩ := List.exists_mem_of_ne_nil _ g
      intro h; have := h x (mem_inState.1 hx).1; rw [(mem_inState.1 hx).2] at this; cases this
    · rename_i hnd ha
      rw [e]
      refine iff_of_true ⟨oid, ws, l, by simp⟩ ?_
      intro x hx
      cases hs : x.state with
      | even => rfl
      | duplicitous => exact absurd ⟨x, hx, hs⟩ hnd
      | ahead =>
        have : x ∈ inState .ahead l := mem_inState.2 ⟨hx, hs⟩
        rw [ha] at this; cases this
      | behind =>
        have : x ∈ inState .behind l := mem_inState.2 ⟨hx, hs⟩
        rw [g] at this; cases this
  · intro o ids b hc
    rcases judge_cases oid ws n pick l with ⟨_, e⟩ | ⟨_, _, e⟩ | ⟨_, _, _, ⟨_, x, _, e⟩ | ⟨_, e⟩⟩ | ⟨hnd, ha, ⟨g, e⟩ | ⟨g, e⟩⟩ <;> rw [e] at hc <;>
      simp only [List.mem_singleton, List.not_mem_nil, Cue.lagging.injEq, reduceCtorEq] at hc
    obtain ⟨rfl, rfl, rfl⟩ := hc
    refine ⟨?_, ?_⟩
    · intro a n d hs
      obtain ⟨x, hx, _, h2, h3⟩ := (said_iff hw s a n d).1 hs
      cases hs : x.state with
      | even => exact Or.inr (by have := (s.state x hx).2.2.2.1 hs; rwa [h2, h3] at this)
      | duplicitous => exact absurd ⟨x, hx, hs⟩ hnd
      | ahead =>
        have : x ∈ inState .ahead l := mem_inState.2 ⟨hx, hs⟩
        rw [ha] at this; cases this
      | behind => exact Or.inl (by have := (s.state x hx).2.2.1.1 hs; rwa [h2] at this)
    · intro a
      constructor
      · rintro ⟨x, hx, rfl⟩
        obtain ⟨hx, sx⟩ := mem_inState.1 hx
        exact ⟨x.sn, x.dig, (said_iff hw s _ _ _).2 ⟨x, hx, rfl, rfl, rfl⟩, (s.state x hx).2.2.1.1 sx⟩
      · rintro ⟨n, d, hs, hn⟩
        obtain ⟨x, hx, h1, h2, h3⟩ := (said_iff hw s a n d).1 hs
        exact ⟨x, mem_inState.2 ⟨hx, (s.state x hx).2.2.1.2 (by omega)⟩, h1⟩

/-- **C196 (partial).** If all that is said, and the local key state, are of one log, and those that are ahead are at one number, no duplicity is reported.
Missing: that the same holds for those that are ahead at different numbers, for which `c196_false_alarm` proves the contrary. -/
theorem c196_honest_partial {w : World} {oid : Id} {t : Toad} {ws : List Id} {pick : Nat} {cs : List Cue} (hw : Watchers w oid ws)
    (h : adjudicate w oid t ws pick = .ok cs) (log : Nat → Dig) (hmy : ∀ my, Tab.get w.kevers oid = some my → my.d = log my.s)
    (hlog : ∀ a n d, Said w oid a n d → d = log n)
    (hsame : ∀ my a b m n d e, Tab.get w.kevers oid = some my → Said w oid a m d → Said w oid b n e → my.s < m → my.s < n → m = n) :
    ∀ c, c ∈ cs → c.alarm = false := by
  obtain ⟨_, my, hk, hi, _⟩ := c194_duplicity hw h
  intro c hc
  refine Bool.eq_false_iff.2 fun ha => ?_
  rcases hi.1 ⟨c, hc, ha⟩ with ⟨a, d, hs, hd⟩ | ⟨a, b, m, n, d, e, h1, h2, h3, h4, h5⟩
  · exact hd (by rw [hlog _ _ _ hs, hmy my hk])
  · have := hsame my a b m n d e hk h1 h2 h3 h4
    subst this
    exact h5 (by rw [hlog _ _ _ h1, hlog _ _ _ h2])

/-- **C196 fails**: though all that is said is of one log, watchers that are ahead at different numbers are always reported as duplicity. -/
theorem c196_false_alarm {w : World} {oid : Id} {t : Toad} {ws : List Id} {pick : Nat} {cs : List Cue} (hw : Watchers w oid ws)
    (h : adjudicate w oid t ws pick = .ok cs) (log : Nat → Dig) (hinj : ∀ m n, log m = log n → m = n)
    {my : Ksr} (hk : Tab.get w.kevers oid = some my) {a b : Id} {m n : Nat} (ha : Said w oid a m (log m)) (hb : Said w oid b n (log n)) (hm : my.s < m)
    (hn : my.s < n) (hne : m ≠ n) : ∃ c, c ∈ cs ∧ c.alarm = true := by
  obtain ⟨_, my', hk', hi, _⟩ := c194_duplicity hw h
  rw [hk] at hk'
  injection hk' with hk'
  subst hk'
  exact hi.2 (Or.inr ⟨a, b, m, n, log m, log n, ha, hb, hm, hn, fun he => hne (hinj _ _ he)⟩)

/-- Messages are taken in their order; one that raises is dropped with all that follow left, and gives no cue. -/
theorem c194_messages (w : World) (order : Id → List Id) (pick : Nat) : ∀ (ms : List (Id × Toad)), (∀ o, Watchers w o (order o)) →
    ∃ done, (perform w order pick ms).1.length ≤ done.length ∧ match (perform w order pick ms).2.2 with
      | none => ms = done ∧ (perform w order pick ms).2.1 = []
      | some e => ∃ m, ms = done ++ m :: (perform w order pick ms).2.1 ∧ adjudicate w m.1 m.2 (order m.1) pick = .error e
  | [], _ => ⟨[], Nat.le_refl _, rfl, rfl⟩
  | (o, t) :: ms, hw => by
    unfold perform
    cases h : adjudicate w o t (order o) pick with
    | error e => exact ⟨[], Nat.le_refl _, (o, t), rfl, h⟩
    | ok c =>
      obtain ⟨done, h1, h2⟩ := c194_messages w order pick ms hw
      have hl := (c194_duplicity (hw o) h).1
      dsimp only
      revert h1 h2
      generalize perform w order pick ms = r
      obtain ⟨cs, q, e⟩ := r
      intro h1 h2
      refine ⟨(o, t) :: done, ?_, ?_⟩
      · simp only [List.length_append, List.length_cons]
        dsimp only at h1
        omega
      · cases e with
        | none => exact ⟨by rw [h2.1], h2.2⟩
        | some e =>
          obtain ⟨m, hm, he⟩ := h2
          exact ⟨m, by rw [hm]; rfl, he⟩

/-! ## Cases and witnesses -/

/-- Identifier 9, whose local key state is at 5 with digest 50; watchers 1, 2, 3; notices 101 … -/
def demo (s1 s2 s3 : Option Ksr) : World where
  pre := 7
  obvs := [((7, 1, 9), true), ((7, 2, 9), true), ((7, 3, 9), true), ((7, 4, 9), false), ((7, 1, 8), true)]
  knas := (s1.toList.map fun _ => ((9, 1), 101)) ++ (s2.toList.map fun _ => ((9, 2), 102)) ++ (s3.toList.map fun _ => ((9, 3), 103))
  ksns := (s1.toList.map fun k => (101, k)) ++ (s2.toList.map fun k => (102, k)) ++ (s3.toList.map fun k => (103, k))
  kevers := [(9, ⟨9, 5, 50⟩)]

theorem demo_watchers (s1 s2 s3 : Option Ksr) : Watchers (demo s1 s2 s3) 9 [1, 2, 3] := by
  refine ⟨by decide, fun a => ?_⟩
  simp only [demo, List.mem_cons, List.not_mem_nil, or_false]
  constructor
  · rintro (rfl | rfl | rfl)
    · exact ⟨_, Or.inl rfl, rfl⟩
    · exact ⟨_, Or.inr (Or.inl rfl), rfl⟩
    · exact ⟨_, Or.inr (Or.inr (Or.inl rfl)), rfl⟩
  · rintro ⟨o, h, rfl⟩
    simpa [Prod.mk.injEq] using h

/-- Two of three are ahead with one digest, the threshold is two. -/
example : adjudicate (demo (some ⟨9, 6, 60⟩) (some ⟨9, 5, 50⟩) (some ⟨9, 6, 60⟩)) 9 (.num 2) [1, 2, 3] 1 =
    .ok [.update 9 [1, 2, 3] 6 [⟨9, 1, .ahead, 6, 60⟩, ⟨9, 3, .ahead, 6, 60⟩]] := by decide +kernel

/-- One contradicts the local key state. -/
example : adjudicate (demo (some ⟨9, 6, 60⟩) (some ⟨9, 5, 51⟩) none) 9 .absent [1, 2, 3] 0 =
    .ok [.duplicitous 9 [1, 2, 3] [⟨9, 2, .duplicitous, 5, 51⟩]] := by decide +kernel

/-- The false alarm: one log, 1 is at 6 and 2 at 7. -/
theorem c196_case : adjudicate (demo (some ⟨9, 6, 60⟩) (some ⟨9, 7, 70⟩) (some ⟨9, 5, 50⟩)) 9 .absent [1, 2, 3] 0 =
    .ok [.duplicitous 9 [1, 2, 3] [⟨9, 1, .ahead, 6, 60⟩, ⟨9, 2, .ahead, 7, 70⟩]] := by decide +kernel

/-- **C195 fails** as a report for every adjudication: fewer than the threshold are ahead, and nothing is reported. -/
theorem c195_silent : adjudicate (demo (some ⟨9, 6, 60⟩) (some ⟨9, 5, 50⟩) (some ⟨9, 4, 40⟩)) 9 (.num 2) [1, 2, 3] 0 = .ok [] := by decide +kernel

/-- No watcher answered, or there is none: the key state is reported as consistent. -/
theorem c195_no_answer : adjudicate (demo none none none) 9 (.num 3) [1, 2, 3] 0 = .ok [.consistent 9 [1, 2, 3] []] ∧
    adjudicate { demo none none none with obvs := [] } 9 .absent [] 0 = .ok [.consistent 9 [] []] := by decide +kernel

/-- Duplicity at a number before the local one is not looked for: a watcher with another digest at 4 than the log has is reported as behind. -/
theorem c194_earlier (d : Dig) : adjudicate (demo (some ⟨9, 4, d⟩) none none) 9 .absent [1, 2, 3] 0 =
    .ok [.lagging 9 [1, 2, 3] [⟨9, 1, .behind, 4, d⟩]] := rfl

/-- The threshold is not taken from a number 0, and is from a text "0": then none need be ahead; a threshold above the number of watchers raises. -/
theorem c195_threshold : adjudicate (demo (some ⟨9, 6, 60⟩) none none) 9 (.num 0) [1, 2, 3] 0 = .ok [] ∧
    adjudicate (demo (some ⟨9, 6, 60⟩) none none) 9 (.text (some 0)) [1, 2, 3] 0 = .ok [.update 9 [1, 2, 3] 6 [⟨9, 1, .ahead, 6, 60⟩]] ∧
    adjudicate (demo (some ⟨9, 6, 60⟩) none none) 9 (.num 4) [1, 2, 3] 0 = .error .valueError := by decide +kernel

end Verif.Watch
