import Verif.Web.LastSets
import Verif.Db.PropsRemOn
/-! # C242: last values of sets at numbered keys, forward -/

namespace Verif.Web

open Verif.Db (Bytes Entry Tbl suffix split2 onKey maxON SepOk OnSetTbl item item_eq getOnAllIoSetItemIter iterLoop)

/-- Keep the last item of each run of equal numbers. -/
def lastOfRuns : List (Bytes × Nat × Bytes) → List (Bytes × Nat × Bytes)
  | [] => []
  | [p] => [p]
  | p :: q :: r => if q.2.1 ≠ p.2.1 then p :: lastOfRuns (q :: r) else lastOfRuns (q :: r)

theorem lastFwdLoop_eq {sep : Nat} {key : Bytes} (hk : key ≠ []) (l : List Entry) : ∀ last, lastFwdLoop sep key last l = (iterLoop sep key l).map fun L => lastOfRuns (last.toList ++ L) := by
  induction l with
  | nil => rintro (_ | p) <;> rfl
  | cons e l ih =>
    obtain ⟨x, v⟩ := e
    intro last
    unfold lastFwdLoop iterLoop
    cases split2 sep x with
    | error e => rfl
    | ok q =>
      obtain ⟨ck, con⟩ := q
      dsimp only
      by_cases hc : ck ≠ key
      · rw [if_pos hc, if_pos ⟨hk, hc⟩]
        cases last <;> rfl
      · rw [if_neg hc, if_neg (c := key ≠ [] ∧ ck ≠ key) fun h => hc h.2]
        cases last with
        | none =>
          dsimp only
          rw [ih]
          cases iterLoop sep key l <;> rfl
        | some p =>
          dsimp only
          by_cases hm : con ≠ p.2.1
          · rw [if_pos hm, ih]
            cases iterLoop sep key l with
            | error e => rfl
            | ok r => simp [Except.map, lastOfRuns, hm]
          · rw [if_neg hm, ih]
            cases iterLoop sep key l with
            | error e => rfl
            | ok r =>
              have hm' : con = p.2.1 := Decidable.byContradiction hm
              simp [Except.map, lastOfRuns, hm']

theorem diskLastLoop_eq {sep : Nat} {key : Bytes} (hk : key ≠ []) (l : List Entry) : ∀ (on : Nat) last, (∀ p, last = some p → p.2.1 = on) →
    diskLastLoop sep key on last l = (iterLoop sep key l).map fun L => lastOfRuns (last.toList ++ L) := by
  induction l with
  | nil => rintro on (_ | p) _ <;> rfl
  | cons e l ih =>
    obtain ⟨x, v⟩ := e
    intro on last hlast
    unfold diskLastLoop iterLoop
    cases split2 sep x with
    | error e => rfl
    | ok q =>
      obtain ⟨ck, con⟩ := q
      dsimp only
      by_cases hc : ck ≠ key
      · rw [if_pos hc, if_pos ⟨hk, hc⟩]
        cases last <;> rfl
      · rw [if_neg hc, if_neg (c := key ≠ [] ∧ ck ≠ key) fun h => hc h.2]
        have hnew : ∀ p, some (ck, con, v) = some p → p.2.1 = con := fun p hp => by cases hp; rfl
        by_cases hm : con ≠ on
        · rw [if_pos hm, ih con _ hnew]
          cases iterLoop sep key l with
          | error e => rfl
          | ok r =>
            cases last with
            | none => rfl
            | some p =>
              have := hlast p rfl
              have hm' : con ≠ p.2.1 := by rw [this]; exact hm
              simp [Except.map, lastOfRuns, hm']
        · have hm' : con = on := Decidable.byContradiction hm
          subst hm'
          rw [if_neg hm, ih con _ hnew]
          cases iterLoop sep key l with
          | error e => rfl
          | ok r =>
            cases last with
            | none => rfl
            | some p =>
              have := hlast p rfl
              simp [Except.map, lastOfRuns, this]

/-- C242: with the separator `.` and a key both databases yield or raise the same. -/
theorem c242_same (t : Tbl) {key : Bytes} (hk : key ≠ []) (on : Nat) : lastFwdSets 46 t key on = diskLastSets 46 t key on := by
  unfold lastFwdSets diskLastSets
  rw [lastFwdLoop_eq hk, diskLastLoop_eq hk _ on none fun p hp => by cases hp]

theorem lastOfRuns_spec (l : List (Bytes × Nat × Bytes)) (hl : l.Pairwise (fun a b => a.2.1 ≤ b.2.1)) :
    (lastOfRuns l).Pairwise (fun a b => a.2.1 < b.2.1) ∧ ∀ p, p ∈ lastOfRuns l ↔ (l.filter (fun q => decide (q.2.1 = p.2.1))).getLast? = some p := by
  induction l with
  | nil => exact ⟨List.Pairwise.nil, fun p => by simp [lastOfRuns]⟩
  | cons a l ih =>
    obtain ⟨h1, h2⟩ := List.pairwise_cons.1 hl
    obtain ⟨i1, i2⟩ := ih h2
    cases l with
    | nil =>
      refine ⟨List.pairwise_cons.2 ⟨fun _ h => (by cases h), List.Pairwise.nil⟩, fun p => ?_⟩
      simp only [lastOfRuns, List.mem_singleton]
      by_cases hp : a.2.1 = p.2.1
      · rw [List.filter_cons_of_pos (by simpa using hp)]
        simp [eq_comm]
      · rw [List.filter_cons_of_neg (by simpa using hp)]
        constructor
        · rintro rfl; exact absurd rfl hp
        · intro h; cases h
    | cons b r =>
      have hab := h1 b (by simp)
      unfold lastOfRuns
      by_cases hb : b.2.1 ≠ a.2.1
      · rw [if_pos hb]
        have hlt : ∀ q ∈ b :: r, a.2.1 < q.2.1 := by
          intro q hq
          rcases List.mem_cons.1 hq with rfl | hq
          · omega
          · have := (List.pairwise_cons.1 h2).1 q hq; omega
        refine ⟨List.pairwise_cons.2 ⟨fun q hq => ?_, i1⟩, fun p => ?_⟩
        · have := List.mem_of_getLast? ((i2 q).1 hq)
          exact hlt q (List.mem_filter.1 this).1
        · rw [List.mem_cons, i2]
          by_cases hp : a.2.1 = p.2.1
          · rw [List.filter_cons_of_pos (a := a) (by simpa using hp)]
            have hnil : (b :: r).filter (fun q => decide (q.2.1 = p.2.1)) = [] := by
              refine List.filter_eq_nil_iff.2 fun q hq => ?_
              have := hlt q hq
              simp only [decide_eq_true_eq]; omega
            rw [hnil]
            simp [eq_comm]
          · rw [List.filter_cons_of_neg (a := a) (by simpa using hp)]
            constructor
            · rintro (rfl | h)
              · exact absurd rfl hp
              · exact h
            · exact .inr
      · rw [if_neg hb]
        have hb' : b.2.1 = a.2.1 := Decidable.byContradiction hb
        refine ⟨i1, fun p => ?_⟩
        rw [i2]
        by_cases hp : a.2.1 = p.2.1
        · rw [List.filter_cons_of_pos (a := a) (by simpa using hp), List.filter_cons_of_pos (a := b) (by simp [hb', hp])]
          rw [List.getLast?_cons_cons]
        · rw [List.filter_cons_of_neg (a := a) (by simpa using hp)]

theorem fro_items_on {sep : Nat} (hs : SepOk sep) {K : Bytes → Prop} {t : Tbl} (h : OnSetTbl sep K t) (key : Bytes) {on : Nat} (ho : on ≤ maxON) :
    (t.fro (suffix sep (onKey sep key on) 0)).filterMap (item sep key) = (t.filterMap (item sep key)).filter (fun p => decide (on ≤ p.2.1)) := by
  have hnum : ∀ e ∈ t, ∀ p, item sep key e = some p → (Db.lexLt e.1 (suffix sep (onKey sep key on) 0) = true ↔ p.2.1 < on) := by
    rintro ⟨x, v⟩ he p hp
    obtain ⟨k, n, i, _, hn, hi, hx⟩ := h.entry he
    simp only at hx; subst hx
    rw [item_eq hs] at hp
    by_cases hc : k = key
    · subst hc
      rw [if_pos rfl] at hp
      cases hp
      rw [Db.lexLt_num (sep := sep) k hn ho hi (Nat.zero_le _)]
      simp
    · rw [if_neg hc] at hp; cases hp
  have h1 : ((t.before (suffix sep (onKey sep key on) 0)).filterMap (item sep key)).filter (fun p => decide (on ≤ p.2.1)) = [] := by
    refine List.filter_eq_nil_iff.2 fun p hp => ?_
    obtain ⟨e, he, hp⟩ := List.mem_filterMap.1 hp
    obtain ⟨hm, hl⟩ := (Db.mem_before h.wf.sorted).1 he
    have := (hnum e hm p hp).1 hl
    simpa using this
  have h2 : ((t.fro (suffix sep (onKey sep key on) 0)).filterMap (item sep key)).filter (fun p => decide (on ≤ p.2.1)) = (t.fro (suffix sep (onKey sep key on) 0)).filterMap (item sep key) := by
    refine List.filter_eq_self.2 fun p hp => ?_
    obtain ⟨e, he, hp⟩ := List.mem_filterMap.1 hp
    obtain ⟨hm, hl⟩ := (Db.mem_fro h.wf.sorted).1 he
    rw [decide_eq_true_eq]
    refine Nat.le_of_not_lt fun hc => ?_
    rw [(hnum e hm p hp).2 hc] at hl
    cases hl
  conv => rhs; rw [← Db.before_fro t (suffix sep (onKey sep key on) 0)]
  rw [List.filterMap_append, List.filter_append, h1, h2, List.nil_append]

/-- **C242 (partial).** Iterating the last values of the sets of a key from a number on yields, for every number in use from it on and in strictly increasing order, the last item of that number. Missing: keys that are
another one followed by the separator. -/
theorem c242_last_partial {sep : Nat} (hs : SepOk sep) {K : Bytes → Prop} {t : Tbl} (h : OnSetTbl sep K t) {key : Bytes} (hk : K key) {on : Nat} (ho : on ≤ maxON) :
    ∃ F M, getOnAllIoSetItemIter sep t key 0 = .ok F ∧ lastFwdSets sep t key on = .ok M ∧ M.Pairwise (fun a b => a.2.1 < b.2.1) ∧
      ∀ p, p ∈ M ↔ on ≤ p.2.1 ∧ (F.filter (fun q => decide (q.2.1 = p.2.1))).getLast? = some p := by
  have hfor : getOnAllIoSetItemIter sep t key 0 = .ok (t.filterMap (item sep key)) := by rw [Db.forward_eq hs h hk 0, Db.fro_items hs h key]
  have hit : iterLoop sep key (t.fro (suffix sep (onKey sep key on) 0)) = .ok ((t.filterMap (item sep key)).filter (fun p => decide (on ≤ p.2.1))) := by
    have := Db.forward_eq hs h hk on
    unfold getOnAllIoSetItemIter at this
    rw [if_neg (h.ne key hk), fro_items_on hs h key ho] at this
    exact this
  obtain ⟨s1, s2⟩ := lastOfRuns_spec ((t.filterMap (item sep key)).filter (fun p => decide (on ≤ p.2.1))) ((Db.items_sorted hs h key).1.filter _)
  refine ⟨_, _, hfor, ?_, s1, fun p => ?_⟩
  · unfold lastFwdSets
    rw [lastFwdLoop_eq (h.ne key hk), hit]
    rfl
  · rw [s2, List.filter_filter]
    by_cases hp : on ≤ p.2.1
    · have : (t.filterMap (item sep key)).filter (fun q => decide (q.2.1 = p.2.1) && decide (on ≤ q.2.1)) = (t.filterMap (item sep key)).filter (fun q => decide (q.2.1 = p.2.1)) := by
        apply List.filter_congr
        intro q _
        by_cases hq : q.2.1 = p.2.1
        · simp [hq, hp]
        · simp [hq]
      rw [this]
      exact ⟨fun h => ⟨hp, h⟩, fun h => h.2⟩
    · constructor
      · intro hl
        have := (List.mem_filter.1 (List.mem_of_getLast? hl)).2
        simp only [Bool.and_eq_true, decide_eq_true_eq] at this
        exact absurd this.2 hp
      · exact fun h => absurd h.1 hp

/-- The hypotheses of the theorems are met, and something is yielded. -/
example : OnSetTbl 46 Db.Demo41.K Db.Demo41.t ∧ Db.Demo41.K [65] ∧ lastFwdSets 46 Db.Demo41.t [65] 0 = .ok [([65], 0, [2]), ([65], 3, [3])] ∧
    diskLastSets 46 Db.Demo41.t [65] 1 = .ok [([65], 3, [3])] :=
  ⟨Db.Demo41.wf, .inl rfl, by decide +kernel, by decide +kernel⟩

/-- **C242 fails on disk for other separators.** The iteration starts at a key with `.`, which with a separator such as `!` is past all sets of the key. -/
theorem c242_separator :
    let t := (Db.putOnIoSetVals 33 [] [65] 0 [[1], [2]]).1
    diskLastSets 33 t [65] 0 = .ok [] ∧ lastFwdSets 33 t [65] 0 = .ok [([65], 0, [2])] := by decide +kernel

end Verif.Web
