import Verif.Web.BackSets
import Verif.Db.PropsRemOn
/-! # C241: counting and backward iteration over sets at numbered keys in browsers -/

namespace Verif.Web

open Verif.Db (Bytes Entry Tbl suffix split2 onKey maxON SepOk OnSetTbl item item_eq split2_eq itemsTo itemsTo_eq notPast firstOfRuns getOnAllIoSetItemIter)

theorem cntSetLoop_eq {sep : Nat} (hs : SepOk sep) (key : Bytes) {l : List Entry} (hent : ∀ e ∈ l, ∃ k n i, e.1 = suffix sep (onKey sep k n) i) :
    cntSetLoop sep key l = .ok (l.takeWhile (fun e => (item sep key e).isSome)).length := by
  induction l with
  | nil => rfl
  | cons e l ih =>
    obtain ⟨x, v⟩ := e
    obtain ⟨k, n, i, hx⟩ := hent (x, v) (by simp)
    simp only at hx; subst hx
    have ih := ih fun e he => hent e (by simp [he])
    unfold cntSetLoop
    rw [split2_eq hs, List.takeWhile_cons, item_eq hs]
    dsimp only
    by_cases hc : k = key
    · rw [if_neg (by simpa using hc), if_pos hc, ih]
      simp
    · rw [if_pos hc, if_neg hc]
      simp

/-- **C241, counting (partial).** The count of a key from a number on is that of the items with such numbers. -/
theorem c241_count_partial {sep : Nat} (hs : SepOk sep) {K : Bytes → Prop} {t : Tbl} (h : OnSetTbl sep K t) {key : Bytes} (hk : K key) {on : Nat} (ho : on ≤ maxON) :
    ∃ F, getOnAllIoSetItemIter sep t key 0 = .ok F ∧ cntOnAllSet sep t key on = .ok (F.filter fun p => decide (on ≤ p.2.1)).length := by
  refine ⟨t.filterMap (item sep key), (by rw [Db.forward_eq hs h hk 0, Db.fro_items hs h key]), ?_⟩
  have hsub : (t.fro (onKey sep key on)).Sublist t := List.dropWhile_sublist _
  unfold cntOnAllSet
  rw [if_neg (h.ne key hk), cntSetLoop_eq hs key fun e he => by
    obtain ⟨k, n, i, _, _, _, hx⟩ := h.entry (hsub.subset he)
    exact ⟨k, n, i, hx⟩]
  congr 1
  have hrest := Db.rest_other hs h hk on
  have hnum : ∀ e ∈ t, ∀ p, item sep key e = some p → (Db.lexLt e.1 (onKey sep key on) = true ↔ p.2.1 < on) := by
    rintro ⟨x, v⟩ he p hp
    obtain ⟨k, n, i, _, hn, _, hx⟩ := h.entry he
    simp only at hx; subst hx
    rw [item_eq hs] at hp
    by_cases hc : k = key
    · subst hc
      rw [if_pos rfl] at hp
      cases hp
      exact Db.lexLt_below k i hn ho
    · rw [if_neg hc] at hp; cases hp
  have h1 : ((t.before (onKey sep key on)).filterMap (item sep key)).filter (fun p => decide (on ≤ p.2.1)) = [] := by
    refine List.filter_eq_nil_iff.2 fun p hp => ?_
    obtain ⟨e, he, hp⟩ := List.mem_filterMap.1 hp
    obtain ⟨hm, hl⟩ := (Db.mem_before h.wf.sorted).1 he
    have := (hnum e hm p hp).1 hl
    simpa using this
  have h2 : ∀ e ∈ t.fro (onKey sep key on), ∀ p, item sep key e = some p → on ≤ p.2.1 := by
    intro e he p hp
    obtain ⟨hm, hl⟩ := (Db.mem_fro h.wf.sorted).1 he
    refine Nat.le_of_not_lt fun hc => ?_
    rw [(hnum e hm p hp).2 hc] at hl
    cases hl
  have hd : ((t.fro (onKey sep key on)).dropWhile (fun e => (item sep key e).isSome)).filterMap (item sep key) = [] := List.filterMap_eq_nil_iff.2 hrest
  have ha : ∀ a : List Entry, (∀ e ∈ a, (item sep key e).isSome = true ∧ e ∈ t.fro (onKey sep key on)) → ((a.filterMap (item sep key)).filter fun p => decide (on ≤ p.2.1)).length = a.length := by
    intro a
    induction a with
    | nil => intro _; rfl
    | cons e a ih =>
      intro hA
      obtain ⟨g1, g2⟩ := hA e (by simp)
      obtain ⟨p, hp⟩ := Option.isSome_iff_exists.1 g1
      rw [List.filterMap_cons, hp]
      dsimp only
      rw [List.filter_cons_of_pos (by simpa using h2 e g2 p hp), List.length_cons, ih fun e he => hA e (by simp [he]), List.length_cons]
  have hF : (t.filterMap (item sep key)).filter (fun p => decide (on ≤ p.2.1)) =
      (((t.fro (onKey sep key on)).takeWhile (fun e => (item sep key e).isSome)).filterMap (item sep key)).filter (fun p => decide (on ≤ p.2.1)) := by
    conv => lhs; rw [← Db.before_fro t (onKey sep key on), ← List.takeWhile_append_dropWhile (p := fun e => (item sep key e).isSome) (l := t.fro (onKey sep key on))]
    rw [List.filterMap_append, List.filterMap_append, hd, List.append_nil, List.filter_append, h1, List.nil_append]
  rw [hF, ha _ fun e he => ⟨List.all_eq_true.1 List.all_takeWhile e he, (List.takeWhile_sublist _).subset he⟩]

theorem backLoop_eq {sep : Nat} (hs : SepOk sep) (key : Bytes) (on : Nat) {l : List Entry} (hent : ∀ e ∈ l, ∃ k n i, e.1 = suffix sep (onKey sep k n) i) :
    backLoop sep key on l = .ok ((l.filterMap (item sep key)).filter fun p => decide (p.2.1 ≤ on)) := by
  induction l with
  | nil => rfl
  | cons e l ih =>
    obtain ⟨x, v⟩ := e
    obtain ⟨k, n, i, hx⟩ := hent (x, v) (by simp)
    simp only at hx; subst hx
    have ih := ih fun e he => hent e (by simp [he])
    unfold backLoop
    rw [split2_eq hs, List.filterMap_cons, item_eq hs]
    dsimp only
    by_cases hc : k = key
    · rw [if_neg (by simpa using hc), if_pos hc]
      dsimp only
      by_cases hn : n > on
      · rw [if_pos hn, List.filter_cons_of_neg (by simpa using hn), ih]
      · rw [if_neg hn, List.filter_cons_of_pos (by simpa using hn), ih]
    · rw [if_pos hc, if_neg hc, ih]

theorem backLoop_items {sep : Nat} (hs : SepOk sep) {K : Bytes → Prop} {t : Tbl} (h : OnSetTbl sep K t) (key : Bytes) {on : Nat} (ho : on ≤ maxON) :
    backLoop sep key on (backTo t (suffix sep (onKey sep key on) maxON)) = .ok (itemsTo sep key on t).reverse := by
  rw [backLoop_eq hs key on fun e he => by
    obtain ⟨k, n, i, _, _, _, hx⟩ := h.entry ((List.mem_filter.1 (List.mem_reverse.1 he)).1)
    exact ⟨k, n, i, hx⟩]
  congr 1
  unfold backTo
  rw [List.filterMap_reverse, List.filter_reverse]
  congr 1
  show (itemsTo sep key on t).filter _ = _
  rw [itemsTo_eq hs h ho, List.filter_filter]
  simp

/-- **C241, backwards (partial).** Iterating a key backwards from a number yields its items up to that number in the opposite order, and nothing if there are none. -/
theorem c241_back_partial {sep : Nat} (hs : SepOk sep) {K : Bytes → Prop} {t : Tbl} (h : OnSetTbl sep K t) {key : Bytes} (hk : K key) (on : Option Nat) (ho : on.getD maxON ≤ maxON) :
    ∃ F, getOnAllIoSetItemIter sep t key 0 = .ok F ∧ backSets sep t key on = .ok (F.filter fun p => decide (p.2.1 ≤ on.getD maxON)).reverse := by
  refine ⟨t.filterMap (item sep key), (by rw [Db.forward_eq hs h hk 0, Db.fro_items hs h key]), ?_⟩
  unfold backSets
  by_cases ht : t = []
  · subst ht; rfl
  · rw [if_neg ht, if_neg (h.ne key hk), backLoop_items hs h key ho, itemsTo_eq hs h ho]

/-- The items that are yielded, of those in backward order. -/
def runLast (key : Bytes) : Option (Nat × Bytes) → List (Bytes × Nat × Bytes) → List (Bytes × Nat × Bytes)
  | none, [] => []
  | some (n, v), [] => [(key, n, v)]
  | none, (_, m, w) :: r => runLast key (some (m, w)) r
  | some (n, v), (_, m, w) :: r => if m ≠ n then (key, n, v) :: runLast key (some (m, w)) r else runLast key (some (n, v)) r

theorem lastBackLoop_eq {sep : Nat} (key : Bytes) (on : Nat) (l : List Entry) : ∀ st, lastBackLoop sep key on st l = (backLoop sep key on l).map (runLast key st) := by
  induction l with
  | nil => rintro (_ | ⟨n, v⟩) <;> rfl
  | cons e l ih =>
    obtain ⟨x, v⟩ := e
    intro st
    unfold lastBackLoop backLoop
    cases split2 sep x with
    | error e => cases st <;> rfl
    | ok q =>
      obtain ⟨ck, con⟩ := q
      dsimp only
      by_cases hc : ck ≠ key
      · rw [if_pos hc, if_pos hc]; exact ih st
      · rw [if_neg hc, if_neg hc]
        by_cases hn : con > on
        · rw [if_pos hn, if_pos hn]; exact ih st
        · rw [if_neg hn, if_neg hn]
          cases st with
          | none =>
            dsimp only
            rw [ih]
            cases backLoop sep key on l with
            | error e => rfl
            | ok r => rfl
          | some p =>
            obtain ⟨lcon, lval⟩ := p
            dsimp only
            by_cases hm : con ≠ lcon
            · rw [if_pos hm, ih]
              cases backLoop sep key on l with
              | error e => rfl
              | ok r => simp only [Except.map, runLast, if_pos hm]
            · rw [if_neg hm, ih]
              cases backLoop sep key on l with
              | error e => rfl
              | ok r => simp only [Except.map, runLast, if_neg hm]

theorem runLast_some {key : Bytes} (l : List (Bytes × Nat × Bytes)) : ∀ (n : Nat) (v : Bytes), (∀ p ∈ l, p.1 = key) → runLast key (some (n, v)) l = (key, n, v) :: firstOfRuns key n l := by
  induction l with
  | nil => intros; rfl
  | cons e l ih =>
    obtain ⟨k, m, w⟩ := e
    intro n v hl
    have hk : k = key := hl (k, m, w) (by simp)
    subst hk
    have hl' := fun p hp => hl p (List.mem_cons_of_mem _ hp)
    unfold runLast firstOfRuns
    by_cases hm : m ≠ n
    · rw [if_pos hm, if_pos (.inr hm), ih m w hl']
    · rw [if_neg hm, if_neg (by simpa using hm), ih n v hl']

/-- **C241, last values backwards (partial).** Iterating the last values of the sets of a key backwards from a number yields, for every number up to it in use and in strictly decreasing order, the last item of that number;
nothing if there is none. -/
theorem c241_last_back_partial {sep : Nat} (hs : SepOk sep) {K : Bytes → Prop} {t : Tbl} (h : OnSetTbl sep K t) {key : Bytes} (hk : K key) (on : Option Nat) (ho : on.getD maxON ≤ maxON) :
    ∃ F M, getOnAllIoSetItemIter sep t key 0 = .ok F ∧ lastBackSets sep t key on = .ok M ∧ M.Pairwise (fun a b => b.2.1 < a.2.1) ∧
      ∀ p, p ∈ M ↔ p.2.1 ≤ on.getD maxON ∧ (F.filter (fun q => decide (q.2.1 = p.2.1))).getLast? = some p := by
  have hfor : getOnAllIoSetItemIter sep t key 0 = .ok (t.filterMap (item sep key)) := by rw [Db.forward_eq hs h hk 0, Db.fro_items hs h key]
  have hE := itemsTo_eq hs h (key := key) ho
  have hweb : lastBackSets sep t key on = .ok (runLast key none (itemsTo sep key (on.getD maxON) t).reverse) := by
    unfold lastBackSets
    by_cases ht : t = []
    · subst ht; rfl
    · rw [if_neg ht, if_neg (h.ne key hk), lastBackLoop_eq, backLoop_items hs h key ho]
      rfl
  by_cases hex : ∃ p ∈ t.filterMap (item sep key), p.2.1 ≤ on.getD maxON
  · obtain ⟨F, hF, hdisk⟩ := Db.c41_last_back_partial hs h hk on ho
    rw [hfor] at hF
    cases hF
    obtain ⟨M, hM, h1, h2⟩ := hdisk hex
    refine ⟨_, M, hfor, ?_, h1, h2⟩
    rw [hweb, ← hM]
    obtain ⟨p0, hp0, hp0'⟩ := hex
    have hne : itemsTo sep key (on.getD maxON) t ≠ [] := by
      rw [hE]
      intro hq
      have : p0 ∈ (t.filterMap (item sep key)).filter (fun p => decide (p.2.1 ≤ on.getD maxON)) := List.mem_filter.2 ⟨hp0, by simpa using hp0'⟩
      rw [hq] at this; simp at this
    have hit := Db.iterLoop_back hs h hk (on.getD maxON)
    have hrun : Db.getOnAllIoSetLastItemBackIter sep t key on = Db.lastStart sep key (notPast t (suffix sep (onKey sep key (on.getD maxON)) maxON)).reverse := by
      unfold Db.getOnAllIoSetLastItemBackIter
      rw [if_neg (h.ne key hk), (Db.backFrom_eq hs h hk ho).1 hne]
    have hkey : ∀ p ∈ (itemsTo sep key (on.getD maxON) t).reverse, p.1 = key := by
      intro p hp
      rw [List.mem_reverse, hE, List.mem_filter] at hp
      exact (Db.items_sorted hs h key).2 p hp.1
    generalize hR : (itemsTo sep key (on.getD maxON) t).reverse = R at hit hkey
    cases R with
    | nil => exact absurd (by simpa using hR) hne
    | cons e r =>
      obtain ⟨k, n, v⟩ := e
      have hk1 : k = key := hkey (k, n, v) (by simp)
      subst hk1
      rw [hrun, Db.lastStart_eq _ hit]
      show Except.ok (runLast k (some (n, v)) r) = _
      rw [runLast_some r n v fun p hp => hkey p (List.mem_cons_of_mem _ hp)]
  · have hnil : itemsTo sep key (on.getD maxON) t = [] := by
      rw [hE]
      refine List.filter_eq_nil_iff.2 fun p hp hc => hex ⟨p, hp, by simpa using hc⟩
    refine ⟨_, [], hfor, ?_, List.Pairwise.nil, fun p => ⟨fun hp => (by cases hp), fun hp => ?_⟩⟩
    · rw [hweb, hnil]; rfl
    · exact absurd ⟨p, (List.mem_filter.1 (List.mem_of_getLast? hp.2)).1, hp.1⟩ hex

theorem allBackLoop_some (sep : Nat) (l : List Entry) : ∀ p, allBackLoop sep (some p) l = (Db.iterLoop sep [] l).map fun L => p :: firstOfRuns p.1 p.2.1 L := by
  induction l with
  | nil => intro p; rfl
  | cons e l ih =>
    obtain ⟨x, v⟩ := e
    intro p
    unfold allBackLoop Db.iterLoop
    cases split2 sep x with
    | error e => rfl
    | ok q =>
      obtain ⟨ck, con⟩ := q
      dsimp only
      rw [if_neg (c := ([] : Bytes) ≠ [] ∧ ck ≠ []) fun h => h.1 rfl]
      by_cases hm : ck ≠ p.1 ∨ con ≠ p.2.1
      · rw [if_pos hm, ih]
        cases Db.iterLoop sep [] l with
        | error e => rfl
        | ok r => simp only [Except.map, firstOfRuns, if_pos hm]
      · rw [if_neg hm, ih]
        cases Db.iterLoop sep [] l with
        | error e => rfl
        | ok r => simp only [Except.map, firstOfRuns, if_neg hm]

/-- C241: without a key both iterations backwards yield or raise in browsers what they do on disk, with every separator and whatever there is in the database. -/
theorem c241_all_same (sep : Nat) (t : Tbl) (on : Option Nat) :
    backSets sep t [] on = Db.getOnAllIoSetItemBackIter sep t [] on ∧ lastBackSets sep t [] on = Db.getOnAllIoSetLastItemBackIter sep t [] on := by
  refine ⟨?_, ?_⟩
  · unfold backSets Db.getOnAllIoSetItemBackIter
    by_cases ht : t = []
    · rw [if_pos ht, if_pos ht]
    · rw [if_neg ht, if_neg ht, if_pos rfl, if_pos rfl]
  · unfold lastBackSets Db.getOnAllIoSetLastItemBackIter
    rw [if_pos rfl, if_pos rfl]
    by_cases ht : t = []
    · rw [if_pos ht, ht]; rfl
    · rw [if_neg ht]
      generalize t.reverse = l
      cases l with
      | nil => rfl
      | cons e l =>
        obtain ⟨x, v⟩ := e
        unfold allBackLoop Db.lastStart
        dsimp only
        cases split2 sep x with
        | error e => rfl
        | ok q =>
          obtain ⟨ck, con⟩ := q
          dsimp only
          rw [allBackLoop_some, Db.lastLoop_eq]
          cases Db.iterLoop sep [] l <;> rfl

/-- The hypotheses of the theorems are met, and something is counted and yielded. -/
example : OnSetTbl 46 Db.Demo41.K Db.Demo41.t ∧ Db.Demo41.K [65] ∧ cntOnAllSet 46 Db.Demo41.t [65] 1 = .ok 3 ∧
    backSets 46 Db.Demo41.t [65] (some 2) = .ok [([65], 0, [2]), ([65], 0, [1])] ∧ lastBackSets 46 Db.Demo41.t [65] none = .ok [([65], 3, [3]), ([65], 0, [2])] ∧
    lastBackSets 46 Db.Demo41.t [] none = .ok [([66], 1, [9]), ([65], 3, [3]), ([65], 0, [2])] :=
  ⟨Db.Demo41.wf, .inl rfl, by decide +kernel, by decide +kernel, by decide +kernel, by decide +kernel⟩

/-- **Missing keys.** Where the database on disk raises ValueError for a key that is not there (C41), the one in browsers yields nothing. -/
theorem c241_missing :
    (let t := (Db.addOnIoSetVal 46 [] [66] 0 [1]).1
     backSets 46 t [65] none = .ok [] ∧ Db.getOnAllIoSetItemBackIter 46 t [65] none = .error .valueError) ∧
    lastBackSets 46 [] [65] none = .ok [] ∧ Db.getOnAllIoSetLastItemBackIter 46 [] [65] none = .error .valueError :=
  ⟨⟨by decide +kernel, by decide +kernel⟩, by decide +kernel, by decide +kernel⟩

/-- **C241 fails for nested keys.** Backwards the sets of `A` are all there, forward those after a key `A.00000000000000000000000000000005` are not, nor are they counted. -/
theorem c241_nested_keys :
    let k : Bytes := [65]
    let t := (Db.putOnIoSetVals 46 (Db.putOnIoSetVals 46 (Db.putOnIoSetVals 46 [] k 0 [[1]]).1 k 9 [[2]]).1 (onKey 46 k 5) 0 [[3]]).1
    backSets 46 t k none = .ok [(k, 9, [2]), (k, 0, [1])] ∧ getOnAllIoSetItemIter 46 t k 0 = .ok [(k, 0, [1])] ∧ cntOnAllSet 46 t k 0 = .ok 1 := by decide +kernel

end Verif.Web
