import Verif.Db.PropsBack

/-!
# C52: single values behave as a map; numbered items; appending sets
-/

namespace Verif.Db

/-- Operations on single values. -/
inductive MapOp where
  | put (k v : Bytes)
  | set (k v : Bytes)
  | get (k : Bytes)
  | rem (k : Bytes)

inductive MapOut where
  | bool (b : Bool)
  | val (o : Option Bytes)
  deriving DecidableEq

def MapOp.key : MapOp → Bytes
  | .put k _ | .set k _ | .get k | .rem k => k

/-- The specification: a partial map; put adds, set replaces. -/
def MapOp.spec (m : Bytes → Option Bytes) : MapOp → (Bytes → Option Bytes) × MapOut
  | .put k v => match m k with
    | some _ => (m, .bool false)
    | none => (fun x => if x = k then some v else m x, .bool true)
  | .set k v => (fun x => if x = k then some v else m x, .bool true)
  | .get k => (m, .val (m k))
  | .rem k => (fun x => if x = k then none else m x, .bool (m k).isSome)

def mapSpec (m : Bytes → Option Bytes) : List MapOp → List MapOut
  | [] => []
  | o :: os => (o.spec m).2 :: mapSpec (o.spec m).1 os

/-- The database functions. -/
def MapOp.impl (t : Tbl) : MapOp → Tbl × MapOut
  | .put k v => ((putVal t k v).1, .bool (putVal t k v).2)
  | .set k v => ((setVal t k v).1, .bool (setVal t k v).2)
  | .get k => (t, .val (getVal t k))
  | .rem k => ((remVal t k).1, .bool (remVal t k).2)

def mapImpl (t : Tbl) : List MapOp → List MapOut
  | [] => []
  | o :: os => (o.impl t).2 :: mapImpl (o.impl t).1 os

theorem get_insert {t : Tbl} (h : Sorted t) (k v x : Bytes) : (t.insert k v).get x = if x = k then some v else t.get x := by
  have hs := (sorted_insert h k v).1
  by_cases hx : x = k
  · subst hx
    rw [if_pos rfl]
    exact (get_some hs).2 (mem_insert_self t x v)
  · rw [if_neg hx]
    cases hq : t.get x with
    | some w => exact (get_some hs).2 (mem_insert_other v ((get_some h).1 hq) hx)
    | none =>
      refine get_none.2 fun e he hex => ?_
      rcases (sorted_insert h k v).2 e he with rfl | ⟨he, _⟩
      · exact hx hex.symm
      · exact get_none.1 hq e he hex

theorem get_del {t : Tbl} (h : Sorted t) (k x : Bytes) : (t.del k).1.get x = if x = k then none else t.get x := by
  by_cases hx : x = k
  · subst hx
    rw [if_pos rfl]
    refine get_none.2 fun e he => ?_
    simpa using (List.mem_filter.1 he).2
  · rw [if_neg hx]
    cases hq : t.get x with
    | some w => exact (get_some (h.filter _)).2 (List.mem_filter.2 ⟨(get_some h).1 hq, by simpa using hx⟩)
    | none => exact get_none.2 fun e he => get_none.1 hq e (List.mem_filter.1 he).1

theorem map_step {t : Tbl} (h : Sorted t) {m : Bytes → Option Bytes} (hm : ∀ k, t.get k = m k) (o : MapOp) (hk : o.key ≠ []) :
    (o.impl t).2 = (o.spec m).2 ∧ Sorted (o.impl t).1 ∧ ∀ k, (o.impl t).1.get k = (o.spec m).1 k := by
  cases o with
  | put k v =>
    simp only [MapOp.key] at hk
    simp only [MapOp.impl, MapOp.spec, putVal, Tbl.put]
    rw [if_neg hk, hm k]
    cases hq : m k with
    | some w => simpa using ⟨h, hm⟩
    | none =>
      refine ⟨by simp, by simpa using (sorted_insert h k v).1, fun x => ?_⟩
      simp only [Option.isSome_none, and_false, Bool.false_eq_true, if_false]
      rw [get_insert h, hm]
  | set k v =>
    simp only [MapOp.key] at hk
    simp only [MapOp.impl, MapOp.spec, setVal, Tbl.put]
    rw [if_neg hk]
    refine ⟨by simp, by simpa using (sorted_insert h k v).1, fun x => ?_⟩
    simp only [Bool.true_eq_false, false_and, if_false]
    rw [get_insert h, hm]
  | get k =>
    simp only [MapOp.key] at hk
    simp only [MapOp.impl, MapOp.spec, getVal]
    rw [if_neg hk, hm k]
    exact ⟨rfl, h, hm⟩
  | rem k =>
    simp only [MapOp.key] at hk
    simp only [MapOp.impl, MapOp.spec, remVal]
    rw [if_neg hk]
    refine ⟨by simp [Tbl.del, hm k], h.filter _, fun x => ?_⟩
    rw [get_del h, hm]

/-- **C52.** From an empty sub-database, under every sequence of put, set, get and remove operations on non-empty keys, every answer is
the one of a partial map: put adds and never replaces, set replaces, remove removes, and other keys are unaffected. -/
theorem c52_map (os : List MapOp) (hk : ∀ o ∈ os, o.key ≠ []) : mapImpl [] os = mapSpec (fun _ => none) os := by
  have : ∀ (os : List MapOp) (t : Tbl) (m : Bytes → Option Bytes), Sorted t → (∀ k, t.get k = m k) → (∀ o ∈ os, o.key ≠ []) → mapImpl t os = mapSpec m os := by
    intro os
    induction os with
    | nil => intros; rfl
    | cons o os ih =>
      intro t m h hm hk
      obtain ⟨h1, h2, h3⟩ := map_step h hm o (hk o (by simp))
      simp only [mapImpl, mapSpec]
      rw [h1, ih _ _ h2 h3 (fun o ho => hk o (by simp [ho]))]
  exact this os [] _ List.Pairwise.nil (fun _ => rfl) hk

/-- **C52 (empty keys).** Writes and removals under an empty key change nothing, a read gives nothing. -/
theorem c52_empty_key (t : Tbl) (v : Bytes) : putVal t [] v = (t, false) ∧ setVal t [] v = (t, false) ∧ getVal t [] = none ∧ remVal t [] = (t, false) := by
  simp [putVal, setVal, getVal, remVal]

namespace Demo52
def ops : List MapOp := [.put [65] [1], .put [65] [2], .get [65], .set [65] [3], .set [66] [], .get [65], .rem [65], .get [65], .get [66], .rem [67]]
example : ∀ o ∈ ops, o.key ≠ [] := by
  intro o ho
  simp only [ops, List.mem_cons, List.not_mem_nil, or_false] at ho
  rcases ho with rfl | rfl | rfl | rfl | rfl | rfl | rfl | rfl | rfl | rfl <;> simp [MapOp.key]
example : mapSpec (fun _ => none) ops = [.bool true, .bool false, .val (some [1]), .bool true, .bool true, .val (some [3]), .bool true, .val none,
  .val (some []), .bool false] := by decide +kernel
end Demo52

/-- **C38 (items).** The item at a number is the key, the number and the value read there, unless that value is empty. -/
theorem c38_item {sep : Nat} (t : Tbl) (key : Bytes) (on : Nat) (k : Bytes) (n : Nat) (v : Bytes) :
    getOnItem sep t key on = some (k, n, v) ↔ k = key ∧ n = on ∧ v ≠ [] ∧ getOnVal sep t key on = some v := by
  unfold getOnItem getOnVal
  by_cases hk : key = []
  · simp [hk]
  · rw [if_neg hk, if_neg hk]
    cases t.get (onKey sep key on) with
    | none => simp
    | some w =>
      simp only
      by_cases hw : w = []
      · rw [if_pos hw]
        simp only [hw, Option.some.injEq]
        constructor
        · intro h; simp at h
        · rintro ⟨_, _, h1, h2⟩; exact absurd h2.symm h1
      · rw [if_neg hw]
        simp only [Option.some.injEq, Prod.mk.injEq]
        constructor
        · rintro ⟨rfl, rfl, rfl⟩; exact ⟨rfl, rfl, hw, rfl⟩
        · rintro ⟨rfl, rfl, _, rfl⟩; exact ⟨rfl, rfl, rfl⟩

/-! ## Appending a set -/

/-- One past the last number. -/
def nextNum (F : List (Bytes × Nat × Bytes)) : Nat := match F.getLast? with
  | none => 0
  | some p => p.2.1 + 1

theorem items_lt_next {F : List (Bytes × Nat × Bytes)} (h : F.Pairwise (fun a b => a.2.1 ≤ b.2.1)) : ∀ p ∈ F, p.2.1 < nextNum F := by
  intro p hp
  rcases List.eq_nil_or_concat F with rfl | ⟨a, e, rfl⟩
  · simp at hp
  · simp only [List.concat_eq_append] at *
    unfold nextNum
    simp only [List.getLast?_append, List.getLast?_singleton, Option.some_or]
    rcases List.mem_append.1 hp with hp | hp
    · have := (List.pairwise_append.1 h).2.2 p hp e (by simp); omega
    · simp at hp; subst hp; omega

/-- Inserting an entry after all entries of the key adds its item at the end. -/
theorem insert_items {sep : Nat} (hs : SepOk sep) {K : Bytes → Prop} {t : Tbl} (h : OnSetTbl sep K t) {key : Bytes} (hk : K key) {n i : Nat} (hn : n ≤ maxON)
    (hi : i ≤ maxON) (v : Bytes) (hlast : ∀ e ∈ t, item sep key e ≠ none → lexLt e.1 (suffix sep (onKey sep key n) i) = true) :
    t.get (suffix sep (onKey sep key n) i) = none ∧ OnSetTbl sep K (t.insert (suffix sep (onKey sep key n) i) v) ∧
    (t.insert (suffix sep (onKey sep key n) i) v).filterMap (item sep key) = t.filterMap (item sep key) ++ [(key, n, v)] ∧
    ∀ k, k ≠ key → (t.insert (suffix sep (onKey sep key n) i) v).filterMap (item sep k) = t.filterMap (item sep k) := by
  have hfresh : ∀ e ∈ t, e.1 ≠ suffix sep (onKey sep key n) i := by
    rintro ⟨x, w⟩ he hx
    have := hlast (x, w) he (by simp only at hx; rw [hx, item_eq hs, if_pos rfl]; simp)
    rw [hx, lexLt_irrefl] at this; exact absurd this (by simp)
  obtain ⟨a, b, e1, e2, e3, e4⟩ := insert_split h.wf.sorted v hfresh
  have hb : b.filterMap (item sep key) = [] := by
    rw [List.filterMap_eq_nil_iff]
    intro e he
    cases hq : item sep key e with
    | none => rfl
    | some p =>
      have h1 := hlast e (by rw [e1]; simp [he]) (by rw [hq]; simp)
      have h2 := e4 e he
      rw [lexLt_asymm h1] at h2; exact absurd h2 (by simp)
  refine ⟨get_none.2 hfresh, ⟨⟨(sorted_insert h.wf.sorted _ v).1, ?_⟩, h.apart, h.ne⟩, ?_, ?_⟩
  · intro e he
    rcases (sorted_insert h.wf.sorted _ v).2 e he with rfl | ⟨he, _⟩
    · exact ⟨_, i, ⟨key, n, hk, hn, rfl⟩, by have := maxON_lt; omega, rfl⟩
    · exact h.wf.keys e he
  · rw [e2, e1, List.filterMap_append, List.filterMap_append, List.filterMap_cons, item_eq hs, if_pos rfl, hb]; simp
  · intro k hkk
    rw [e2, e1, List.filterMap_append, List.filterMap_append, List.filterMap_cons, item_eq hs, if_neg (Ne.symm hkk)]

theorem putFresh_items {sep : Nat} (hs : SepOk sep) {K : Bytes → Prop} {key : Bytes} (hk : K key) {n : Nat} (hn : n ≤ maxON) (vs : List Bytes) :
    ∀ (i : Nat) (t : Tbl), OnSetTbl sep K t → i + vs.length ≤ 16 ^ 32 →
    (∀ e ∈ t, item sep key e ≠ none → ∀ j, i ≤ j → j ≤ maxON → lexLt e.1 (suffix sep (onKey sep key n) j) = true) →
    ∃ t', putFresh sep (onKey sep key n) i vs t = some t' ∧ OnSetTbl sep K t' ∧
      t'.filterMap (item sep key) = t.filterMap (item sep key) ++ vs.map (fun v => (key, n, v)) ∧
      ∀ k, k ≠ key → t'.filterMap (item sep k) = t.filterMap (item sep k) := by
  induction vs with
  | nil => intro i t h _ _; exact ⟨t, rfl, h, by simp, fun _ _ => rfl⟩
  | cons v vs ih =>
    intro i t h hlen hlast
    have hsucc := maxON_succ
    simp only [List.length_cons] at hlen
    obtain ⟨h1, h2, h3, h4⟩ := insert_items hs h hk (n := n) (i := i) hn (by omega) v (fun e he hq => hlast e he hq i (Nat.le_refl _) (by omega))
    obtain ⟨t', g1, g2, g3, g4⟩ := ih (i + 1) _ h2 (by omega) (by
      intro e he hq j hj hjm
      rcases (sorted_insert h.wf.sorted _ v).2 e he with rfl | ⟨he, _⟩
      · exact (lexLt_num key hn hn (by omega) hjm).2 (.inr ⟨rfl, by omega⟩)
      · exact hlast e he hq j (by omega) hjm)
    have hp : t.put (suffix sep (onKey sep key n) i) v false = (t.insert (suffix sep (onKey sep key n) i) v, true) := by
      unfold Tbl.put; rw [h1]; simp
    refine ⟨t', ?_, g2, ?_, fun k hkk => (g4 k hkk).trans (h4 k hkk)⟩
    · unfold putFresh; rw [hp]; exact g1
    · rw [g3, h3]; simp

/-- Where the set is appended. -/
theorem appendSetOn_eq {sep : Nat} (hs : SepOk sep) {K : Bytes → Prop} {t : Tbl} (h : OnSetTbl sep K t) {key : Bytes} (hk : K key)
    (hmax : ∀ p ∈ t.filterMap (item sep key), p.2.1 ≠ maxON) : appendSetOn sep t key = .ok (nextNum (t.filterMap (item sep key))) := by
  -- entries of the key come before the greatest possible one
  have hlt : ∀ e ∈ t, item sep key e ≠ none → lexLt e.1 (suffix sep (onKey sep key maxON) maxON) = true := by
    rintro ⟨x, v⟩ he hq
    obtain ⟨k, n, i, hkk, hn, hi, hx⟩ := h.entry he
    simp only at hx; subst hx
    rw [item_eq hs] at hq
    split at hq
    · rename_i hc; subst hc
      have : n ≠ maxON := hmax (k, n, v) (List.mem_filterMap.2 ⟨_, he, by rw [item_eq hs, if_pos rfl]⟩)
      exact (lexLt_num k hn (Nat.le_refl _) hi (Nat.le_refl _)).2 (.inl (by omega))
    · simp at hq
  -- the last of entries before it tells the number
  have hnext : ∀ s : Tbl, OnSetTbl sep K s → (∀ e ∈ s, lexLt e.1 (suffix sep (onKey sep key maxON) maxON) = true) →
      (match s.getLast? with
        | none => Except.ok 0
        | some (x, _) => match split2 sep x with
          | .error e => .error e
          | .ok (ck, con) => .ok (if ck = key then con + 1 else 0) : Except Err Nat) = .ok (nextNum (s.filterMap (item sep key))) := by
    intro s h hls
    rcases List.eq_nil_or_concat s with rfl | ⟨a, e, rfl⟩
    · rfl
    · simp only [List.concat_eq_append] at *
      simp only [List.getLast?_append, List.getLast?_singleton, Option.some_or]
      obtain ⟨x, v⟩ := e
      obtain ⟨k, n, i, hkk, hn, hi, hx⟩ := h.entry (e := (x, v)) (by simp)
      simp only at hx; subst hx
      simp only [split2_eq hs]
      rw [List.filterMap_append]
      by_cases hc : k = key
      · subst hc
        rw [if_pos rfl]
        simp [item_eq hs, nextNum]
      · rw [if_neg hc]
        have ha : a.filterMap (item sep key) = [] := by
          rw [List.filterMap_eq_nil_iff]
          rintro ⟨y, w⟩ hy
          obtain ⟨k', n', i', hk', _, _, hy'⟩ := h.entry (e := (y, w)) (by simp [hy])
          simp only at hy'; subst hy'
          rw [item_eq hs]
          split
          · rename_i hq; subst hq
            exfalso
            have h1 := (List.pairwise_append.1 h.wf.sorted).2.2 _ hy (suffix sep (onKey sep k n) i, v) (by simp)
            have h2 := hls (suffix sep (onKey sep k n) i, v) (by simp)
            exact hc (no_gap2 hs h.apart hk' hkk (lexLt_asymm h1) (lexLt_asymm h2))
          · rfl
        rw [ha]
        simp [item_eq hs, hc, nextNum]
  have hsplit := before_fro t (suffix sep (onKey sep key maxON) maxON)
  have hfro : (t.fro (suffix sep (onKey sep key maxON) maxON)).filterMap (item sep key) = [] := by
    rw [List.filterMap_eq_nil_iff]
    intro e he
    obtain ⟨h1, h2⟩ := (mem_fro h.wf.sorted).1 he
    cases hq : item sep key e with
    | none => rfl
    | some p => rw [hlt e h1 (by rw [hq]; simp)] at h2; exact absurd h2 (by simp)
  have hitems : (t.before (suffix sep (onKey sep key maxON) maxON)).filterMap (item sep key) = t.filterMap (item sep key) := by
    conv => rhs; rw [← hsplit, List.filterMap_append, hfro, List.append_nil]
  have hbef := hnext (t.before (suffix sep (onKey sep key maxON) maxON)) (h.sublist (List.takeWhile_sublist _)) (fun e he => ((mem_before h.wf.sorted).1 he).2)
  rw [hitems] at hbef
  unfold appendSetOn
  cases hf : t.fro (suffix sep (onKey sep key maxON) maxON) with
  | nil =>
    rw [hf, List.append_nil] at hsplit
    rw [hsplit] at hbef
    exact hbef
  | cons e r =>
    obtain ⟨x, v⟩ := e
    have hm : (x, v) ∈ t.fro (suffix sep (onKey sep key maxON) maxON) := by rw [hf]; simp
    obtain ⟨k, n, i, hkk, hn, hi, hx⟩ := h.entry ((mem_fro h.wf.sorted).1 hm).1
    simp only at hx; subst hx
    have hit := (List.filterMap_eq_nil_iff.1 hfro) _ hm
    rw [item_eq hs] at hit
    have hc : k ≠ key := by
      intro hc; rw [if_pos hc] at hit; simp at hit
    simp only [split2_eq hs]
    rw [if_neg hc]
    exact hbef

/-- **C38 (sets, partial).** Appending a list of values to a key whose greatest number is not MaxON returns the number one past the last one in use
(0 if none), adds the values there in the order given, and changes no other number or key.  Missing: values given twice are
kept twice (`c38_append_repeats`), and keys that are others followed by the separator. -/
theorem c38_append_set_partial {sep : Nat} (hs : SepOk sep) {K : Bytes → Prop} {t : Tbl} (h : OnSetTbl sep K t) {key : Bytes} (hk : K key)
    (vals : List Bytes) (hv : vals ≠ []) (hl : vals.length ≤ 16 ^ 32) : ∃ F, getOnAllIoSetItemIter sep t key 0 = .ok F ∧ ((∀ p ∈ F, p.2.1 ≠ maxON) →
      ∃ t' on, appendOnIoSetVals sep t key vals = (t', .ok on) ∧ (∀ p ∈ F, p.2.1 < on) ∧ (on = 0 ∨ ∃ p ∈ F, p.2.1 + 1 = on) ∧ OnSetTbl sep K t' ∧
        getOnAllIoSetItemIter sep t' key 0 = .ok (F ++ vals.map (fun v => (key, on, v))) ∧
        ∀ k, K k → k ≠ key → getOnAllIoSetItemIter sep t' k 0 = getOnAllIoSetItemIter sep t k 0) := by
  refine ⟨_, forward_eq hs h hk 0, ?_⟩
  rw [fro_items hs h key]
  intro hmax
  have hsort := (items_sorted hs h key).1
  have hnl := items_lt_next hsort
  have hn : nextNum (t.filterMap (item sep key)) ≤ maxON := by
    unfold nextNum
    cases hq : (t.filterMap (item sep key)).getLast? with
    | none => exact Nat.zero_le _
    | some p =>
      have hp := List.mem_of_getLast? hq
      have h1 := hmax p hp
      obtain ⟨⟨x, v⟩, he, hi⟩ := List.mem_filterMap.1 hp
      obtain ⟨k, n, i, _, hn, _, hx⟩ := h.entry he
      simp only at hx; subst hx
      rw [item_eq hs] at hi
      split at hi <;> simp at hi
      subst hi
      simp only at h1 ⊢; omega
  obtain ⟨t', g1, g2, g3, g4⟩ := putFresh_items hs hk hn vals 0 t h (by omega) (by
    rintro ⟨x, v⟩ he hq j _ hj
    obtain ⟨k, n, i, _, hn', hi, hx⟩ := h.entry he
    simp only at hx; subst hx
    rw [item_eq hs] at hq
    split at hq
    · rename_i hc; subst hc
      refine (lexLt_num k hn' hn hi hj).2 (.inl ?_)
      exact hnl (k, n, v) (List.mem_filterMap.2 ⟨_, he, by rw [item_eq hs, if_pos rfl]⟩)
    · simp at hq)
  refine ⟨t', nextNum (t.filterMap (item sep key)), ?_, hnl, ?_, g2, ?_, ?_⟩
  · unfold appendOnIoSetVals
    rw [if_neg (by simp [h.ne key hk, hv]), appendSetOn_eq hs h hk hmax]
    simp only [g1]
  · unfold nextNum
    cases hq : (t.filterMap (item sep key)).getLast? with
    | none => exact .inl rfl
    | some p => exact .inr ⟨p, List.mem_of_getLast? hq, rfl⟩
  · rw [forward_eq hs g2 hk 0, fro_items hs g2 key, g3]
  · intro k hkk hne
    rw [forward_eq hs g2 hkk 0, fro_items hs g2 k, forward_eq hs h hkk 0, fro_items hs h k, g4 k hne]

/-- **C38 (sets), as coded.** A value given twice to an append is there twice. -/
theorem c38_append_repeats : (let t := (appendOnIoSetVals 46 [] [65] [[1], [1]]).1; getOnAllIoSetItemIter 46 t [65] 0 = .ok [([65], 0, [1]), ([65], 0, [1])]) := by
  decide +kernel

/-- A non-trivial case of `c38_append_set_partial`. -/
example : OnSetTbl 46 Demo41.K Demo41.t ∧ Demo41.K [65] ∧
    (appendOnIoSetVals 46 Demo41.t [65] [[7], [6]]).2 = .ok 4 := by
  exact ⟨Demo41.wf, .inl rfl, by decide +kernel⟩

end Verif.Db
