import Verif.Sub.Keys
import Verif.Db.PropsKey

/-! # C177, C179: typed single values and their branches -/

namespace Verif.Sub

open Verif.Db

/-- The table holds the map, and nothing else. -/
structure Rel {V : Type} (sep : Nat) (c : Codec V) (t : Tbl) (m : List Bytes → Option V) : Prop where
  sorted : Sorted t
  keys : ∀ e, e ∈ t → ∃ ks, KeyOk sep ks ∧ e.1 = join sep ks
  vals : ∀ ks, KeyOk sep ks → match m ks with
    | none => t.get (join sep ks) = none
    | some v => ∃ b, c.ser v = .ok b ∧ c.des b = .ok v ∧ t.get (join sep ks) = some b

theorem key_ne {sep : Nat} {a b : List Bytes} (ha : KeyOk sep a) (hb : KeyOk sep b) (h : a ≠ b) : join sep a ≠ join sep b :=
  fun h0 => h (join_inj ha.1 ha.2.1 hb.1 hb.2.1 h0)

theorem rel_write {V : Type} {sep : Nat} {c : Codec V} {t : Tbl} {m : List Bytes → Option V} (h : Rel sep c t m) {ks : List Bytes}
    (hk : KeyOk sep ks) {v : V} {b : Bytes} (h1 : c.ser v = .ok b) (h2 : c.des b = .ok v) :
    Rel sep c (t.insert (join sep ks) b) (fun x => if x = ks then some v else m x) := by
  refine ⟨(sorted_insert h.sorted _ _).1, ?_, ?_⟩
  · intro e he
    rcases (sorted_insert h.sorted (join sep ks) b).2 e he with rfl | ⟨he, _⟩
    · exact ⟨ks, hk, rfl⟩
    · exact h.keys e he
  · intro x hx
    simp only [get_insert h.sorted]
    by_cases hxk : x = ks
    · subst hxk
      rw [if_pos rfl, if_pos rfl]
      exact ⟨b, h1, h2, rfl⟩
    · rw [if_neg hxk, if_neg (key_ne hx hk hxk)]
      exact h.vals x hx

theorem step {V : Type} {sep : Nat} {c : Codec V} {t : Tbl} {m : List Bytes → Option V} (h : Rel sep c t m) (o : Op V)
    (hk : KeyOk sep o.keys) (hv : ∀ v, o.value = some v → Good c v) :
    (o.impl sep c t).2 = .ok (o.spec m).2 ∧ Rel sep c (o.impl sep c t).1 (o.spec m).1 := by
  have hne := join_ne hk
  have hg := h.vals _ hk
  cases o with
  | put ks v =>
    obtain ⟨b, h1, h2⟩ := hv v rfl
    simp only [Op.keys] at hk hne hg
    simp only [Op.impl, sPut, tokey_parts, h1, putVal, Tbl.put]
    rw [if_neg hne]
    simp only [Op.spec]
    cases hm : m ks with
    | none =>
      simp only [hm] at hg
      simp only [hg, Option.isSome_none, Bool.false_eq_true, and_false, if_false]
      exact ⟨rfl, rel_write h hk h1 h2⟩
    | some w =>
      simp only [hm] at hg
      obtain ⟨b', _, _, hg⟩ := hg
      simp only [hg, Option.isSome_some, and_self, if_true]
      exact ⟨rfl, h⟩
  | pin ks v =>
    obtain ⟨b, h1, h2⟩ := hv v rfl
    simp only [Op.keys] at hk hne
    simp only [Op.impl, sPin, tokey_parts, h1, setVal, Tbl.put]
    rw [if_neg hne]
    simp only [Bool.true_eq_false, false_and, if_false]
    exact ⟨rfl, rel_write h hk h1 h2⟩
  | get ks =>
    simp only [Op.keys] at hk hne hg
    simp only [Op.impl, sGet, tokey_parts, getVal]
    rw [if_neg hne]
    simp only [Op.spec]
    refine ⟨?_, h⟩
    cases hm : m ks with
    | none => simp only [hm] at hg; rw [hg]; rfl
    | some w =>
      simp only [hm] at hg
      obtain ⟨b', _, h2, hg⟩ := hg
      rw [hg]
      simp only [h2]
      rfl
  | rem ks =>
    simp only [Op.keys] at hk hne hg
    simp only [Op.impl, sRem, tokey_parts, remVal]
    rw [if_neg hne]
    simp only [Op.spec]
    refine ⟨?_, h.sorted.filter _, fun e he => h.keys e (List.mem_filter.1 he).1, ?_⟩
    · show Except.ok (Out.bool (t.get (join sep ks)).isSome) = _
      cases hm : m ks with
      | none => simp only [hm] at hg; rw [hg]; rfl
      | some w =>
        simp only [hm] at hg
        obtain ⟨b', _, _, hg⟩ := hg
        rw [hg]; rfl
    · intro x hx
      simp only [get_del h.sorted]
      by_cases hxk : x = ks
      · subst hxk; rw [if_pos rfl, if_pos rfl]
      · rw [if_neg hxk, if_neg (key_ne hx hk hxk)]
        exact h.vals x hx

theorem rel_nil {V : Type} (sep : Nat) (c : Codec V) : Rel sep c [] (fun _ => none) :=
  ⟨List.Pairwise.nil, by simp, fun _ _ => rfl⟩

theorem runs {V : Type} {sep : Nat} {c : Codec V} : ∀ (os : List (Op V)) (t : Tbl) (m : List Bytes → Option V), Rel sep c t m →
    (∀ o, o ∈ os → KeyOk sep o.keys ∧ ∀ v, o.value = some v → Good c v) →
    impl sep c t os = (spec m os).map .ok ∧ Rel sep c (after sep c t os) (final m os)
  | [], _, _, h, _ => ⟨rfl, h⟩
  | o :: os, t, m, h, ho => by
    obtain ⟨h1, h2⟩ := step h o (ho o (by simp)).1 (ho o (by simp)).2
    obtain ⟨r1, r2⟩ := runs os _ _ h2 (fun x hx => ho x (by simp [hx]))
    refine ⟨?_, r2⟩
    simp only [impl, spec, List.map_cons]
    rw [h1, r1]

/-- **C177.** From an empty sub-database, under every sequence of put, pin, get and rem with keys whose parts have no separator, and
with values that the codec reads back, every answer is the one of a map from key tuples to values, and nothing is raised. -/
theorem c177_map {V : Type} (sep : Nat) (c : Codec V) (os : List (Op V))
    (ho : ∀ o, o ∈ os → KeyOk sep o.keys ∧ ∀ v, o.value = some v → Good c v) :
    impl sep c [] os = (spec (fun _ => none) os).map .ok := (runs os [] _ (rel_nil sep c) ho).1

/-- **C177, refusal.** A value that the codec does not write is refused with its exception, and nothing is changed. -/
theorem c177_refused {V : Type} (sep : Nat) (c : Codec V) (t : Tbl) (ks : List Bytes) (v : V) (e : Err) (h : c.ser v = .error e) :
    sPut sep c t (.parts ks) v = (t, .error e) ∧ sPin sep c t (.parts ks) v = (t, .error e) := by
  simp only [sPut, sPin, tokey_parts, h, and_self]

theorem items_ok {V : Type} {sep : Nat} {c : Codec V} : ∀ (es : List Entry),
    (∀ e, e ∈ es → (∃ ks, KeyOk sep ks ∧ e.1 = join sep ks) ∧ ∃ v, c.des e.2 = .ok v) →
    ∃ l, items sep c es = .ok l ∧ l.map (fun x => join sep x.1) = es.map (·.1) ∧
      ∀ ks v, (ks, v) ∈ l ↔ KeyOk sep ks ∧ ∃ b, (join sep ks, b) ∈ es ∧ c.des b = .ok v
  | [], _ => ⟨[], rfl, rfl, fun _ _ => by simp⟩
  | (k, b) :: es, h => by
    obtain ⟨l, h1, h2, h3⟩ := items_ok es (fun e he => h e (by simp [he]))
    obtain ⟨⟨ks, hk, hj⟩, v, hv⟩ := h (k, b) (by simp)
    simp only at hj hv
    subst hj
    have hs : tokeys sep (join sep ks) = ks := split_join hk.1 hk.2.1
    refine ⟨(ks, v) :: l, by simp only [items, hv, h1, hs], by simp [h2], ?_⟩
    intro ks' v'
    rw [List.mem_cons, h3]
    constructor
    · rintro (h0 | ⟨h4, b', h5, h6⟩)
      · injection h0 with h0 h0'
        subst h0; subst h0'
        exact ⟨hk, b, by simp, hv⟩
      · exact ⟨h4, b', by simp [h5], h6⟩
    · rintro ⟨h4, b', h5, h6⟩
      rcases List.mem_cons.1 h5 with h0 | h5
      · left
        injection h0 with h0 h0'
        have := join_inj h4.1 h4.2.1 hk.1 hk.2.1 h0
        subst this; subst h0'
        rw [hv] at h6
        injection h6 with h6
        rw [h6]
      · exact .inr ⟨h4, b', h5, h6⟩

theorem rel_entry {V : Type} {sep : Nat} {c : Codec V} {t : Tbl} {m : List Bytes → Option V} (h : Rel sep c t m) (ks : List Bytes)
    (v : V) : (KeyOk sep ks ∧ ∃ b, (join sep ks, b) ∈ t ∧ c.des b = .ok v) ↔ KeyOk sep ks ∧ m ks = some v := by
  constructor
  · rintro ⟨hk, b, hb, hd⟩
    refine ⟨hk, ?_⟩
    have hg := h.vals ks hk
    have hb' := (get_some h.sorted).2 hb
    cases hm : m ks with
    | none => simp only [hm] at hg; rw [hb'] at hg; exact absurd hg (by simp)
    | some w =>
      simp only [hm] at hg
      obtain ⟨b', _, h2, hg⟩ := hg
      rw [hb'] at hg
      injection hg with hg
      subst hg
      rw [hd] at h2
      injection h2 with h2
      rw [h2]
  · rintro ⟨hk, hm⟩
    have hg := h.vals ks hk
    simp only [hm] at hg
    obtain ⟨b', _, h2, hg⟩ := hg
    exact ⟨hk, b', (get_some h.sorted).1 hg, h2⟩

theorem rel_des {V : Type} {sep : Nat} {c : Codec V} {t : Tbl} {m : List Bytes → Option V} (h : Rel sep c t m) {e : Entry} (he : e ∈ t) :
    (∃ ks, KeyOk sep ks ∧ e.1 = join sep ks) ∧ ∃ v, c.des e.2 = .ok v := by
  obtain ⟨ks, hk, hj⟩ := h.keys e he
  refine ⟨⟨ks, hk, hj⟩, ?_⟩
  obtain ⟨k, b⟩ := e
  simp only at hj
  subst hj
  have hb' := (get_some h.sorted).2 he
  have hg := h.vals ks hk
  cases hm : m ks with
  | none => simp only [hm] at hg; rw [hb'] at hg; exact absurd hg (by simp)
  | some w =>
    simp only [hm] at hg
    obtain ⟨b', _, h2, hg⟩ := hg
    rw [hb'] at hg
    injection hg with hg
    subst hg
    exact ⟨w, h2⟩

theorem rel_get {V : Type} {sep : Nat} {c : Codec V} {t : Tbl} {m : List Bytes → Option V} (h : Rel sep c t m) {ks : List Bytes}
    (hk : KeyOk sep ks) : sGet sep c t (.parts ks) = .ok (m ks) := by
  have hg := h.vals ks hk
  simp only [sGet, tokey_parts, getVal]
  rw [if_neg (join_ne hk)]
  cases hm : m ks with
  | none => simp only [hm] at hg; rw [hg]
  | some w =>
    simp only [hm] at hg
    obtain ⟨b', _, h2, hg⟩ := hg
    rw [hg]
    simp only [h2]

/-- **C179.** In a sub-database written as in C177, with `topive`, iterating over leading parts gives exactly the items whose key has
these parts and at least one more, in key order, each once; removing the branch removes exactly these. -/
theorem c179_branch {V : Type} (sep : Nat) (c : Codec V) (os : List (Op V))
    (ho : ∀ o, o ∈ os → KeyOk sep o.keys ∧ ∀ v, o.value = some v → Good c v) (ps : List Bytes) (hne : ps ≠ [])
    (hs : ∀ p, p ∈ ps → sep ∉ p) (hl : ps.getLast? ≠ some []) :
    ∃ l, getTop sep c (after sep c [] os) true (.parts ps) = .ok l ∧
      (∀ ks v, (ks, v) ∈ l ↔ KeyOk sep ks ∧ final (fun _ => none) os ks = some v ∧ ∃ r, r ≠ [] ∧ ks = ps ++ r) ∧
      l.Pairwise (fun a b => lexLt (join sep a.1) (join sep b.1) = true) ∧
      cntT sep (after sep c [] os) true (.parts ps) = .ok l.length ∧
      (∀ ks, KeyOk sep ks → sGet sep c (trim sep (after sep c [] os) true (.parts ps)).1 (.parts ks) =
        .ok (if ps.isPrefixOf ks && decide (ks ≠ ps) then none else final (fun _ => none) os ks)) ∧
      (trim sep (after sep c [] os) true (.parts ps)).2 = .ok (!l.isEmpty) := by
  have hR := (runs os [] _ (rel_nil sep c) ho).2
  generalize after sep c [] os = t at *
  generalize final (fun _ => none) os = m at *
  have hpre : ∀ ks, KeyOk sep ks → ((join sep ps ++ [sep]) <+: join sep ks ↔ ∃ r, r ≠ [] ∧ ks = ps ++ r) :=
    fun ks hk => branch_iff hne hs hk.1 hk.2.1
  obtain ⟨i1, i2, i3⟩ := c40_iter hR.sorted (join sep ps ++ [sep])
  obtain ⟨r1, r2, r3⟩ := c40_remove hR.sorted (join sep ps ++ [sep])
  obtain ⟨l, h1, h2, h3⟩ := items_ok (sep := sep) (c := c) (getTopItemIter t (join sep ps ++ [sep]))
    (fun e he => rel_des hR ((i1 e).1 he).1)
  have hmem : ∀ ks v, (ks, v) ∈ l ↔ KeyOk sep ks ∧ m ks = some v ∧ ∃ r, r ≠ [] ∧ ks = ps ++ r := by
    intro ks v
    rw [h3]
    constructor
    · rintro ⟨hk, b, hb, hd⟩
      have := (i1 _).1 hb
      exact ⟨hk, ((rel_entry hR ks v).1 ⟨hk, b, this.1, hd⟩).2, (hpre ks hk).1 this.2⟩
    · rintro ⟨hk, hm, hr⟩
      obtain ⟨_, b, hb, hd⟩ := (rel_entry hR ks v).2 ⟨hk, hm⟩
      exact ⟨hk, b, (i1 _).2 ⟨hb, (hpre ks hk).2 hr⟩, hd⟩
  have hlen : l.length = (getTopItemIter t (join sep ps ++ [sep])).length := by
    have := congrArg List.length h2
    simpa using this
  refine ⟨l, ?_, hmem, ?_, ?_, fun ks hk => rel_get (c := c) (m := fun ks => if ps.isPrefixOf ks && decide (ks ≠ ps) then none else m ks)
    ⟨?_, ?_, ?_⟩ hk, ?_⟩
  · simp only [getTop, tokey_top hne hl, h1]
  · have : (l.map (fun x => join sep x.1)).Pairwise (fun a b => lexLt a b = true) := by
      rw [h2, List.pairwise_map]; exact i2
    rw [List.pairwise_map] at this
    exact this
  · simp only [cntT, tokey_top hne hl, i3, hlen]
  · simp only [trim, tokey_top hne hl]; exact r2
  · simp only [trim, tokey_top hne hl]
    exact fun e he => hR.keys e ((r1 e).1 he).1
  · intro ks hk
    simp only [trim, tokey_top hne hl]
    have hpk : (ps.isPrefixOf ks && decide (ks ≠ ps)) = true ↔ ∃ r, r ≠ [] ∧ ks = ps ++ r := by
      rw [Bool.and_eq_true, List.isPrefixOf_iff_prefix, decide_eq_true_eq]
      constructor
      · rintro ⟨⟨r, hr⟩, h0⟩
        exact ⟨r, fun h => h0 (by rw [← hr, h]; simp), hr.symm⟩
      · rintro ⟨r, hr, rfl⟩
        exact ⟨⟨r, rfl⟩, fun h => hr (by simpa using h)⟩
    have hg := hR.vals ks hk
    have hget : ∀ b, (remTop t (join sep ps ++ [sep])).1.get (join sep ks) = some b ↔
        t.get (join sep ks) = some b ∧ ¬ ∃ r, r ≠ [] ∧ ks = ps ++ r := by
      intro b
      rw [get_some r2, r1, get_some hR.sorted, hpre ks hk]
    by_cases hb : ∃ r, r ≠ [] ∧ ks = ps ++ r
    · rw [if_pos (hpk.2 hb)]
      show Tbl.get _ _ = none
      cases hq : (remTop t (join sep ps ++ [sep])).1.get (join sep ks) with
      | none => rfl
      | some b => exact absurd hb ((hget b).1 hq).2
    · rw [if_neg (fun h => hb (hpk.1 h))]
      cases hm : m ks with
      | none =>
        simp only [hm] at hg
        show Tbl.get _ _ = none
        cases hq : (remTop t (join sep ps ++ [sep])).1.get (join sep ks) with
        | none => rfl
        | some b => rw [((hget b).1 hq).1] at hg; exact absurd hg (by simp)
      | some v =>
        simp only [hm] at hg
        obtain ⟨b, g1, g2, g3⟩ := hg
        exact ⟨b, g1, g2, (hget b).2 ⟨g3, hb⟩⟩
  · simp only [trim, tokey_top hne hl]
    congr 1
    cases hb : (remTop t (join sep ps ++ [sep])).2 with
    | true =>
      obtain ⟨e, he, hp⟩ := r3.1 hb
      have : e ∈ getTopItemIter t (join sep ps ++ [sep]) := (i1 e).2 ⟨he, hp⟩
      cases l with
      | nil => rw [List.eq_nil_of_length_eq_zero hlen.symm] at this; exact absurd this (by simp)
      | cons => rfl
    | false =>
      cases l with
      | nil => rfl
      | cons x l =>
        obtain ⟨ks, v⟩ := x
        obtain ⟨hk, b, hb', _⟩ := (h3 ks v).1 (by simp)
        have := (i1 _).1 hb'
        rw [r3.2 ⟨_, this.1, this.2⟩] at hb
        exact absurd hb (by simp)

end Verif.Sub
