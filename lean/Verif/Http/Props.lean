import Verif.Http.Lemmas

/-! # The Signature header (C197, C198) and the validation of requests (C199) -/

namespace Verif.Http

open Verif.Krm

/-! ## C197 -/

/-- The tags under which markers are written: those given, or index or key. -/
def Signage.names (s : Signage) : List Str := match s.tags with
  | some (t :: ts) => t :: ts
  | _ => s.markers.map fun
    | .siger i _ => (toString i).toList
    | .cigar v _ => v

/-- A signage as the documentation of `signature` asks for: all markers of one class, as many tags as markers, different from each other and from the
names of fields, and all texts without the characters that have a meaning in the header. -/
structure Signage.Ok (s : Signage) (b : Bool) : Prop where
  indexed : s.indexed = some b ∨ (s.indexed = none ∧ s.markers ≠ [])
  same : ∀ m, m ∈ s.markers → m.indexed = b
  len : s.names.length = s.markers.length
  nodup : s.names.Nodup
  free : ∀ t, t ∈ s.names → t ∉ [tIndexed, tSigner, tOrdinal, tDigest, tKind] ∧ '=' ∉ t ∧ Clean t
  qb64 : ∀ m, m ∈ s.markers → Clean m.qb64
  signer : ∀ t, s.signer = some t → Clean t
  ordinal : ∀ t, s.ordinal = some t → Clean t
  digest : ∀ t, s.digest = some t → Clean t
  kind : full s.kind = none ∨ full s.kind = some tCesr

/-- What is to be read back: the signatures under their tags, and the fields that were not empty. -/
def Signage.back {S : Type} (s : Signage) (b : Bool) (val : Str → S) : Read S :=
  ⟨s.names.zip (s.markers.map fun m => .sig (val m.qb64)), b, full s.signer, full s.ordinal, full s.digest, tCesr⟩

theorem given_clean {tag : Str} {o : Option Str} (h : ∀ t, o = some t → Clean t) : ∀ i, i ∈ given tag o → i.1 = tag ∧ Clean i.2 := by
  intro i hi
  match o, h with
  | none, _ => simp [given] at hi
  | some [], _ => simp [given] at hi
  | some (x :: r), h =>
    simp [given] at hi
    subst hi
    exact ⟨rfl, h _ rfl⟩

theorem clean_cesr : Clean tCesr := by simp [Clean, tCesr]

theorem itemsOf_ok {s : Signage} {b : Bool} (h : s.Ok b) : itemsOf s =
    .ok ((tIndexed, if b then "?1".toList else "?0".toList) ::
      (given tSigner s.signer ++ given tOrdinal s.ordinal ++ given tDigest s.digest ++ given tKind s.kind ++
        s.names.zip (s.markers.map Marker.qb64))) := by
  have h1 : indexedOf s = .ok b := by
    unfold indexedOf
    rcases h.indexed with hi | ⟨hi, hm⟩
    · rw [hi]
    · rw [hi]
      cases hms : s.markers with
      | nil => exact absurd hms hm
      | cons m r => simp only; rw [h.same m (by rw [hms]; simp)]
  have h2 : marks b s.markers s.tags = .ok (s.names.zip (s.markers.map Marker.qb64)) := by
    have hall : s.markers.all (fun m => m.indexed = b) = true := by
      simp only [List.all_eq_true, decide_eq_true_eq]; exact h.same
    have hz : s.markers.map (fun m => (m.tag, m.qb64)) = (s.markers.map fun
        | .siger i _ => (toString i).toList
        | .cigar v _ => v).zip (s.markers.map Marker.qb64) := by
      induction s.markers with
      | nil => rfl
      | cons m r ih => rw [List.map_cons, List.map_cons, List.map_cons, List.zip_cons_cons, ← ih]; cases m <;> rfl
    unfold Signage.names
    match s.tags with
    | some (t :: ts) => rfl
    | some [] => simp only [marks]; rw [if_pos hall, hz]
    | none => simp only [marks]; rw [if_pos hall, hz]
  unfold itemsOf
  rw [h1]; simp only
  rw [h2]

theorem marks_keys {s : Signage} {b : Bool} (h : s.Ok b) :
    (s.names.zip (s.markers.map Marker.qb64)).map (·.1) = s.names := by
  rw [List.map_fst_zip]
  rw [List.length_map, h.len]; exact Nat.le_refl _

theorem readItems_ok {S : Type} (R : Reader S) (val : Str → S) {s : Signage} {b : Bool} (h : s.Ok b)
    (hr : ∀ m, m ∈ s.markers → (if b then R.siger m.qb64 else R.cigar m.qb64) = .ok (val m.qb64)) :
    readItems R ((tIndexed, if b then "?1".toList else "?0".toList) ::
      (given tSigner s.signer ++ given tOrdinal s.ordinal ++ given tDigest s.digest ++ given tKind s.kind ++
        s.names.zip (s.markers.map Marker.qb64))) = .ok (s.back b val) := by
  have hkeys := marks_keys h
  have hfree : ∀ k, k ∈ [tIndexed, tSigner, tOrdinal, tDigest, tKind] → k ∉ (s.names.zip (s.markers.map Marker.qb64)).map (·.1) := by
    intro k hk hm
    rw [hkeys] at hm
    exact (h.free k hm).1 hk
  have f1 := fun k hk => get_free (hfree k hk)
  have f2 := fun k hk => rem_free (hfree k hk)
  have hread := readMarks_ok R b (s.names.zip (s.markers.map Marker.qb64)) val (by
    rintro ⟨k, v⟩ hm
    obtain ⟨_, hv⟩ := List.of_mem_zip hm
    obtain ⟨m, hm', rfl⟩ := List.mem_map.1 hv
    exact hr m hm')
  have hz : (s.names.zip (s.markers.map Marker.qb64)).map (fun m => (m.1, Mark.sig (val m.2))) =
      s.names.zip (s.markers.map fun m => Mark.sig (val m.qb64)) := by
    rw [show (s.markers.map fun m => Mark.sig (val m.qb64)) = (s.markers.map Marker.qb64).map (fun q => Mark.sig (val q)) by
      rw [List.map_map]; rfl]
    generalize s.markers.map Marker.qb64 = q
    generalize s.names = N
    induction N generalizing q with
    | nil => rfl
    | cons a N ih =>
      cases q with
      | nil => rfl
      | cons x q => simp [ih]
  have hb : decide ((if b then "?1".toList else "?0".toList) ∉ falsey) = b := by cases b <;> decide
  have hkind : (full s.kind).getD tCesr = tCesr := by rcases h.kind with hk | hk <;> rw [hk] <;> rfl
  generalize hM : s.names.zip (s.markers.map Marker.qb64) = M at *
  have e1 : ∀ x y : Str, x ≠ y → ∀ o : Option Str, Tab.get (given x o) y = none := by
    intro x y hxy o; rw [get_given, if_neg hxy]
  have n1 : tIndexed ≠ tSigner := by decide
  have n2 : tIndexed ≠ tOrdinal := by decide
  have n3 : tIndexed ≠ tDigest := by decide
  have n4 : tIndexed ≠ tKind := by decide
  have n5 : tSigner ≠ tOrdinal := by decide
  have n6 : tSigner ≠ tDigest := by decide
  have n7 : tSigner ≠ tKind := by decide
  have n8 : tOrdinal ≠ tDigest := by decide
  have n9 : tOrdinal ≠ tKind := by decide
  have n10 : tDigest ≠ tKind := by decide
  unfold readItems
  rw [get_cons, if_pos rfl]
  simp only
  rw [hb]
  have t1 : Tab.rem ((tIndexed, if b then "?1".toList else "?0".toList) ::
      (given tSigner s.signer ++ given tOrdinal s.ordinal ++ given tDigest s.digest ++ given tKind s.kind ++ M)) tIndexed =
      given tSigner s.signer ++ given tOrdinal s.ordinal ++ given tDigest s.digest ++ given tKind s.kind ++ M := by
    rw [show ∀ (e : Str × Str) l, e :: l = [e] ++ l from fun _ _ => rfl, rem_append]
    simp only [rem_append, rem_given, f2 tIndexed (by simp), n1.symm, n2.symm, n3.symm, n4.symm, if_false]
    simp [Tab.rem]
  rw [t1]
  have g2 : Tab.get (given tSigner s.signer ++ given tOrdinal s.ordinal ++ given tDigest s.digest ++ given tKind s.kind ++ M) tSigner =
      full s.signer := by
    simp only [get_append, get_given, f1 tSigner (by simp), n5.symm, n6.symm, n7.symm, if_true, if_false, Option.or_none]
  have t2 : Tab.rem (given tSigner s.signer ++ given tOrdinal s.ordinal ++ given tDigest s.digest ++ given tKind s.kind ++ M) tSigner =
      given tOrdinal s.ordinal ++ given tDigest s.digest ++ given tKind s.kind ++ M := by
    simp only [rem_append, rem_given, f2 tSigner (by simp), n5.symm, n6.symm, n7.symm, if_true, if_false, List.nil_append]
  rw [g2, t2]
  have g3 : Tab.get (given tOrdinal s.ordinal ++ given tDigest s.digest ++ given tKind s.kind ++ M) tOrdinal = full s.ordinal := by
    simp only [get_append, get_given, f1 tOrdinal (by simp), n8.symm, n9.symm, if_true, if_false, Option.or_none]
  have t3 : Tab.rem (given tOrdinal s.ordinal ++ given tDigest s.digest ++ given tKind s.kind ++ M) tOrdinal =
      given tDigest s.digest ++ given tKind s.kind ++ M := by
    simp only [rem_append, rem_given, f2 tOrdinal (by simp), n8.symm, n9.symm, if_true, if_false, List.nil_append]
  rw [g3, t3]
  have g4 : Tab.get (given tDigest s.digest ++ given tKind s.kind ++ M) tDigest = full s.digest := by
    simp only [get_append, get_given, f1 tDigest (by simp), n10.symm, if_true, if_false, Option.or_none]
  have t4 : Tab.rem (given tDigest s.digest ++ given tKind s.kind ++ M) tDigest = given tKind s.kind ++ M := by
    simp only [rem_append, rem_given, f2 tDigest (by simp), n10.symm, if_true, if_false, List.nil_append]
  rw [g4, t4]
  have g5 : Tab.get (given tKind s.kind ++ M) tKind = full s.kind := by
    simp only [get_append, get_given, f1 tKind (by simp), if_true, Option.or_none]
  have t5 : Tab.rem (given tKind s.kind ++ M) tKind = M := by
    simp only [rem_append, rem_given, f2 tKind (by simp), if_true, List.nil_append]
  rw [g5, t5, hkind, if_pos rfl, hread]
  simp only [Signage.back, hz]

/-- All items of a proper signage have tags without `=` that differ, and texts without special characters. -/
theorem items_clean {s : Signage} {b : Bool} (h : s.Ok b) {its : List (Str × Str)} (hi : itemsOf s = .ok its) :
    (its.map (·.1)).Nodup ∧ (∀ i, i ∈ its → '=' ∉ i.1 ∧ Clean i.2) ∧ ∀ i, i ∈ its → Clean i.1 := by
  rw [itemsOf_ok h] at hi
  injection hi with hi
  subst hi
  have hkeys := marks_keys h
  have hkc : ∀ t, s.kind = some t → Clean t := by
    intro t ht
    rcases h.kind with hk | hk <;> rw [ht] at hk
    · cases t with
      | nil => simp [Clean]
      | cons x r => simp [full] at hk
    · cases t with
      | nil => simp [full] at hk
      | cons x r => simp [full] at hk; rw [hk]; exact clean_cesr
  have res : ∀ t, t ∈ [tIndexed, tSigner, tOrdinal, tDigest, tKind] → '=' ∉ t ∧ Clean t := by
    unfold Clean; decide
  have hall : ∀ i, i ∈ (tIndexed, if b then "?1".toList else "?0".toList) ::
      (given tSigner s.signer ++ given tOrdinal s.ordinal ++ given tDigest s.digest ++ given tKind s.kind ++
        s.names.zip (s.markers.map Marker.qb64)) → '=' ∉ i.1 ∧ Clean i.1 ∧ Clean i.2 := by
    intro i hi
    simp only [List.mem_cons, List.mem_append] at hi
    rcases hi with rfl | (((hi | hi) | hi) | hi) | hi
    · refine ⟨(res tIndexed (by simp)).1, (res tIndexed (by simp)).2, ?_⟩
      cases b <;> simp [Clean]
    · obtain ⟨h1, h2⟩ := given_clean h.signer i hi
      rw [h1]; exact ⟨(res tSigner (by simp)).1, (res tSigner (by simp)).2, h2⟩
    · obtain ⟨h1, h2⟩ := given_clean h.ordinal i hi
      rw [h1]; exact ⟨(res tOrdinal (by simp)).1, (res tOrdinal (by simp)).2, h2⟩
    · obtain ⟨h1, h2⟩ := given_clean h.digest i hi
      rw [h1]; exact ⟨(res tDigest (by simp)).1, (res tDigest (by simp)).2, h2⟩
    · obtain ⟨h1, h2⟩ := given_clean hkc i hi
      rw [h1]; exact ⟨(res tKind (by simp)).1, (res tKind (by simp)).2, h2⟩
    · obtain ⟨k, v⟩ := i
      obtain ⟨hk, hv⟩ := List.of_mem_zip hi
      obtain ⟨m, hm, rfl⟩ := List.mem_map.1 hv
      exact ⟨(h.free k hk).2.1, (h.free k hk).2.2, h.qb64 m hm⟩
  refine ⟨?_, fun i hi => ⟨(hall i hi).1, (hall i hi).2.2⟩, fun i hi => (hall i hi).2.1⟩
  simp only [List.map_cons, List.map_append, hkeys]
  have hn : ∀ k, k ∈ [tIndexed, tSigner, tOrdinal, tDigest, tKind] → k ∉ s.names := fun k hk hm => (h.free k hm).1 hk
  have m1 := hn tIndexed (by simp)
  have m2 := hn tSigner (by simp)
  have m3 := hn tOrdinal (by simp)
  have m4 := hn tDigest (by simp)
  have m5 := hn tKind (by simp)
  have hnd := h.nodup
  generalize s.names = N at *
  have key : ∀ A : List Str, A.Nodup → (∀ a, a ∈ A → a ∈ [tIndexed, tSigner, tOrdinal, tDigest, tKind]) → (A ++ N).Nodup := by
    intro A hA hsub
    rw [List.nodup_append]
    refine ⟨hA, hnd, ?_⟩
    rintro a ha c hc rfl
    exact hn a (hsub a ha) hc
  rw [← List.cons_append]
  apply key
  · rcases given_keys tSigner s.signer with q1 | q1 <;> rcases given_keys tOrdinal s.ordinal with q2 | q2 <;>
      rcases given_keys tDigest s.digest with q3 | q3 <;> rcases given_keys tKind s.kind with q4 | q4 <;>
      rw [q1, q2, q3, q4] <;> decide
  · rcases given_keys tSigner s.signer with q1 | q1 <;> rcases given_keys tOrdinal s.ordinal with q2 | q2 <;>
      rcases given_keys tDigest s.digest with q3 | q3 <;> rcases given_keys tKind s.kind with q4 | q4 <;>
      rw [q1, q2, q3, q4] <;> decide

theorem item_free {t v : Str} {c : Char} (ht : c ∉ t) (hv : c ∉ v) (h1 : c ≠ '=') (h2 : c ≠ '"') : c ∉ item t v := by
  simp [item, ht, hv, h1, h2]

/-- One signage, written and read. -/
theorem value_ok {S : Type} (R : Reader S) (val : Str → S) {s : Signage} {b : Bool} (h : s.Ok b)
    (hr : ∀ m, m ∈ s.markers → (if b then R.siger m.qb64 else R.cigar m.qb64) = .ok (val m.qb64)) :
    ∃ its, itemsOf s = .ok its ∧ readValue R (valueOf its) = .ok (s.back b val) ∧ ' ' ∉ valueOf its ∧ ',' ∉ valueOf its := by
  have hi := itemsOf_ok h
  generalize hits : (tIndexed, if b then "?1".toList else "?0".toList) ::
      (given tSigner s.signer ++ given tOrdinal s.ordinal ++ given tDigest s.digest ++ given tKind s.kind ++
        s.names.zip (s.markers.map Marker.qb64)) = its at hi
  obtain ⟨h1, h2, h3⟩ := items_clean h hi
  have hread := readItems_ok R val h hr
  rw [hits] at hread
  refine ⟨its, hi, ?_, ?_, ?_⟩
  · unfold readValue valueOf
    rw [split_join (by rw [← hits]; simp), parse_items (t := []) (by simpa using h1) h2]
    · simpa using hread
    · intro t ht
      obtain ⟨i, hi', rfl⟩ := List.mem_map.1 ht
      exact item_free (h3 i hi').2.2.1 (h2 i hi').2.2.2.1 (by decide) (by decide)
  · refine join_free (by decide) ?_
    intro t ht
    obtain ⟨i, hi', rfl⟩ := List.mem_map.1 ht
    exact item_free (h3 i hi').1 (h2 i hi').2.1 (by decide) (by decide)
  · refine join_free (by decide) ?_
    intro t ht
    obtain ⟨i, hi', rfl⟩ := List.mem_map.1 ht
    exact item_free (h3 i hi').2.1 (h2 i hi').2.2.1 (by decide) (by decide)

/-- **C197.** The Signature header of any number of proper signages, read back, gives them all in order: every signature under its tag, whether they
are indexed, and signer, ordinal and digest as far as they were not empty.

Missing from the full property: signages whose texts have special characters (`c197_injection`), two signatures of one index
(`c197_same_index`), no signages (`c197_empty`), kinds other than CESR. -/
theorem c197_roundtrip_partial {S : Type} (R : Reader S) (val : Str → S) (ss : List (Signage × Bool)) (hne : ss ≠ [])
    (h : ∀ s b, (s, b) ∈ ss → s.Ok b)
    (hr : ∀ s b, (s, b) ∈ ss → ∀ m, m ∈ s.markers → (if b then R.siger m.qb64 else R.cigar m.qb64) = .ok (val m.qb64)) :
    ∃ t, signature (ss.map (·.1)) = .ok t ∧ designature R t = .ok (ss.map fun x => x.1.back x.2 val) := by
  have key : ∃ vs, valuesOf (ss.map (·.1)) = .ok vs ∧ vs.length = ss.length ∧ (∀ v, v ∈ vs → ' ' ∉ v ∧ ',' ∉ v) ∧
      readValues R vs = .ok (ss.map fun x => x.1.back x.2 val) := by
    clear hne
    induction ss with
    | nil => exact ⟨[], rfl, rfl, by simp, rfl⟩
    | cons x r ih =>
      obtain ⟨s, b⟩ := x
      obtain ⟨vs, h1, h2, h3, h4⟩ := ih (fun s b hm => h s b (by simp [hm])) (fun s b hm => hr s b (by simp [hm]))
      obtain ⟨its, g1, g2, g3, g4⟩ := value_ok R val (h s b (by simp)) (hr s b (by simp))
      refine ⟨valueOf its :: vs, ?_, by simp [h2], ?_, ?_⟩
      · simp only [List.map_cons, valuesOf, g1, h1]
      · intro v hv
        rcases List.mem_cons.1 hv with rfl | hv
        · exact ⟨g3, g4⟩
        · exact h3 v hv
      · simp only [readValues, g2, h4, List.map_cons]
  obtain ⟨vs, h1, h2, h3, h4⟩ := key
  have hvs : vs ≠ [] := by
    rintro rfl
    cases ss with
    | nil => exact hne rfl
    | cons x r => simp at h2
  refine ⟨join ',' vs, by unfold signature; rw [h1], ?_⟩
  unfold designature
  rw [noSpaces_free (join_free (by decide) fun t ht => (h3 t ht).1), split_join hvs (fun t ht => (h3 t ht).2)]
  exact h4

namespace Demo

/-- Signatures are their texts. -/
def R : Reader Str := ⟨.ok, .ok⟩

/-- Two indexed signatures of a signer, and one with a key for a tag. -/
def s1 : Signage := { markers := [.siger 0 "AABB".toList, .siger 1 "ABCD".toList], signer := some "EAID".toList, ordinal := some "1f".toList }
def s2 : Signage := { markers := [.cigar "BKEY".toList "0BXY".toList], indexed := some false, digest := some [] }

theorem ok1 : s1.Ok true := by
  refine ⟨.inr ⟨rfl, by simp [s1]⟩, by decide +kernel, by decide +kernel, by decide +kernel, ?_, ?_, ?_, ?_, ?_, by decide⟩
  · have : ∀ t ∈ s1.names, t ∉ [tIndexed, tSigner, tOrdinal, tDigest, tKind] ∧ '=' ∉ t ∧ ' ' ∉ t ∧ ',' ∉ t ∧ ';' ∉ t ∧ '"' ∉ t := by
      decide +kernel
    exact this
  · have : ∀ m ∈ s1.markers, ' ' ∉ m.qb64 ∧ ',' ∉ m.qb64 ∧ ';' ∉ m.qb64 ∧ '"' ∉ m.qb64 := by decide +kernel
    exact this
  · intro t ht; injection ht with ht; subst ht; simp [Clean]
  · intro t ht; injection ht with ht; subst ht; simp [Clean]
  · intro t ht; simp [s1] at ht

theorem ok2 : s2.Ok false := by
  refine ⟨.inl rfl, by decide +kernel, by decide +kernel, by decide +kernel, ?_, ?_, ?_, ?_, ?_, by decide⟩
  · have : ∀ t ∈ s2.names, t ∉ [tIndexed, tSigner, tOrdinal, tDigest, tKind] ∧ '=' ∉ t ∧ ' ' ∉ t ∧ ',' ∉ t ∧ ';' ∉ t ∧ '"' ∉ t := by
      decide +kernel
    exact this
  · have : ∀ m ∈ s2.markers, ' ' ∉ m.qb64 ∧ ',' ∉ m.qb64 ∧ ';' ∉ m.qb64 ∧ '"' ∉ m.qb64 := by decide +kernel
    exact this
  · intro t ht; simp [s2] at ht
  · intro t ht; simp [s2] at ht
  · intro t ht; simp [s2] at ht; subst ht; simp [Clean]

/-- The hypotheses are met by two signages. -/
example : ∃ t, signature [s1, s2] = .ok t ∧ designature R t = .ok [s1.back true id, s2.back false id] :=
  c197_roundtrip_partial R id [(s1, true), (s2, false)] (by simp)
    (by
      intro s b hm
      simp only [List.mem_cons, Prod.mk.injEq, List.not_mem_nil, or_false] at hm
      rcases hm with ⟨rfl, rfl⟩ | ⟨rfl, rfl⟩
      · exact ok1
      · exact ok2)
    (by intro s b _ m _; cases b <;> rfl)

example : signature [s1, s2] =
    .ok "indexed=\"?1\";signer=\"EAID\";ordinal=\"1f\";0=\"AABB\";1=\"ABCD\",indexed=\"?0\";BKEY=\"0BXY\"".toList := by decide +kernel

end Demo

/-- **C197 fails** for two signatures of one index (a key signing under two codes, or two signers of a list): the header has both, the reader only
the last. -/
theorem c197_same_index : ∃ t, signature [{ markers := [.siger 0 "AAAA".toList, .siger 0 "ABBB".toList] }] = .ok t ∧
    designature Demo.R t = .ok [⟨[("0".toList, .sig "ABBB".toList)], true, none, none, none, tCesr⟩] :=
  ⟨_, rfl, by decide +kernel⟩

/-- **C197 fails** for texts with special characters, none of which is escaped: what is given as the signer comes out as another signer with a
signature that nobody gave. -/
theorem c197_injection : ∃ t, signature [{ markers := [.siger 1 "ABBB".toList], signer := some "EVE\";0=\"AXXX".toList }] = .ok t ∧
    designature Demo.R t = .ok [⟨[("0".toList, .sig "AXXX".toList), ("1".toList, .sig "ABBB".toList)], true, some "EVE".toList, none, none, tCesr⟩] :=
  ⟨_, rfl, by decide +kernel⟩

/-- **C197 fails** for a tag that is the name of a field: the signature is read as the signer. -/
theorem c197_tag_is_field : ∃ t, signature [{ markers := [.siger 0 "AAAA".toList], tags := some [tSigner] }] = .ok t ∧
    designature Demo.R t = .ok [⟨[], true, some "AAAA".toList, none, none, tCesr⟩] :=
  ⟨_, rfl, by decide +kernel⟩

/-- **C197 fails** for no signages: the header cannot be read. -/
theorem c197_empty {S : Type} (R : Reader S) : signature [] = .ok [] ∧ designature R [] = .error .valueError := ⟨rfl, rfl⟩

/-! ## C198 -/

/-- **C198.** A header merged of two by a comma reads as the one followed by the other; a mistake in any of them is a mistake of the whole. For any two
texts. -/
theorem c198_merge {S : Type} (R : Reader S) (a b : Str) : designature R (a ++ ',' :: b) =
    match designature R a with
    | .error e => .error e
    | .ok x => match designature R b with
      | .error e => .error e
      | .ok y => .ok (x ++ y) := by
  unfold designature
  rw [show noSpaces (a ++ ',' :: b) = noSpaces a ++ ',' :: noSpaces b by simp [noSpaces], split_append, readValues_append]
  cases readValues R (split ',' (noSpaces a)) with
  | error e => rfl
  | ok x => cases readValues R (split ',' (noSpaces b)) <;> rfl

/-- **C198.** Spaces mean nothing, wherever they are. -/
theorem c198_spaces {S : Type} (R : Reader S) (a b : Str) (h : a.filter (· ≠ ' ') = b.filter (· ≠ ' ')) : designature R a = designature R b := by
  unfold designature noSpaces; rw [h]

/-- Two headers merged, with a space after the comma. -/
example : designature Demo.R "indexed=\"?1\";0=\"AA\", indexed=\"?0\";K=\"0B\"".toList =
    .ok [⟨[("0".toList, .sig "AA".toList)], true, none, none, none, tCesr⟩,
      ⟨[("K".toList, .sig "0B".toList)], false, none, none, none, tCesr⟩] := by decide +kernel

/-- **C198.** What is read of a header without a mistake has one entry per value between commas. -/
theorem c198_count {S : Type} (R : Reader S) (a : Str) (l : List (Read S)) (h : designature R a = .ok l) : l.length = a.count ',' + 1 := by
  have key : ∀ vs (l : List (Read S)), readValues R vs = .ok l → l.length = vs.length := by
    intro vs
    induction vs with
    | nil => intro l h; simp [readValues] at h; subst h; rfl
    | cons v r ih =>
      intro l h
      unfold readValues at h
      split at h
      · cases h
      · split at h
        · cases h
        · rename_i hl; injection h with h; subst h; simp [ih _ hl]
  have hs : ∀ t : Str, (split ',' t).length = t.count ',' + 1 := by
    intro t
    induction t with
    | nil => rfl
    | cons x r ih =>
      unfold split
      by_cases hx : x = ','
      · rw [if_pos hx, List.length_cons, ih, hx, List.count_cons_self]
      · rw [if_neg hx, List.count_cons_of_ne (by simpa using hx), ← ih]
        cases hsr : split ',' r with
        | nil => exact absurd hsr (split_ne ',' r)
        | cons y t => rfl
  rw [key _ _ h, hs]
  congr 1
  unfold noSpaces
  rw [List.count_filter (by decide)]

/-! ## C199 -/

/-- A signature verifying with each of the keys, under its number counted from `i`. -/
def AllSigned {S K B : Type} (verify : K → S → B → Bool) (ms : List (Str × Mark S)) (ser : B) (i : Nat) (ks : List K) : Prop :=
  ∀ n k, ks[n]? = some k → ∃ s, Tab.get ms (str (i + n)) = some (.sig s) ∧ verify k s ser = true

theorem checkKeys_iff {S K B : Type} (verify : K → S → B → Bool) (ms : List (Str × Mark S)) (ser : B) (ks : List K) : ∀ i,
    checkKeys verify ms ser i ks = .ok true ↔ AllSigned verify ms ser i ks := by
  induction ks with
  | nil => intro i; simp [checkKeys, AllSigned]
  | cons k r ih =>
    intro i
    have hsplit : AllSigned verify ms ser i (k :: r) ↔
        (∃ s, Tab.get ms (str i) = some (.sig s) ∧ verify k s ser = true) ∧ AllSigned verify ms ser (i + 1) r := by
      constructor
      · intro h
        refine ⟨h 0 k rfl, fun n k' hk => ?_⟩
        have := h (n + 1) k' (by simpa using hk)
        rwa [show i + 1 + n = i + (n + 1) by omega]
      · rintro ⟨h1, h2⟩ n k' hk
        cases n with
        | zero => simp at hk; subst hk; exact h1
        | succ n =>
          have := h2 n k' (by simpa using hk)
          rwa [show i + (n + 1) = i + 1 + n by omega]
    rw [hsplit]
    unfold checkKeys
    cases hg : Tab.get ms (str i) with
    | none => simp
    | some m =>
      cases m with
      | text t => simp
      | sig s =>
        simp only
        by_cases hv : verify k s ser = true
        · rw [if_pos hv, ih]; simp [hv]
        · rw [if_neg hv]; simp [hv]

/-- **C199.** A request is let through if and only if its header can be read and the first group of it has, for every current key of the known
controller, a signature of the body under the key's number that verifies with that key: never for an unknown controller, without a header, or with a
key missing. -/
theorem c199_validate {S K B : Type} (R : Reader S) (verify : K → S → B → Bool) (keys : Option (List K)) (sig : Option Str) (ser : B) :
    validate R verify keys sig ser = .ok true ↔
      ∃ t x l ks, sig = some t ∧ designature R t = .ok (x :: l) ∧ keys = some ks ∧ AllSigned verify x.markers ser 0 ks := by
  unfold validate
  cases sig with
  | none => simp
  | some t =>
    simp only
    cases hd : designature R t with
    | error e => simp [hd]
    | ok l =>
      cases l with
      | nil => simp [hd]
      | cons x l =>
        cases keys with
        | none => simp
        | some ks =>
          simp only [checkKeys_iff]
          constructor
          · intro h; exact ⟨t, x, l, ks, rfl, hd, rfl, h⟩
          · rintro ⟨t', x', l', ks', ht, hd', hk, h⟩
            injection ht with ht; injection hk with hk; subst ht hk
            rw [hd] at hd'; injection hd' with hd'; injection hd' with hx _; subst hx; exact h

/-- A verification by equality: key `k` signs the text `b` as `k ++ b`. -/
def Demo.verify (k s b : Str) : Bool := decide (s = k ++ b)

/-- Two keys, both signed: let through. One of them signed only: not. -/
example : validate Demo.R Demo.verify (some ["A".toList, "B".toList]) (some "indexed=\"?1\";0=\"Ax\";1=\"Bx\"".toList) "x".toList = .ok true ∧
    validate Demo.R Demo.verify (some ["A".toList, "B".toList]) (some "indexed=\"?1\";0=\"Ax\"".toList) "x".toList = .ok false := by decide +kernel

/-- **C199 fails** as a matter of thresholds: no threshold is looked at. A controller of which one of two keys is enough is refused with one
signature, whatever that signature; all keys have to sign. -/
theorem c199_all_keys {S K B : Type} (R : Reader S) (verify : K → S → B → Bool) (k1 k2 : K) (s : S) (ser : B)
    (hr : R.siger "A".toList = .ok s) :
    validate R verify (some [k1, k2]) (some "indexed=\"?1\";0=\"A\"".toList) ser = .ok false := by
  have hd : designature R "indexed=\"?1\";0=\"A\"".toList = .ok [⟨[("0".toList, .sig s)], true, none, none, none, tCesr⟩] := by
    have h1 : split ',' (noSpaces "indexed=\"?1\";0=\"A\"".toList) = ["indexed=\"?1\";0=\"A\"".toList] := by decide +kernel
    have h2 : parseItems [] (split ';' "indexed=\"?1\";0=\"A\"".toList) = .ok [(tIndexed, "?1".toList), ("0".toList, "A".toList)] := by decide +kernel
    unfold designature
    rw [h1]
    simp only [readValues, readValue, h2]
    have h3 : Tab.get [(tIndexed, "?1".toList), ("0".toList, "A".toList)] tIndexed = some "?1".toList := by decide +kernel
    have h4 : Tab.rem [(tIndexed, "?1".toList), ("0".toList, "A".toList)] tIndexed = [("0".toList, "A".toList)] := by decide +kernel
    have h5 : ∀ k, k ∈ [tSigner, tOrdinal, tDigest, tKind] → Tab.get [("0".toList, "A".toList)] k = none ∧
      Tab.rem [("0".toList, "A".toList)] k = [("0".toList, "A".toList)] := by decide +kernel
    have h6 : decide ("?1".toList ∉ falsey) = true := by decide +kernel
    unfold readItems
    rw [h3]
    simp only [h4, h5 tSigner (by simp), h5 tOrdinal (by simp), h5 tDigest (by simp), h5 tKind (by simp), h6]
    simp only [Option.getD_none, if_true, readMarks, hr]
  unfold validate
  simp only
  rw [hd]
  have h1 : str 0 = "0".toList := by decide +kernel
  have h2 : str (0 + 1) = "1".toList := by decide +kernel
  have g1 : Tab.get [("0".toList, Mark.sig s)] "0".toList = some (.sig s) := rfl
  have g2 : Tab.get [("0".toList, Mark.sig s)] "1".toList = none := by
    rw [get_cons, if_neg (show ¬ "0".toList = "1".toList by decide), get_nil]
  simp only [checkKeys, h1, h2, g1, g2]
  split <;> rfl

/-- **C199 fails** as the answer to a request without the header: not a refusal but an exception. -/
theorem c199_no_header {S K B : Type} (R : Reader S) (verify : K → S → B → Bool) (keys : Option (List K)) (ser : B) :
    validate R verify keys none ser = .error .attributeError := rfl

/-- **C199 fails** for other kinds than CESR: a header that says its signatures are of another kind raises, too. -/
theorem c199_other_kind : validate Demo.R Demo.verify (some ["A".toList]) (some "indexed=\"?1\";kind=\"X\";0=\"Ax\"".toList) "x".toList =
    .error .attributeError := by decide +kernel

/-- Only the first group counts: good signatures in the second one do not help. -/
example : validate Demo.R Demo.verify (some ["A".toList])
    (some "indexed=\"?1\";0=\"no\",indexed=\"?1\";0=\"Ax\"".toList) "x".toList = .ok false := by decide +kernel

end Verif.Http
