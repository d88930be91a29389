import Verif.Sub.PropsMap

/-! # C178: typed insertion-ordered sets, and their branches (C179) -/

namespace Verif.Sub

open Verif.Db

/-- The bytes of a value. -/
def enc {V : Type} (c : Codec V) (v : V) : Bytes := match c.ser v with
  | .ok b => b
  | .error _ => []

theorem enc_ok {V : Type} {c : Codec V} {v : V} (h : Good c v) : c.ser v = .ok (enc c v) ∧ c.des (enc c v) = .ok v := by
  obtain ⟨b, h1, h2⟩ := h
  have : enc c v = b := by unfold enc; rw [h1]
  rw [this]; exact ⟨h1, h2⟩

theorem enc_inj {V : Type} {c : Codec V} {v w : V} (hv : Good c v) (hw : Good c w) (h : enc c v = enc c w) : v = w := by
  have h1 := (enc_ok hv).2
  rw [h, (enc_ok hw).2] at h1
  injection h1 with h1
  exact h1.symm

theorem serAll_ok {V : Type} {c : Codec V} : ∀ (vs : List V), (∀ v, v ∈ vs → Good c v) → serAll c vs = .ok (vs.map (enc c))
  | [], _ => rfl
  | v :: vs, h => by
    simp only [serAll, (enc_ok (h v (by simp))).1, serAll_ok vs (fun x hx => h x (by simp [hx])), List.map_cons]

theorem desAll_ok {V : Type} {c : Codec V} : ∀ (vs : List V), (∀ v, v ∈ vs → Good c v) → desAll c (vs.map (enc c)) = .ok vs
  | [], _ => rfl
  | v :: vs, h => by
    simp only [List.map_cons, desAll, (enc_ok (h v (by simp))).2, desAll_ok vs (fun x hx => h x (by simp [hx]))]

theorem mem_enc {V : Type} {c : Codec V} {v : V} {l : List V} (hv : Good c v) (hl : ∀ w, w ∈ l → Good c w) :
    enc c v ∈ l.map (enc c) ↔ v ∈ l := by
  rw [List.mem_map]
  constructor
  · rintro ⟨w, hw, he⟩
    rw [← enc_inj (hl w hw) hv he]; exact hw
  · exact fun h => ⟨v, h, rfl⟩

/-- The operation on bytes. -/
def IoOp.low {V : Type} (sep : Nat) (c : Codec V) : IoOp V → SetOp
  | .put ks vs => .put (join sep ks) (vs.map (enc c))
  | .add ks v => .add (join sep ks) (enc c v)
  | .pin ks vs => .pin (join sep ks) (vs.map (enc c))
  | .rem ks => .rem (join sep ks)
  | .remVal ks v => .remVal (join sep ks) (enc c v)
  | .get ks => .get (join sep ks)
  | .last ks => .last (join sep ks)
  | .cnt ks => .cnt (join sep ks)

/-- Reading an answer. -/
def readOut {V : Type} (c : Codec V) : SetOut → Except Err (IoOut V)
  | .bool b => .ok (.bool b)
  | .vals l => (desAll c l).map .vals
  | .val none => .ok (.val none)
  | .val (some b) => (c.des b).map fun v => .val (some v)
  | .num n => .ok (.num n)

theorem impl_low {V : Type} {sep : Nat} {c : Codec V} (t : Tbl) (o : IoOp V) (hv : ∀ v, v ∈ o.values → Good c v) :
    o.impl sep c t = (((o.low sep c).impl sep t).1, match ((o.low sep c).impl sep t).2 with
      | .error e => .error e
      | .ok r => readOut c r) := by
  cases o with
  | put ks vs =>
    simp only [IoOp.impl, IoOp.low, SetOp.impl, ioPut, tokey_parts, serAll_ok vs hv]
    generalize putIoSetVals sep t (join sep ks) (vs.map (enc c)) = r
    obtain ⟨t', r⟩ := r
    cases r <;> rfl
  | add ks v =>
    simp only [IoOp.impl, IoOp.low, SetOp.impl, ioAdd, tokey_parts, (enc_ok (hv v (by simp [IoOp.values]))).1]
    generalize addIoSetVal sep t (join sep ks) (enc c v) = r
    obtain ⟨t', r⟩ := r
    cases r <;> rfl
  | pin ks vs =>
    simp only [IoOp.impl, IoOp.low, SetOp.impl, ioPin, tokey_parts, serAll_ok vs hv]
    generalize pinIoSetVals sep t (join sep ks) (vs.map (enc c)) = r
    obtain ⟨t', r⟩ := r
    cases r <;> rfl
  | rem ks =>
    simp only [IoOp.impl, IoOp.low, SetOp.impl, ioRem, tokey_parts]
    generalize remIoSet sep t (join sep ks) = r
    obtain ⟨t', r⟩ := r
    cases r <;> rfl
  | remVal ks v =>
    simp only [IoOp.impl, IoOp.low, SetOp.impl, ioRem, tokey_parts, (enc_ok (hv v (by simp [IoOp.values]))).1]
    generalize remIoSetVal sep t (join sep ks) (enc c v) = r
    obtain ⟨t', r⟩ := r
    cases r <;> rfl
  | get ks =>
    simp only [IoOp.impl, IoOp.low, SetOp.impl, ioGet, tokey_parts]
    cases getIoSet sep t (join sep ks) 0 <;> rfl
  | last ks =>
    simp only [IoOp.impl, IoOp.low, SetOp.impl, ioLast, tokey_parts]
    cases getIoSetLast sep t (join sep ks) with
    | error e => rfl
    | ok r =>
      cases r with
      | none => rfl
      | some b =>
        simp only [Except.map, readOut]
        cases c.des b <;> rfl
  | cnt ks =>
    simp only [IoOp.impl, IoOp.low, SetOp.impl, ioCnt, tokey_parts]
    cases cntIoSet sep t (join sep ks) 0 <;> rfl

/-- Typed sets and sets of bytes correspond. -/
structure Corr {V : Type} (sep : Nat) (c : Codec V) (S : Sets) (T : List Bytes → List V) : Prop where
  vals : ∀ ks, KeyOk sep ks → S (join sep ks) = (T ks).map (enc c)
  good : ∀ ks, KeyOk sep ks → ∀ v, v ∈ T ks → Good c v

theorem addEnd_enc {V : Type} [DecidableEq V] {c : Codec V} {l : List V} {v : V} (hl : ∀ w, w ∈ l → Good c w) (hv : Good c v) :
    addEnd (l.map (enc c)) (enc c v) = (addTo l v).map (enc c) ∧ ∀ w, w ∈ addTo l v → Good c w := by
  unfold addEnd addTo
  by_cases h : v ∈ l
  · rw [if_pos ((mem_enc hv hl).2 h), if_pos h]; exact ⟨rfl, hl⟩
  · rw [if_neg (fun h0 => h ((mem_enc hv hl).1 h0)), if_neg h]
    refine ⟨by simp, fun w hw => ?_⟩
    rcases List.mem_append.1 hw with hw | hw
    · exact hl w hw
    · rw [List.mem_singleton] at hw; subst hw; exact hv

theorem foldl_enc {V : Type} [DecidableEq V] {c : Codec V} : ∀ (vs l : List V), (∀ w, w ∈ l → Good c w) → (∀ v, v ∈ vs → Good c v) →
    (vs.map (enc c)).foldl addEnd (l.map (enc c)) = (vs.foldl addTo l).map (enc c) ∧ ∀ w, w ∈ vs.foldl addTo l → Good c w
  | [], l, hl, _ => ⟨rfl, hl⟩
  | v :: vs, l, hl, hv => by
    obtain ⟨h1, h2⟩ := addEnd_enc hl (hv v (by simp))
    simp only [List.map_cons, List.foldl_cons]
    rw [h1]
    exact foldl_enc vs _ h2 (fun x hx => hv x (by simp [hx]))

theorem corr_set {V : Type} {sep : Nat} {c : Codec V} {S : Sets} {T : List Bytes → List V} (h : Corr sep c S T) {ks : List Bytes}
    (hk : KeyOk sep ks) {B : List Bytes} {l : List V} (hB : B = l.map (enc c)) (hl : ∀ v, v ∈ l → Good c v) :
    Corr sep c (S.set (join sep ks) B) (upd T ks l) := by
  refine ⟨fun x hx => ?_, fun x hx => ?_⟩
  · unfold Sets.set upd
    by_cases hxk : x = ks
    · subst hxk; rw [if_pos rfl, if_pos rfl, hB]
    · rw [if_neg (key_ne hx hk hxk), if_neg hxk]; exact h.vals x hx
  · unfold upd
    by_cases hxk : x = ks
    · rw [if_pos hxk]; exact hl
    · rw [if_neg hxk]; exact h.good x hx

theorem spec_low {V : Type} [DecidableEq V] {sep : Nat} {c : Codec V} {S : Sets} {T : List Bytes → List V} (h : Corr sep c S T)
    (o : IoOp V) (hk : KeyOk sep o.keys) (hv : ∀ v, v ∈ o.values → Good c v) :
    readOut c ((o.low sep c).spec S).2 = .ok (o.spec T).2 ∧ Corr sep c ((o.low sep c).spec S).1 (o.spec T).1 := by
  have hS := h.vals _ hk
  have hG := h.good _ hk
  cases o with
  | put ks vs =>
    simp only [IoOp.keys, IoOp.values] at hk hv hS hG
    simp only [IoOp.low, SetOp.spec, IoOp.spec]
    obtain ⟨f1, f2⟩ := foldl_enc vs (T ks) hG hv
    refine ⟨?_, corr_set h hk (by rw [hS, f1]) f2⟩
    simp only [readOut]
    congr 2
    rw [List.any_map, hS, Bool.eq_iff_iff, List.any_eq_true, List.any_eq_true]
    constructor
    · rintro ⟨v, h1, h2⟩
      refine ⟨v, h1, ?_⟩
      simp only [Function.comp, decide_eq_true_eq] at h2 ⊢
      exact fun h0 => h2 ((mem_enc (hv v h1) hG).2 h0)
    · rintro ⟨v, h1, h2⟩
      refine ⟨v, h1, ?_⟩
      simp only [Function.comp, decide_eq_true_eq] at h2 ⊢
      exact fun h0 => h2 ((mem_enc (hv v h1) hG).1 h0)
  | add ks v =>
    simp only [IoOp.keys] at hk hS hG
    have hv := hv v (by simp [IoOp.values])
    simp only [IoOp.low, SetOp.spec, IoOp.spec]
    obtain ⟨f1, f2⟩ := addEnd_enc hG hv
    refine ⟨?_, corr_set h hk (by rw [hS, f1]) f2⟩
    simp only [readOut, hS, mem_enc hv hG]
  | pin ks vs =>
    simp only [IoOp.keys, IoOp.values] at hk hv hS hG
    simp only [IoOp.low, SetOp.spec, IoOp.spec]
    cases vs with
    | nil => exact ⟨rfl, h⟩
    | cons v vs =>
      obtain ⟨f1, f2⟩ := foldl_enc (v :: vs) [] (by simp) hv
      rw [if_neg (by simp)]
      simp only [List.isEmpty_cons, Bool.false_eq_true, if_false]
      exact ⟨rfl, corr_set h hk (by rw [← f1]; rfl) f2⟩
  | rem ks =>
    simp only [IoOp.keys] at hk hS
    simp only [IoOp.low, SetOp.spec, IoOp.spec, readOut, hS]
    refine ⟨by simp, corr_set h hk rfl (by simp)⟩
  | remVal ks v =>
    simp only [IoOp.keys] at hk hS hG
    have hv := hv v (by simp [IoOp.values])
    simp only [IoOp.low, SetOp.spec, IoOp.spec, readOut, hS, mem_enc hv hG]
    refine ⟨trivial, corr_set h hk ?_ (fun w hw => hG w (List.mem_filter.1 hw).1)⟩
    rw [List.filter_map]
    congr 1
    apply List.filter_congr
    intro w hw
    simp only [Function.comp]
    by_cases hwv : w = v
    · simp [hwv]
    · have h0 : enc c w ≠ enc c v := fun h0 => hwv (enc_inj (hG w hw) hv h0)
      simp [hwv, h0]
  | get ks =>
    simp only [IoOp.keys] at hk hS hG
    simp only [IoOp.low, SetOp.spec, IoOp.spec, readOut, hS, desAll_ok _ hG]
    exact ⟨rfl, h⟩
  | last ks =>
    simp only [IoOp.keys] at hk hS hG
    simp only [IoOp.low, SetOp.spec, IoOp.spec, hS, List.getLast?_map]
    refine ⟨?_, h⟩
    cases hl : (T ks).getLast? with
    | none => rfl
    | some v =>
      simp only [Option.map_some, readOut]
      rw [(enc_ok (hG v (List.mem_of_getLast? hl))).2]
      rfl
  | cnt ks =>
    simp only [IoOp.keys] at hk hS
    simp only [IoOp.low, SetOp.spec, IoOp.spec, readOut, hS, List.length_map]
    exact ⟨trivial, h⟩

theorem ioImpl_low {V : Type} {sep : Nat} {c : Codec V} : ∀ (os : List (IoOp V)) (t : Tbl), (∀ o, o ∈ os → ∀ v, v ∈ o.values → Good c v) →
    ioImpl sep c t os = (implRun sep t (os.map (IoOp.low sep c))).map fun r => match r with
      | .error e => .error e
      | .ok r => readOut c r
  | [], _, _ => rfl
  | o :: os, t, h => by
    simp only [ioImpl, List.map_cons, implRun]
    rw [impl_low t o (h o (by simp)), ioImpl_low os _ (fun x hx => h x (by simp [hx]))]

theorem ioSpec_low {V : Type} [DecidableEq V] {sep : Nat} {c : Codec V} : ∀ (os : List (IoOp V)) (S : Sets) (T : List Bytes → List V),
    Corr sep c S T → (∀ o, o ∈ os → KeyOk sep o.keys ∧ ∀ v, v ∈ o.values → Good c v) →
    (specRun S (os.map (IoOp.low sep c))).map (readOut c) = (ioSpec T os).map .ok
  | [], _, _, _, _ => rfl
  | o :: os, S, T, h, ho => by
    obtain ⟨h1, h2⟩ := spec_low h o (ho o (by simp)).1 (ho o (by simp)).2
    simp only [List.map_cons, specRun, ioSpec]
    rw [h1, ioSpec_low os _ _ h2 (fun x hx => ho x (by simp [hx]))]

theorem low_key {V : Type} (sep : Nat) (c : Codec V) (o : IoOp V) : (o.low sep c).key = join sep o.keys := by cases o <;> rfl
theorem low_size {V : Type} (sep : Nat) (c : Codec V) (o : IoOp V) : (o.low sep c).size = o.size := by
  cases o <;> simp [IoOp.low, SetOp.size, IoOp.size]
theorem low_sepOk {V : Type} (sep : Nat) (c : Codec V) (o : IoOp V) (h : o.sepOk sep) : (o.low sep c).sepOk sep := by
  cases o <;> simp_all [IoOp.low, SetOp.sepOk, IoOp.sepOk]

/-- No key is another one followed by a part that begins with `0`; so in particular if all have the same number of parts. -/
def Apart {V : Type} (os : List (IoOp V)) : Prop :=
  ∀ o, o ∈ os → ∀ o', o' ∈ os → ∀ p r, o'.keys = o.keys ++ p :: r → p.head? ≠ some 48

theorem apart_of_length {V : Type} {os : List (IoOp V)} {n : Nat} (hn : ∀ o, o ∈ os → o.keys.length = n) : Apart os := by
  intro o ho o' ho' p r h
  have := congrArg List.length h
  rw [List.length_append, hn o ho, hn o' ho'] at this
  simp at this

/-- **C178 (partial).** From an empty sub-database, under every sequence of put, add, pin, rem, get, getLast and cnt with keys without
separator in their parts, and with values that the codec reads back, every answer is the one of insertion-ordered sets of values at key
tuples, and nothing is raised, if no key is another one followed by a part that begins with `0`. Missing: such keys, for which
`c178_nested` shows that it is false, and `getLast` with another separator than `.` (`c178_other_sep`). -/
theorem c178_sets_partial {V : Type} [DecidableEq V] {sep : Nat} (hs : SepOk sep) (c : Codec V) (os : List (IoOp V))
    (ho : ∀ o, o ∈ os → KeyOk sep o.keys ∧ ∀ v, v ∈ o.values → Good c v) (hap : Apart os)
    (hsep : ∀ o, o ∈ os → o.sepOk sep) (hsize : (os.map IoOp.size).sum < 16 ^ 31) :
    ioImpl sep c [] os = (ioSpec (fun _ => []) os).map .ok := by
  rw [ioImpl_low os [] (fun o h => (ho o h).2), c37_refines_partial hs (os.map (IoOp.low sep c)) ?_ ?_ ?_ ?_]
  · rw [List.map_map, ← ioSpec_low os (fun _ => []) (fun _ => []) ⟨fun _ _ => rfl, fun _ _ v hv => absurd hv (by simp)⟩ ho]
    rfl
  · intro o h
    obtain ⟨o, hm, rfl⟩ := List.mem_map.1 h
    rw [low_key]
    exact join_ne (ho o hm).1
  · intro o h o' h'
    obtain ⟨o, hm, rfl⟩ := List.mem_map.1 h
    obtain ⟨o', hm', rfl⟩ := List.mem_map.1 h'
    rw [low_key, low_key]
    intro hp
    have hk := (ho o hm).1
    have hk' := (ho o' hm').1
    have : (join sep o.keys ++ [sep]) <+: join sep o'.keys := by
      obtain ⟨x, hx⟩ := hp
      exact ⟨48 :: x, by rw [← hx]; simp⟩
    obtain ⟨r, hr, he⟩ := (branch_iff hk.1 hk.2.1 hk'.1 hk'.2.1).1 this
    cases r with
    | nil => exact hr rfl
    | cons p r =>
      have h0 := hap o hm o' hm' p r he
      obtain ⟨x, hx⟩ := hp
      rw [he, join_append hk.1 hr, List.append_assoc] at hx
      have hx := List.append_cancel_left hx
      simp only [List.cons_append, List.nil_append, List.cons.injEq, true_and] at hx
      cases p with
      | nil =>
        cases r with
        | nil => simp [join] at hx
        | cons q r =>
          simp only [join, List.nil_append, List.cons.injEq] at hx
          unfold SepOk at hs
          rw [← hx.1] at hs
          exact absurd hs (by decide)
      | cons a p =>
        have : a = 48 := by
          cases r <;> simp only [join, List.cons_append, List.cons.injEq] at hx <;> exact hx.1.symm
        subst this
        exact h0 rfl
  · intro o h
    obtain ⟨o, hm, rfl⟩ := List.mem_map.1 h
    exact low_sepOk sep c o (hsep o hm)
  · rw [List.map_map]
    have : (SetOp.size ∘ IoOp.low sep c) = IoOp.size := funext fun o => low_size sep c o
    rw [this]; exact hsize

/-- Values that are bytes themselves, as in `Suber`. -/
def rawCodec : Codec Bytes := ⟨.ok, .ok⟩

/-- **C178, what fails.** With the keys `(A,)` and `(A, 00000000000000000000000000000000)` a value added at the second hides those added to
the first later. -/
theorem c178_nested :
    ioImpl 46 rawCodec [] [.add [[65]] [1], .add [[65], hex32 0] [9], .add [[65]] [2], .add [[65]] [3], .get [[65]]] =
      [.ok (.bool true), .ok (.bool true), .ok (.bool true), .ok (.bool false), .ok (.vals [[1]])] := by decide +kernel

/-- **C178, another separator.** In a sub-database with the separator `|`, `getLast` does not find the last value of `A` when there is
a key `AB`. -/
theorem c178_other_sep :
    ioImpl 124 rawCodec [] [.add [[65, 66]] [2], .add [[65]] [1], .get [[65]], .last [[65]]] =
      [.ok (.bool true), .ok (.bool true), .ok (.vals [[1]]), .ok (.val none)] := by decide +kernel

def demoOps : List (IoOp Bytes) := [.put [[65], [66]] [[1], [2], [1]], .add [[67]] [7], .remVal [[65], [66]] [1], .pin [[67]] [[8], [9]],
  .get [[65], [66]], .last [[67]], .cnt [[67]], .rem [[67]], .get [[67]]]

example : ioImpl 46 rawCodec [] demoOps = (ioSpec (fun _ => []) demoOps).map .ok :=
  c178_sets_partial (by unfold SepOk; decide) rawCodec demoOps
    (fun o ho => by
      refine ⟨?_, fun v _ => ⟨v, rfl, rfl⟩⟩
      simp only [demoOps, List.mem_cons, List.not_mem_nil, or_false] at ho
      rcases ho with rfl | rfl | rfl | rfl | rfl | rfl | rfl | rfl | rfl <;> (unfold KeyOk; decide))
    (by
      intro o ho o' ho' p r h
      simp only [demoOps, List.mem_cons, List.not_mem_nil, or_false] at ho ho'
      rcases ho with rfl | rfl | rfl | rfl | rfl | rfl | rfl | rfl | rfl <;>
        rcases ho' with rfl | rfl | rfl | rfl | rfl | rfl | rfl | rfl | rfl <;> simp [IoOp.keys] at h)
    (fun o ho => by
      simp only [demoOps, List.mem_cons, List.not_mem_nil, or_false] at ho
      rcases ho with rfl | rfl | rfl | rfl | rfl | rfl | rfl | rfl | rfl <;> simp [IoOp.sepOk])
    (by decide)

/-- The table after the calls. -/
def ioAfter {V : Type} (sep : Nat) (c : Codec V) (t : Tbl) : List (IoOp V) → Tbl
  | [] => t
  | o :: os => ioAfter sep c (o.impl sep c t).1 os

/-- **C179, sets.** In a sub-database of sets the branch of leading parts holds, with `topive`, the values of the key of these parts alone
too, since the hidden suffix is one more part; without `topive` it holds `(A, BC)` for `(A, B)` as for single values. -/
theorem c179_sets :
    let t := ioAfter 46 rawCodec [] [.add [[65]] [1], .add [[65], [66]] [2], .add [[65], [66, 67]] [3]]
    ioGetTop 46 rawCodec t true (.parts [[65]]) = .ok [([[65]], [1]), ([[65], [66]], [2]), ([[65], [66, 67]], [3])] ∧
    ioGetTop 46 rawCodec t true (.parts [[65], [66]]) = .ok [([[65], [66]], [2])] ∧
    ioGetTop 46 rawCodec t false (.parts [[65], [66]]) = .ok [([[65], [66]], [2]), ([[65], [66, 67]], [3])] := by decide +kernel

/-- **C179, without `topive`.** The branch of `(A, B)` holds `(A, BC)`, and removing it removes that. -/
theorem c179_no_topive :
    let t := after 46 rawCodec [] [.put [[65]] [1], .put [[65], [66]] [2], .put [[65], [66, 67]] [3]]
    getTop 46 rawCodec t false (.parts [[65], [66]]) = .ok [([[65], [66]], [2]), ([[65], [66, 67]], [3])] ∧
    getTop 46 rawCodec t true (.parts [[65], [66]]) = .ok [] ∧
    getTop 46 rawCodec (trim 46 t false (.parts [[65], [66]])).1 false (.raw []) = .ok [([[65]], [1])] := by decide +kernel

def mapOps : List (Op Bytes) := [.put [[65], [66]] [1], .put [[65], [66]] [2], .pin [[65], [66], [67]] [3], .get [[65], [66]], .rem [[65]]]

theorem mapOps_ok : ∀ o, o ∈ mapOps → KeyOk 46 o.keys ∧ ∀ v, o.value = some v → Good rawCodec v := by
  intro o ho
  refine ⟨?_, fun v _ => ⟨v, rfl, rfl⟩⟩
  simp only [mapOps, List.mem_cons, List.not_mem_nil, or_false] at ho
  rcases ho with rfl | rfl | rfl | rfl | rfl <;> (unfold KeyOk; decide)

example : impl 46 rawCodec [] mapOps = (spec (fun _ => none) mapOps).map .ok := c177_map 46 rawCodec mapOps mapOps_ok
example := c179_branch 46 rawCodec mapOps mapOps_ok [[65], [66]] (by simp) (by decide) (by simp)
example : getTop 46 rawCodec (after 46 rawCodec [] mapOps) true (.parts [[65], [66]]) = .ok [([[65], [66], [67]], [3])] := by decide +kernel

end Verif.Sub
