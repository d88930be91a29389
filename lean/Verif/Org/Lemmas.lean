import Verif.Org.Model

/-! # Lemmas about contacts -/

namespace Verif.Org

open Verif.Db Verif.Krm Verif.Sub

/-! ## Dicts -/

theorem nodup_pin {d : Dict} (h : (d.map (·.1)).Nodup) (k : Text) (v : Val) : ((Tab.pin d k v).map (·.1)).Nodup := by
  induction d with
  | nil => simp [Tab.pin]
  | cons e d ih =>
    unfold Tab.pin
    simp only [List.map_cons, List.nodup_cons] at h
    split
    · rename_i he
      simp only [List.map_cons, List.nodup_cons]
      rw [he] at h
      exact h
    · rename_i he
      simp only [List.map_cons, List.nodup_cons]
      refine ⟨fun hm => ?_, ih h.2⟩
      obtain ⟨x, hx, hxe⟩ := List.mem_map.1 hm
      have : x = (k, v) ∨ x ∈ d := by
        clear ih h hm hxe
        induction d with
        | nil => simp [Tab.pin] at hx; exact Or.inl hx
        | cons y d ih =>
          unfold Tab.pin at hx
          split at hx
          · rcases List.mem_cons.1 hx with rfl | hx
            · exact Or.inl rfl
            · exact Or.inr (by simp [hx])
          · rcases List.mem_cons.1 hx with rfl | hx
            · exact Or.inr (by simp)
            · exact (ih hx).imp id (fun h => by simp [h])
      rcases this with rfl | h0
      · exact he hxe.symm
      · exact h.1 (List.mem_map.2 ⟨x, h0, hxe⟩)

theorem nodup_rem {d : Dict} (h : (d.map (·.1)).Nodup) (k : Text) : ((Tab.rem d k).map (·.1)).Nodup :=
  h.sublist (List.Sublist.map _ List.filter_sublist)

theorem get_none_of {d : Dict} {k : Text} (h : k ∉ d.map (·.1)) : Tab.get d k = none := by
  induction d with
  | nil => rfl
  | cons e d ih =>
    simp only [List.map_cons, List.mem_cons, not_or] at h
    rw [get_cons, if_neg (fun h0 => h.1 h0.symm), ih h.2]

theorem nodup_merge : ∀ (d e : Dict), (d.map (·.1)).Nodup → ((merge d e).map (·.1)).Nodup
  | _, [], h => h
  | d, (k, v) :: e, h => nodup_merge (Tab.pin d k v) e (nodup_pin h k v)

theorem get_merge : ∀ (d e : Dict) (f : Text), (e.map (·.1)).Nodup → Tab.get (merge d e) f = (Tab.get e f).or (Tab.get d f)
  | _, [], f, _ => by simp [merge, get_nil]
  | d, (k, v) :: e, f, h => by
    simp only [List.map_cons, List.nodup_cons] at h
    rw [merge, get_merge _ e f h.2, get_pin, get_cons]
    by_cases hk : k = f
    · subst hk
      rw [get_none_of h.1]
      simp
    · simp [hk]

/-! ## Fields -/

/-- The map that the sub-database of fields holds. -/
def pairMap (F : Text → Text → Option Text) : List Bytes → Option Bytes
  | [p, f] => F p f
  | _ => none

def Flds (t : Tbl) (F : Text → Text → Option Text) : Prop := Rel 46 textCodec t (pairMap F)

/-- No separator. -/
def NoDot (x : Text) : Prop := 46 ∉ x

theorem keyOk {p f : Text} (hp : NoDot p) (hf : NoDot f) : KeyOk 46 [p, f] := by
  refine ⟨by simp, ?_, by simp⟩
  intro x hx
  simp only [List.mem_cons, List.not_mem_nil, or_false] at hx
  rcases hx with rfl | rfl
  · exact hp
  · exact hf

theorem flds_pin {t : Tbl} {F : Text → Text → Option Text} (h : Flds t F) {p f : Text} (hp : NoDot p) (hf : NoDot f) (v : Text) :
    Flds (sPin 46 textCodec t (.parts [p, f]) v).1 (fun x y => if x = p ∧ y = f then some v else F x y) := by
  have := (Sub.step h (.pin [p, f] v) (keyOk hp hf) (fun v _ => ⟨v, rfl, rfl⟩)).2
  unfold Flds
  have e : pairMap (fun x y => if x = p ∧ y = f then some v else F x y) = (fun x => if x = [p, f] then some v else pairMap F x) := by
    funext ks
    match ks with
    | [] => rfl
    | [_] => simp [pairMap]
    | [x, y] => simp [pairMap]
    | _ :: _ :: _ :: _ => simp [pairMap]
  rw [e]
  exact this

theorem flds_rem {t : Tbl} {F : Text → Text → Option Text} (h : Flds t F) {p f : Text} (hp : NoDot p) (hf : NoDot f) :
    Flds (sRem 46 t (.parts [p, f])).1 (fun x y => if x = p ∧ y = f then none else F x y) := by
  have := (Sub.step h (.rem [p, f]) (keyOk hp hf) (fun v hv => by cases hv)).2
  unfold Flds
  have e : pairMap (fun x y => if x = p ∧ y = f then none else F x y) = (fun x => if x = [p, f] then none else pairMap F x) := by
    funext ks
    match ks with
    | [] => rfl
    | [_] => simp [pairMap]
    | [x, y] => simp [pairMap]
    | _ :: _ :: _ :: _ => simp [pairMap]
  rw [e]
  exact this

theorem prefix_key {pre p f : Text} (hpre : NoDot pre) (hfree : pre <+: p → p = pre) : pre <+: join 46 [p, f] ↔ p = pre := by
  constructor
  · rintro ⟨s, hs⟩
    apply hfree
    simp only [join] at hs
    rcases List.append_eq_append_iff.1 hs with ⟨a, h1, h2⟩ | ⟨a, h1, h2⟩
    · exact ⟨a, h1.symm⟩
    · cases a with
      | nil => exact ⟨[], by simpa using h1⟩
      | cons x a =>
        simp only [List.cons_append, List.cons.injEq] at h2
        exact absurd (by rw [h1, ← h2.1]; simp) hpre
  · rintro rfl
    exact ⟨46 :: f, by simp [join]⟩

theorem flds_trim {t : Tbl} {F : Text → Text → Option Text} (h : Flds t F) {pre : Text} (hpre : NoDot pre)
    (hfree : ∀ p f v, F p f = some v → pre <+: p → p = pre) :
    Flds (trim 46 t false (.parts [pre])).1 (fun x y => if x = pre then none else F x y) := by
  obtain ⟨h1, h2, _⟩ := c40_remove h.sorted pre
  show Rel 46 textCodec (remTop t pre).1 _
  refine ⟨h2, fun e he => h.keys e ((h1 e).1 he).1, fun ks hk => ?_⟩
  have hg := h.vals ks hk
  have hnone : (∀ b, (join 46 ks, b) ∈ t → pre <+: join 46 ks) → (remTop t pre).1.get (join 46 ks) = none := by
    intro hn
    rw [get_none]
    intro e he hek
    obtain ⟨h3, h4⟩ := (h1 e).1 he
    obtain ⟨k, b⟩ := e
    simp only at hek
    subst hek
    exact h4 (hn b h3)
  have hcase : (∃ f, ks = [pre, f]) ∨ pairMap (fun x y => if x = pre then none else F x y) ks = pairMap F ks := by
    match ks with
    | [] => exact Or.inr rfl
    | [_] => exact Or.inr rfl
    | [x, y] =>
      by_cases hx : x = pre
      · exact Or.inl ⟨y, by rw [hx]⟩
      · exact Or.inr (by simp [pairMap, hx])
    | _ :: _ :: _ :: _ => exact Or.inr rfl
  rcases hcase with ⟨f, rfl⟩ | hsame
  · simp only [pairMap, if_true]
    exact hnone (fun b _ => ⟨46 :: f, by simp [join]⟩)
  · have hm := hg
    revert hm
    rw [hsame]
    cases hF : pairMap F ks with
    | none =>
      intro hm
      rw [get_none] at hm ⊢
      intro e he
      exact hm e ((h1 e).1 he).1
    | some v =>
      rintro ⟨b, hs, hd, hb⟩
      refine ⟨b, hs, hd, ?_⟩
      rw [get_some h2]
      refine (h1 _).2 ⟨(get_some h.sorted).1 hb, ?_⟩
      match ks, hF, hsame with
      | [x, y], hF, hsame =>
        simp only [pairMap] at hF hsame
        intro hp
        have := (prefix_key hpre (hfree x y v hF)).1 hp
        subst this
        rw [hF] at hsame
        simp at hsame

/-! ## Writing fields -/

def textOf : Val → Option Text
  | .text b => some b
  | .other _ => none

/-- Texts of a dict. -/
def dget (d : Dict) (f : Text) : Option Text := (Tab.get d f).bind textOf

/-- All values are text, all names without the separator and there once. -/
structure DataOk (d : Dict) : Prop where
  text : ∀ e, e ∈ d → ∃ b, e.2 = .text b
  nodot : ∀ e, e ∈ d → NoDot e.1
  nodup : (d.map (·.1)).Nodup

theorem DataOk.tail {e : Text × Val} {d : Dict} (h : DataOk (e :: d)) : DataOk d :=
  ⟨fun x hx => h.text x (by simp [hx]), fun x hx => h.nodot x (by simp [hx]), (List.nodup_cons.1 h.nodup).2⟩

theorem DataOk.get {d : Dict} (h : DataOk d) (f : Text) : Tab.get d f = (dget d f).map .text := by
  unfold dget
  cases hg : Tab.get d f with
  | none => rfl
  | some v =>
    obtain ⟨b, hb⟩ := h.text _ (get_mem hg)
    simp only at hb
    subst hb
    rfl

theorem fieldWrites_ok {pre : Text} (hp : NoDot pre) : ∀ (d : Dict), DataOk d → (fieldWrites pre d).2 = none ∧
    ∀ (w : World) (F : Text → Text → Option Text), Flds w.fields F →
      (exec w (fieldWrites pre d).1).cigs = w.cigs ∧ (exec w (fieldWrites pre d).1).data = w.data ∧
      Flds (exec w (fieldWrites pre d).1).fields (fun p f => if p = pre then (dget d f).or (F p f) else F p f)
  | [], _ => ⟨rfl, fun w F h => ⟨rfl, rfl, by simpa [fieldWrites, exec, dget, get_nil] using h⟩⟩
  | (k, v) :: d, hd => by
    obtain ⟨b, hb⟩ := hd.text (k, v) (by simp)
    simp only at hb
    subst hb
    obtain ⟨i1, i2⟩ := fieldWrites_ok hp d hd.tail
    refine ⟨i1, fun w F h => ?_⟩
    have h1 := flds_pin h hp (hd.nodot (k, .text b) (by simp)) b
    obtain ⟨j1, j2, j3⟩ := i2 (write w (.pinField pre k b)) _ h1
    have e : exec w (fieldWrites pre ((k, .text b) :: d)).1 = exec (write w (.pinField pre k b)) (fieldWrites pre d).1 := rfl
    rw [e]
    refine ⟨j1, j2, ?_⟩
    have hF : (fun p f => if p = pre then (dget ((k, Val.text b) :: d) f).or (F p f) else F p f) =
        (fun p f => if p = pre then (dget d f).or (if p = pre ∧ f = k then some b else F p f) else if p = pre ∧ f = k then some b else F p f) := by
      funext p f
      by_cases hpp : p = pre
      · subst hpp
        simp only [if_true, true_and]
        have hk := (List.nodup_cons.1 hd.nodup).1
        by_cases hf : f = k
        · subst hf
          rw [if_pos rfl]
          simp [dget, get_cons, get_none_of hk, textOf]
        · rw [if_neg hf]
          simp [dget, get_cons, show ¬ k = f from fun h => hf h.symm]
      · simp [hpp]
    rw [hF]
    exact j3

/-! ## Reading fields -/

def TripleLt (a b : Text × Text × Text) : Prop := lexLt (join 46 [a.1, a.2.1]) (join 46 [b.1, b.2.1]) = true

theorem unpack_ok : ∀ (l : List (List Bytes × Bytes)), (∀ x, x ∈ l → ∃ p f, x.1 = [p, f]) →
    ∃ L, unpack l = (L, none) ∧ l = L.map (fun x => ([x.1, x.2.1], x.2.2))
  | [], _ => ⟨[], rfl, rfl⟩
  | (ks, v) :: l, h => by
    obtain ⟨p, f, hk⟩ := h (ks, v) (by simp)
    simp only at hk
    subst hk
    obtain ⟨L, h1, h2⟩ := unpack_ok l (fun x hx => h x (by simp [hx]))
    exact ⟨(p, f, v) :: L, by simp [unpack, h1], by simp [h2]⟩

theorem allFields_ok {w : World} {F : Text → Text → Option Text} (h : Flds w.fields F) (hF : ∀ p f v, F p f = some v → NoDot p ∧ NoDot f) :
    ∃ L, allFields w = .ok L ∧ L.Pairwise TripleLt ∧ ∀ p f v, (p, f, v) ∈ L ↔ F p f = some v := by
  obtain ⟨c1, c2, _⟩ := c40_iter h.sorted []
  obtain ⟨l, h1, h2, h3⟩ := items_ok (sep := 46) (c := textCodec) (getTopItemIter w.fields []) (fun e he => rel_des h ((c1 e).1 he).1)
  have hmem : ∀ ks v, (ks, v) ∈ l ↔ KeyOk 46 ks ∧ pairMap F ks = some v := by
    intro ks v
    rw [h3, ← rel_entry h]
    constructor
    · rintro ⟨hk, b, hb, hd⟩; exact ⟨hk, b, ((c1 _).1 hb).1, hd⟩
    · rintro ⟨hk, b, hb, hd⟩; exact ⟨hk, b, (c1 _).2 ⟨hb, List.nil_prefix⟩, hd⟩
  obtain ⟨L, u1, u2⟩ := unpack_ok l (fun x hx => by
    obtain ⟨ks, v⟩ := x
    have := ((hmem ks v).1 hx).2
    match ks, this with
    | [p, f], _ => exact ⟨p, f, rfl⟩)
  refine ⟨L, ?_, ?_, ?_⟩
  · unfold allFields getTop tokey
    dsimp only
    rw [h1]
    dsimp only
    rw [u1]
  · have hs : ((getTopItemIter w.fields []).map (·.1)).Pairwise (fun a b => lexLt a b = true) := List.pairwise_map.2 c2
    rw [← h2, u2, List.map_map, List.pairwise_map] at hs
    exact hs
  · intro p f v
    have e : (p, f, v) ∈ L ↔ ([p, f], v) ∈ l := by
      rw [u2, List.mem_map]
      constructor
      · intro hm; exact ⟨_, hm, rfl⟩
      · rintro ⟨⟨p', f', v'⟩, hm, he⟩
        simp only [Prod.mk.injEq, List.cons.injEq, and_true] at he
        obtain ⟨⟨rfl, rfl⟩, rfl⟩ := he
        exact hm
    rw [e, hmem]
    simp only [pairMap]
    exact ⟨fun h => h.2, fun h => ⟨keyOk (hF p f v h).1 (hF p f v h).2, h⟩⟩

/-- Fields of one contact are together. -/
theorem apart {a b c : Text × Text × Text} (ha : NoDot a.1) (hb : NoDot b.1) (hab : TripleLt a b) (hbc : TripleLt b c) (hac : a.1 = c.1) :
    b.1 = a.1 := by
  have hx : (a.1 ++ [46]) <+: join 46 [a.1, a.2.1] := ⟨a.2.1, by simp [join]⟩
  have hz : (a.1 ++ [46]) <+: join 46 [c.1, c.2.1] := ⟨c.2.1, by simp [join, hac]⟩
  obtain ⟨s, hs⟩ := prefix_convex hx hz (lexLt_asymm hab) (lexLt_asymm hbc)
  have h0 : split 46 (a.1 ++ 46 :: s) = split 46 (b.1 ++ 46 :: b.2.1) := by
    congr 1
    simp only [join] at hs
    simpa using hs
  rw [split_sep ha, split_sep hb] at h0
  injection h0 with h0
  exact h0.symm

theorem tripleLt_irrefl {a b : Text × Text × Text} (h : TripleLt a b) : ¬ (a.1 = b.1 ∧ a.2.1 = b.2.1) := by
  rintro ⟨h1, h2⟩
  unfold TripleLt at h
  rw [h1, h2, lexLt_irrefl] at h
  cases h

/-- What `list` reads for one contact: the dict `e` holds the fields of `p`, and `base` elsewhere. -/
def Shows (L : List (Text × Text × Text)) (p : Text) (base : Text → Option Val) (e : Dict) : Prop :=
  ∀ f, (∀ v, (p, f, v) ∈ L → Tab.get e f = some (.text v)) ∧ ((∀ v, (p, f, v) ∉ L) → Tab.get e f = base f)

/-- What the dict of a contact begins with. -/
def baseOf (p : Text) (f : Text) : Option Val := if f = idKey then some (.text p) else none

theorem listGo_ok : ∀ (L : List (Text × Text × Text)) (h : Text × Text × Text) (d : Dict), (h :: L).Pairwise TripleLt →
    (∀ x, x ∈ h :: L → NoDot x.1) →
    ∃ (d' : Dict) (ps : List (Text × Dict)), listGo h.1 (some d) L = .ok (d' :: ps.map (·.2)) ∧ Shows L h.1 (Tab.get d) d' ∧
      (h.1 :: ps.map (·.1)).Nodup ∧ (∀ p, p ∈ ps.map (·.1) ↔ p ≠ h.1 ∧ ∃ f v, (p, f, v) ∈ L) ∧
      ∀ x, x ∈ ps → Shows L x.1 (baseOf x.1) x.2
  | [], h, d, _, _ => ⟨d, [], rfl, fun f => ⟨fun v hv => (by cases hv), fun _ => rfl⟩, by simp, by simp, fun x hx => (by cases hx)⟩
  | (p, f, v) :: L, h, d, hs, hn => by
    have hs' := List.pairwise_cons.1 hs
    have hs2 := List.pairwise_cons.1 hs'.2
    have huniq : ∀ v', (p, f, v') ∉ L := fun v' hv' => tripleLt_irrefl (hs2.1 _ hv') ⟨rfl, rfl⟩
    by_cases hp : p = h.1
    · subst hp
      obtain ⟨d', ps, h1, h2, h3, h4, h5⟩ := listGo_ok L (h.1, f, v) (Tab.pin d f (.text v)) hs'.2 (fun x hx => hn x (by simp [hx]))
      refine ⟨d', ps, ?_, ?_, h3, ?_, ?_⟩
      · rw [listGo, if_neg (by simp)]; exact h1
      · intro f'
        obtain ⟨g1, g2⟩ := h2 f'
        refine ⟨fun v' hv' => ?_, fun hv' => ?_⟩
        · rcases List.mem_cons.1 hv' with he | hv'
          · injection he with he1 he2
            injection he2 with he2 he3
            subst he2; subst he3
            rw [g2 huniq, get_pin, if_pos rfl]
          · exact g1 v' hv'
        · rw [g2 (fun v' h => hv' v' (by simp [h])), get_pin, if_neg]
          rintro rfl
          exact hv' v (by simp)
      · intro q
        rw [h4]
        constructor
        · rintro ⟨hq, f', v', hm⟩; exact ⟨hq, f', v', by simp [hm]⟩
        · rintro ⟨hq, f', v', hm⟩
          rcases List.mem_cons.1 hm with he | hm
          · injection he with he _; exact absurd he hq
          · exact ⟨hq, f', v', hm⟩
      · intro x hx f'
        have hxp : x.1 ≠ h.1 := ((h4 x.1).1 (List.mem_map.2 ⟨x, hx, rfl⟩)).1
        obtain ⟨g1, g2⟩ := h5 x hx f'
        refine ⟨fun v' hv' => ?_, fun hv' => g2 (fun v' h => hv' v' (by simp [h]))⟩
        rcases List.mem_cons.1 hv' with he | hv'
        · injection he with he _; exact absurd he hxp
        · exact g1 v' hv'
    · obtain ⟨d', ps, h1, h2, h3, h4, h5⟩ := listGo_ok L (p, f, v) (Tab.pin [(idKey, .text p)] f (.text v)) hs'.2 (fun x hx => hn x (by simp [hx]))
      have hnokey : ∀ x, x ∈ L → x.1 ≠ h.1 := by
        intro x hx he
        exact hp (apart (a := h) (b := (p, f, v)) (c := x) (hn h (by simp)) (hn (p, f, v) (by simp)) (hs'.1 _ (by simp)) (hs2.1 x hx) he.symm)
      refine ⟨d, (p, d') :: ps, ?_, ?_, ?_, ?_, ?_⟩
      · rw [listGo, if_pos hp, h1]; rfl
      · intro f'
        refine ⟨fun v' hv' => ?_, fun _ => rfl⟩
        rcases List.mem_cons.1 hv' with he | hv'
        · injection he with he _; exact absurd he.symm hp
        · exact absurd rfl (hnokey (h.1, f', v') hv')
      · simp only [List.map_cons]
        rw [List.nodup_cons]
        refine ⟨?_, h3⟩
        intro hm
        rcases List.mem_cons.1 hm with he | hm
        · exact hp he.symm
        · obtain ⟨_, f', v', hm⟩ := (h4 _).1 hm
          exact hnokey _ hm rfl
      · intro q
        simp only [List.map_cons, List.mem_cons]
        constructor
        · rintro (rfl | hq)
          · exact ⟨hp, f, v, Or.inl rfl⟩
          · obtain ⟨hq1, f', v', hm⟩ := (h4 q).1 hq
            exact ⟨hnokey _ hm, f', v', Or.inr hm⟩
        · rintro ⟨hq, f', v', hm⟩
          by_cases hqp : q = p
          · exact Or.inl hqp
          · right
            refine (h4 q).2 ⟨hqp, f', v', ?_⟩
            rcases hm with he | hm
            · injection he with he _; exact absurd he hqp
            · exact hm
      · intro x hx
        rcases List.mem_cons.1 hx with rfl | hx
        · intro f'
          obtain ⟨g1, g2⟩ := h2 f'
          simp only at g1 g2 ⊢
          refine ⟨fun v' hv' => ?_, fun hv' => ?_⟩
          · rcases List.mem_cons.1 hv' with he | hv'
            · injection he with _ he
              injection he with he1 he2
              subst he1; subst he2
              rw [g2 huniq, get_pin, if_pos rfl]
            · exact g1 v' hv'
          · rw [g2 (fun v' h => hv' v' (by simp [h])), get_pin, if_neg (by rintro rfl; exact hv' v (by simp)), get_cons, get_nil]
            unfold baseOf
            by_cases hf : f' = idKey
            · rw [if_pos hf, if_pos hf.symm]
            · rw [if_neg hf, if_neg (fun h => hf h.symm)]
        · have hxp : x.1 ≠ p := ((h4 x.1).1 (List.mem_map.2 ⟨x, hx, rfl⟩)).1
          intro f'
          obtain ⟨g1, g2⟩ := h5 x hx f'
          refine ⟨fun v' hv' => ?_, fun hv' => g2 (fun v' h => hv' v' (by simp [h]))⟩
          rcases List.mem_cons.1 hv' with he | hv'
          · injection he with he _; exact absurd he hxp
          · exact g1 v' hv'

end Verif.Org
