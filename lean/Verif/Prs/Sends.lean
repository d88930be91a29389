import Verif.Prs.Spec
import Verif.Codec.PropsTexts

/-!
# What `messagize` writes, in terms of the parser
-/

namespace Verif.Prs

open Verif.Matter (Mat)
open Verif.Idr (Ixr)
open Verif.Ctr (Ver Counter)
open Verif.B64

/-! ## Elements -/

theorem seqner_ok {n m : Mat} (h : seqner n = .ok m) : m = as16 n ∧ GoodPrim .number m := by
  unfold seqner at h
  split at h
  · exact absurd h (by simp)
  next hle =>
  have hlt : Verif.Matter.numOf n < 256 ^ 16 := by omega
  have hs : Verif.Matter.sizes? ['0', 'A'] = some ⟨2, 0, 0, some 24, 0⟩ := by decide +kernel
  have hz : Verif.Matter.rawSize ⟨2, 0, 0, some 24, 0⟩ 24 = 16 := by decide
  obtain ⟨m', h1, h2, h3, h4, h5⟩ := Verif.Matter.numWithCode_spec (n := Verif.Matter.numOf n) (code := ['0', 'A']) (sz := ⟨2, 0, 0, some 24, 0⟩) (fs := 24)
    hs rfl (by decide) rfl (by decide) (by rw [hz]; exact hlt)
  rw [h1] at h
  injection h with h
  subst h
  have hl : Verif.AllLt 256 (Verif.toDigits 256 16 (Verif.Matter.numOf n)) := Verif.toDigits_allLt (by decide) _ _
  rw [hz] at h5
  refine ⟨?_, Verif.Matter.make_valid hl h5, by rw [h2]; decide⟩
  have ht : (Verif.toDigits 256 16 (Verif.Matter.numOf n)).take 16 = Verif.toDigits 256 16 (Verif.Matter.numOf n) := List.take_of_length_le (by simp)
  simp only [Verif.Matter.make, hs, hz, ht, Verif.Matter.fixedSoft] at h5
  simp at h5
  rw [← h5]
  rfl

/-- Primitives other than numbers are left alone. -/
theorem sent_other {v : Ver} {k : Klas} {m : Mat} (hk : k = .prefixer ∨ k = .diger ∨ k = .dater) (h : GoodPrim k m) : sentMat v m = m := by
  have key : ∀ c ∈ Verif.Matter.numDex, Klas.prefixer.allows c = false ∧ Klas.diger.allows c = false ∧ Klas.dater.allows c = false := by decide +kernel
  unfold sentMat
  rw [if_neg]
  rintro ⟨_, hc⟩
  have hh := h.2
  obtain ⟨k1, k2, k3⟩ := key _ hc
  rcases hk with rfl | rfl | rfl
  · rw [k1] at hh; exact absurd hh (by simp)
  · rw [k2] at hh; exact absurd hh (by simp)
  · rw [k3] at hh; exact absurd hh (by simp)

theorem sent_number {m : Mat} (h : GoodPrim .number m) : sentMat .v1 m = as16 m := by
  unfold sentMat
  rw [if_pos]
  refine ⟨rfl, ?_⟩
  have := h.2
  simpa [Klas.allows, Klas.codes] using this

theorem sent_v2 (m : Mat) : sentMat .v2 m = m := by simp [sentMat]

theorem elem_sent_v2 (e : Elem) : e.sent .v2 = e := by
  have : sentMat .v2 = id := funext sent_v2
  cases e
  simp [Elem.sent, this]

/-- The conditions on an element of a group that is no raw group. -/
theorem good_elem {v : Ver} {m : Meth} {e : Elem} (hm : m.mode ≠ .raw) (h1 : GoodPrims m.mats e.mats) (h2 : GoodSigs v false m.tail e.sigs) (h3 : e.blob = []) :
    GoodElem v false m e := by
  unfold GoodElem
  cases hmm : m.mode with
  | raw => exact absurd hmm hm
  | counted => exact ⟨h1, h2, h3⟩
  | sized => exact ⟨h1, h2, h3⟩

theorem good_sig {v : Ver} {m : Meth} {s : Ixr} (hm : m.mode ≠ .raw) (hk : m.mats = []) (ht : m.tail = .one) (h : GoodSig s) : GoodElem v false m (sigElem s) := by
  refine good_elem hm (by rw [hk]; exact .nil) ?_ rfl
  rw [ht]
  exact ⟨by simp [sigElem, h], rfl⟩

theorem good_cig {v : Ver} {m : Meth} {c : Mat × Mat} (hm : m.mode ≠ .raw) (hk : m.mats = [.verfer, .cigar]) (ht : m.tail = .none)
    (h : GoodPrim .verfer c.1 ∧ GoodMat c.2) : GoodElem v false m (cigElem c) := by
  refine good_elem hm (by rw [hk]; exact .cons h.1 (.cons ⟨h.2, rfl⟩ .nil)) ?_ rfl
  rw [ht]
  exact ⟨by simp [cigElem], rfl⟩

theorem good_last {v : Ver} {m : Meth} {l : Mat × List Ixr} (hm : m.mode ≠ .raw) (hk : m.mats = [.prefixer]) (ht : m.tail = .group)
    (h : GoodPrim .prefixer l.1 ∧ FitSigs v l.2) : GoodElem v false m (lastElem l) := by
  refine good_elem hm (by rw [hk]; exact .cons h.1 .nil) ?_ rfl
  rw [ht]
  exact ⟨h.2.1, h.2.2⟩

theorem good_quad2 {m : Meth} {q : Quad} (hm : m.mode ≠ .raw) (hk : m.mats = [.prefixer, .number, .diger]) (ht : m.tail = .group)
    (h : FitQuad .v2 q) : GoodElem .v2 false m (quadElem q) := by
  obtain ⟨h1, h2, h3, h4⟩ := h
  refine good_elem hm (by rw [hk]; exact .cons h1 (.cons h2 (.cons h3 .nil))) ?_ rfl
  rw [ht]
  exact h4

theorem good_quad1 {m : Meth} {q : Quad} {e : Elem} (hm : m.mode ≠ .raw) (hk : m.mats = [.prefixer, .number, .diger]) (ht : m.tail = .group)
    (h : FitQuad .v1 q) (he : quadElem1 q = .ok e) : e = (quadElem q).sent .v1 ∧ GoodElem .v1 false m e := by
  obtain ⟨h1, h2, h3, h4⟩ := h
  unfold quadElem1 at he
  cases hs : seqner q.n with
  | error x => rw [hs] at he; exact absurd he (by simp)
  | ok n =>
    rw [hs] at he
    injection he with he
    obtain ⟨e1, e2⟩ := seqner_ok hs
    subst he
    refine ⟨?_, good_elem hm (by rw [hk]; exact .cons h1 (.cons e2 (.cons h3 .nil))) (by rw [ht]; exact h4) rfl⟩
    simp [Elem.sent, quadElem, sent_other (Or.inl rfl) h1, sent_other (Or.inr (Or.inl rfl)) h3, sent_number h2, e1]

theorem good_bond2 {m : Meth} {b : Bond} (hm : m.mode ≠ .raw) (hk : m.mats = b.clan.klas) (ht : m.tail = .none)
    (h : GoodPrims b.clan.klas b.mats) : GoodElem .v2 false m (bondElem b) := by
  refine good_elem hm (by rw [hk]; exact h) ?_ rfl
  rw [ht]
  exact ⟨by simp [bondElem], rfl⟩

theorem good_bond1 {m : Meth} {b : Bond} {e : Elem} (hm : m.mode ≠ .raw) (hk : m.mats = b.clan.klas) (ht : m.tail = .none)
    (h : GoodPrims b.clan.klas b.mats) (he : bondElem1 b = .ok e) : e = (bondElem b).sent .v1 ∧ GoodElem .v1 false m e := by
  have hsig : GoodSigs .v1 false m.tail [] := by rw [ht]; exact ⟨by simp, rfl⟩
  obtain ⟨clan, mats⟩ := b
  simp only at h hk
  unfold bondElem1 at he
  simp only at he
  split at he
  · next i s d =>
    cases h with | cons h1 h => cases h with | cons h2 h => cases h with | cons h3 h =>
    cases hs : seqner s with
    | error x => rw [hs] at he; exact absurd he (by simp)
    | ok n =>
      rw [hs] at he
      injection he with he
      obtain ⟨e1, e2⟩ := seqner_ok hs
      subst he
      refine ⟨?_, good_elem hm (by rw [hk]; exact .cons h1 (.cons e2 (.cons h3 .nil))) hsig rfl⟩
      simp [Elem.sent, bondElem, sent_other (Or.inl rfl) h1, sent_other (Or.inr (Or.inl rfl)) h3, sent_number h2, e1]
  · next s d =>
    cases h with | cons h2 h => cases h with | cons h3 h =>
    cases hs : seqner s with
    | error x => rw [hs] at he; exact absurd he (by simp)
    | ok n =>
      rw [hs] at he
      injection he with he
      obtain ⟨e1, e2⟩ := seqner_ok hs
      subst he
      refine ⟨?_, good_elem hm (by rw [hk]; exact .cons e2 (.cons h3 .nil)) hsig rfl⟩
      simp [Elem.sent, bondElem, sent_other (Or.inr (Or.inl rfl)) h3, sent_number h2, e1]
  · next s d =>
    cases h with | cons h2 h => cases h with | cons h3 h =>
    cases hs : seqner s with
    | error x => rw [hs] at he; exact absurd he (by simp)
    | ok n =>
      rw [hs] at he
      injection he with he
      obtain ⟨e1, e2⟩ := seqner_ok hs
      subst he
      refine ⟨?_, good_elem hm (by rw [hk]; exact .cons e2 (.cons h3 .nil)) hsig rfl⟩
      simp [Elem.sent, bondElem, sent_other (Or.inr (Or.inr rfl)) h3, sent_number h2, e1]
  · exact absurd he (by simp)

/-! ## Groups -/

theorem Items.append {β : Type} {v : Ver} {bin : Bool} {sub : P (Exts β)} {e1 e2 : Bytes} {a1 a2 : List (Slot × Elem)} {n1 n2 : List (Exts β)}
    (h1 : Items v bin sub e1 a1 n1) (h2 : Items v bin sub e2 a2 n2) : Items v bin sub (e1 ++ e2) (a1 ++ a2) (n1 ++ n2) := by
  induction h1 with
  | nil => exact h2
  | cons g1 _ ih =>
    rw [List.append_assoc, List.append_assoc, List.append_assoc]
    exact .cons g1 ih

theorem put_items {β : Type} {v : Ver} {code : String} {tail : Tail} {sized : Bool} {es : List Elem} {b : Bytes} {m : Meth}
    (hm : method v code.toList = some m) (ht : m.tail = tail) (hmode : m.mode = if sized then .sized else .counted)
    (hg : ∀ e ∈ es, GoodElem v false m e) (hp : put v code tail sized es = .ok b) (sub : P (Exts β)) :
    Items v false sub b (es.map (fun e => (m.slot, e))) [] ∧ (es ≠ [] → b ≠ []) := by
  unfold put at hp
  by_cases h0 : es = []
  · subst h0
    simp only [if_true] at hp
    injection hp with hp
    subst hp
    exact ⟨.nil, by simp⟩
  · rw [if_neg h0] at hp
    have hraw : m.mode ≠ .raw := by rw [hmode]; cases sized <;> simp
    have hp' : writeGroup v false code.toList m es = .ok b := by
      obtain ⟨s, ms, t, mo⟩ := m
      simp only at ht hmode
      subst ht hmode
      exact hp
    obtain ⟨c, t, r, c1, c2, c3, c4, c5, c6⟩ := group_eats hm hg (fun h => absurd h hraw) hp'
    have hi : Item v false sub (t ++ r) (es.map (fun e => (m.slot, e))) [] := .att c1 c2 c4 c5 c6
    have := Items.cons hi (.nil)
    simp only [List.append_nil] at this
    rw [c3]
    exact ⟨this, fun _ => hi.front.2.1⟩

theorem each_map {α : Type} {f : α → Except Err Elem} {g : α → Elem} : ∀ {l : List α} {es : List Elem}, (∀ a ∈ l, ∀ e, f a = .ok e → e = g a) →
    each f l = .ok es → es = l.map g ∧ ∀ a ∈ l, f a = .ok (g a)
  | [], es, _, h => by
    injection h with h
    exact ⟨h.symm, by simp⟩
  | a :: l, es, hf, h => by
    simp only [each] at h
    split at h
    · exact absurd h (by simp)
    next x hx =>
    split at h
    · exact absurd h (by simp)
    next y hy =>
    injection h with h
    obtain ⟨h1, h2⟩ := each_map (fun a ha => hf a (List.mem_cons_of_mem _ ha)) hy
    have hxa := hf a (by simp) x hx
    refine ⟨by rw [← h, h1, hxa]; rfl, ?_⟩
    intro b hb
    rcases List.mem_cons.1 hb with rfl | hb
    · rw [hx, hxa]
    · exact h2 b hb

theorem putE_items {α β : Type} {v : Ver} {code : String} {tail : Tail} {sized : Bool} {f : α → Except Err Elem} (g : α → Elem) {l : List α} {b : Bytes} {m : Meth}
    (hm : method v code.toList = some m) (ht : m.tail = tail) (hmode : m.mode = if sized then .sized else .counted)
    (hg : ∀ a ∈ l, ∀ e, f a = .ok e → e = g a ∧ GoodElem v false m e) (hp : putE v code tail sized f l = .ok b) (sub : P (Exts β)) :
    Items v false sub b ((l.map g).map (fun e => (m.slot, e))) [] ∧ (l ≠ [] → b ≠ []) := by
  unfold putE at hp
  split at hp
  · exact absurd hp (by simp)
  next es he =>
  obtain ⟨h1, h2⟩ := each_map (fun a ha e h => (hg a ha e h).1) he
  obtain ⟨p1, p2⟩ := put_items hm ht hmode (by
    intro e hes
    rw [h1] at hes
    obtain ⟨a, ha, rfl⟩ := List.mem_map.1 hes
    exact (hg a ha _ (h2 a ha)).2) hp sub
  rw [h1] at p1 p2
  exact ⟨p1, fun h => p2 (by simpa using h)⟩

theorem cat_cons_ok {α : Type} {w : α → Except Err Bytes} {a : α} {l : List α} {b : Bytes} (h : cat w (a :: l) = .ok b) :
    ∃ b1 b2, w a = .ok b1 ∧ cat w l = .ok b2 ∧ b = b1 ++ b2 := by
  simp only [cat] at h
  split at h
  · exact absurd h (by simp)
  next x hx =>
  split at h
  · exact absurd h (by simp)
  next y hy =>
  injection h with h
  exact ⟨x, y, hx, hy, h.symm⟩

theorem cat_nil_ok {α : Type} {w : α → Except Err Bytes} {b : Bytes} (h : cat w [] = .ok b) : b = [] := by
  injection h with h
  exact h.symm

/-! ## Bonds by class -/

/-- Groups of bonds of one class each, each class once. -/
structure Collated (acc : List (Clan × List Bond)) : Prop where
  same : ∀ g ∈ acc, ∀ b ∈ g.2, b.clan = g.1
  ne : ∀ g ∈ acc, g.2 ≠ []
  once : (acc.map (·.1)).Nodup

theorem addBond_keys (b : Bond) : ∀ acc : List (Clan × List Bond), ∀ c, c ∈ (addBond b acc).map (·.1) → c = b.clan ∨ c ∈ acc.map (·.1)
  | [], c, h => by simp [addBond] at h; exact Or.inl h
  | (x, l) :: t, c, h => by
    unfold addBond at h
    by_cases hx : x = b.clan
    · rw [if_pos hx] at h
      exact Or.inr (by simpa using h)
    · rw [if_neg hx] at h
      simp only [List.map_cons, List.mem_cons] at h ⊢
      rcases h with h | h
      · exact Or.inr (Or.inl h)
      · rcases addBond_keys b t c h with h | h
        · exact Or.inl h
        · exact Or.inr (Or.inr h)

theorem addBond_spec (b : Bond) : ∀ {acc : List (Clan × List Bond)}, Collated acc → Collated (addBond b acc) ∧
    (∀ x, x ∈ (addBond b acc).flatMap (·.2) ↔ x ∈ acc.flatMap (·.2) ∨ x = b) ∧
    ∀ c, ((addBond b acc).flatMap (·.2)).filter (fun x => x.clan = c) = (acc.flatMap (·.2)).filter (fun x => x.clan = c) ++ [b].filter (fun x => x.clan = c)
  | [], _ => by
    refine ⟨⟨?_, ?_, ?_⟩, ?_, ?_⟩ <;> simp [addBond]
  | (x, l) :: t, h => by
    have ht : Collated t := ⟨fun g hg => h.same g (List.mem_cons_of_mem _ hg), fun g hg => h.ne g (List.mem_cons_of_mem _ hg), by
      have := h.once; simp only [List.map_cons, List.nodup_cons] at this; exact this.2⟩
    have hxt : x ∉ t.map (·.1) := by have := h.once; simp only [List.map_cons, List.nodup_cons] at this; exact this.1
    unfold addBond
    by_cases hx : x = b.clan
    · rw [if_pos hx]
      have hnone : ∀ c, c = b.clan → (t.flatMap (·.2)).filter (fun x => x.clan = c) = [] := by
        intro c hc
        rw [List.filter_eq_nil_iff]
        intro y hy
        obtain ⟨g, hg, hyg⟩ := List.mem_flatMap.1 hy
        have := ht.same g hg y hyg
        simp only [decide_eq_true_eq]
        intro h0
        exact hxt (List.mem_map.2 ⟨g, hg, by rw [← this, h0, hc, hx]⟩)
      refine ⟨⟨?_, ?_, ?_⟩, ?_, ?_⟩
      · intro g hg y hy
        rcases List.mem_cons.1 hg with rfl | hg
        · rcases List.mem_append.1 hy with hy | hy
          · exact h.same (x, l) (by simp) y hy
          · simp only [List.mem_singleton] at hy
            rw [hy]; exact hx.symm
        · exact ht.same g hg y hy
      · intro g hg
        rcases List.mem_cons.1 hg with rfl | hg
        · simp
        · exact ht.ne g hg
      · exact h.once
      · intro y
        simp only [List.flatMap_cons, List.mem_append, List.mem_singleton]
        grind
      · intro c
        simp only [List.flatMap_cons, List.filter_append, List.append_assoc]
        congr 1
        by_cases hc : c = b.clan
        · rw [hnone c hc]; simp
        · have : [b].filter (fun x => decide (x.clan = c)) = [] := by
            rw [List.filter_eq_nil_iff]; intro y hy; simp only [List.mem_singleton] at hy; subst hy; simpa using fun h => hc h.symm
          rw [this]; simp
    · rw [if_neg hx]
      obtain ⟨i1, i2, i3⟩ := addBond_spec b ht
      refine ⟨⟨?_, ?_, ?_⟩, ?_, ?_⟩
      · intro g hg y hy
        rcases List.mem_cons.1 hg with rfl | hg
        · exact h.same (x, l) (by simp) y hy
        · exact i1.same g hg y hy
      · intro g hg
        rcases List.mem_cons.1 hg with rfl | hg
        · exact h.ne (x, l) (by simp)
        · exact i1.ne g hg
      · simp only [List.map_cons, List.nodup_cons]
        refine ⟨?_, i1.once⟩
        intro h0
        rcases addBond_keys b t x h0 with h0 | h0
        · exact hx h0
        · exact hxt h0
      · intro y
        simp only [List.flatMap_cons, List.mem_append, i2]
        grind
      · intro c
        simp only [List.flatMap_cons, List.filter_append, i3, List.append_assoc]

theorem collate_spec (bonds : List Bond) : Collated (collate bonds) ∧ (∀ x, x ∈ (collate bonds).flatMap (·.2) ↔ x ∈ bonds) ∧
    ∀ c, ((collate bonds).flatMap (·.2)).filter (fun x => x.clan = c) = bonds.filter (fun x => x.clan = c) := by
  have key : ∀ (bs : List Bond) (acc : List (Clan × List Bond)), Collated acc → Collated (bs.foldl (fun acc b => addBond b acc) acc) ∧
      (∀ x, x ∈ (bs.foldl (fun acc b => addBond b acc) acc).flatMap (·.2) ↔ x ∈ acc.flatMap (·.2) ∨ x ∈ bs) ∧
      ∀ c, ((bs.foldl (fun acc b => addBond b acc) acc).flatMap (·.2)).filter (fun x => x.clan = c) =
        (acc.flatMap (·.2)).filter (fun x => x.clan = c) ++ bs.filter (fun x => x.clan = c) := by
    intro bs
    induction bs with
    | nil => intro acc h; exact ⟨h, by simp, by simp⟩
    | cons b bs ih =>
      intro acc h
      obtain ⟨a1, a2, a3⟩ := addBond_spec b h
      obtain ⟨b1, b2, b3⟩ := ih _ a1
      refine ⟨b1, ?_, ?_⟩
      · intro x
        rw [List.foldl_cons, b2, a2, List.mem_cons]
        grind
      · intro c
        rw [List.foldl_cons, b3, a3, List.append_assoc, ← List.filter_append, ← List.singleton_append (l := bs)]
  obtain ⟨k1, k2, k3⟩ := key bonds [] ⟨by simp, by simp, by simp⟩
  refine ⟨k1, ?_, ?_⟩
  · intro x; have := k2 x; simpa [collate] using this
  · intro c; have := k3 c; simpa [collate] using this

def slotOf (c : Clan) : Slot := c.slot.getD .ptds

/-- A bond as the parser sees it. -/
def bondAtt (v : Ver) (b : Bond) : Slot × Elem := (slotOf b.clan, (bondElem b).sent v)

theorem cat_groups {β : Type} {v : Ver} {sub : P (Exts β)} {w : Clan × List Bond → Except Err Bytes} {f : Bond → Slot × Elem} :
    ∀ {gs : List (Clan × List Bond)} {b : Bytes}, (∀ g ∈ gs, ∀ b', w g = .ok b' → Items v false sub b' (g.2.map f) [] ∧ b' ≠ []) → cat w gs = .ok b →
      Items v false sub b ((gs.flatMap (·.2)).map f) [] ∧ (gs ≠ [] → b ≠ [])
  | [], b, _, h => by
    rw [cat_nil_ok h]
    exact ⟨.nil, by simp⟩
  | g :: gs, b, hw, h => by
    obtain ⟨b1, b2, h1, h2, rfl⟩ := cat_cons_ok h
    obtain ⟨i1, i2⟩ := hw g (by simp) b1 h1
    obtain ⟨j1, _⟩ := cat_groups (fun g hg => hw g (List.mem_cons_of_mem _ hg)) h2
    refine ⟨?_, fun _ => by simp [i2]⟩
    rw [List.flatMap_cons, List.map_append]
    exact i1.append j1

theorem method_clan2 (c : Clan) (h : c.slot ≠ none) : method .v2 c.code.toList = some ⟨slotOf c, c.klas, .none, .sized⟩ := by
  cases c <;> first | exact absurd rfl h | decide +kernel

theorem clan_map {β : Type} {v : Ver} {c : Clan} {l : List Bond} (h : ∀ b ∈ l, b.clan = c) (f : Bond → β) :
    l.map (fun b => (slotOf c, f b)) = l.map (fun b => (slotOf b.clan, f b)) := by
  refine List.map_congr_left ?_
  intro b hb
  rw [h b hb]

theorem putBonds2_items {β : Type} {sub : P (Exts β)} {g : Clan × List Bond} {b : Bytes} (hs : ∀ b ∈ g.2, b.clan = g.1) (hne : g.2 ≠ [])
    (hg : ∀ b ∈ g.2, b.clan.slot ≠ none ∧ GoodPrims b.clan.klas b.mats) (h : putBonds2 g = .ok b) :
    Items .v2 false sub b (g.2.map (bondAtt .v2)) [] ∧ b ≠ [] := by
  obtain ⟨b0, hb0⟩ := List.exists_mem_of_ne_nil _ hne
  have hslot : g.1.slot ≠ none := by rw [← hs b0 hb0]; exact (hg b0 hb0).1
  obtain ⟨p1, p2⟩ := put_items (method_clan2 g.1 hslot) rfl rfl (by
    intro e he
    obtain ⟨b, hb, rfl⟩ := List.mem_map.1 he
    exact good_bond2 (by simp) (by rw [hs b hb]) rfl (hg b hb).2) h sub
  refine ⟨?_, p2 (by simpa using hne)⟩
  have : (g.2.map bondElem).map (fun e => (slotOf g.1, e)) = g.2.map (bondAtt .v2) := by
    rw [List.map_map]
    refine List.map_congr_left ?_
    intro b hb
    simp [bondAtt, hs b hb, elem_sent_v2]
  rw [← this]
  exact p1

theorem putBonds1_items {β : Type} {sub : P (Exts β)} {g : Clan × List Bond} {b : Bytes} (hs : ∀ b ∈ g.2, b.clan = g.1) (hne : g.2 ≠ [])
    (hg : ∀ b ∈ g.2, b.clan.slot ≠ none ∧ GoodPrims b.clan.klas b.mats) (h : putBonds1 g = .ok b) :
    Items .v1 false sub b (g.2.map (bondAtt .v1)) [] ∧ b ≠ [] := by
  have key : ∀ {code : String}, method .v1 code.toList = some ⟨slotOf g.1, g.1.klas, .none, .counted⟩ → putE .v1 code .none false bondElem1 g.2 = .ok b →
      Items .v1 false sub b (g.2.map (bondAtt .v1)) [] ∧ b ≠ [] := by
    intro code hm h
    obtain ⟨p1, p2⟩ := putE_items (fun b => (bondElem b).sent .v1) hm rfl rfl (by
      intro b hb e he
      exact good_bond1 (by simp) (by rw [hs b hb]) rfl (hg b hb).2 he) h sub
    refine ⟨?_, p2 hne⟩
    have : (g.2.map (fun b => (bondElem b).sent .v1)).map (fun e => (slotOf g.1, e)) = g.2.map (bondAtt .v1) := by
      rw [List.map_map]
      refine List.map_congr_left ?_
      intro b hb
      simp [bondAtt, hs b hb]
    rw [← this]
    exact p1
  unfold putBonds1 at h
  split at h
  · next hc => exact key (by rw [hc]; decide +kernel) h
  · next hc => exact key (by rw [hc]; decide +kernel) h
  · exact absurd h (by simp)
  · next hc => exact key (by rw [hc]; decide +kernel) h
  · exact absurd h (by simp)

/-! ## All attachments -/

/-- The attachments in the order they are written. -/
def Args.atts (a : Args) : List (Slot × Elem) :=
  (a.sigers.map sigElem).map (fun e => (Slot.sigers, e)) ++ (((a.tsgs.map (fun q => (quadElem q).sent a.ver)).map (fun e => (Slot.tsgs, e))) ++
  ((a.lsgs.map lastElem).map (fun e => (Slot.lsgs, e)) ++ ((a.wigers.map (fun w => sigElem w.1)).map (fun e => (Slot.wigers, e)) ++
  ((a.cigars.map cigElem).map (fun e => (Slot.cigars, e)) ++ ((a.rsgs.map (fun q => (quadElem q).sent a.ver)).map (fun e => (Slot.rsgs, e)) ++
  ((collate a.bonds).flatMap (·.2)).map (bondAtt a.ver))))))

theorem wig_ok {w : Ixr × Option Mat} {e : Elem} (h : wigElem w = .ok e) : e = sigElem w.1 := by
  unfold wigElem at h
  split at h
  · split at h
    · injection h with h; exact h.symm
    · exact absurd h (by simp)
  · injection h with h; exact h.symm

theorem cig_ok {c : Mat × Mat} {e : Elem} (h : cigElemE c = .ok e) : e = cigElem c := by
  unfold cigElemE at h
  split at h
  · injection h with h; exact h.symm
  · exact absurd h (by simp)

theorem collate_ne {bonds : List Bond} (h : bonds ≠ []) : collate bonds ≠ [] := by
  intro h0
  obtain ⟨b, hb⟩ := List.exists_mem_of_ne_nil _ h
  have := ((collate_spec bonds).2.1 b).2 hb
  rw [h0] at this
  simp at this

theorem not_bare {a : Args} {b1 b2 b3 b4 b5 b6 b7 b8 : Bytes} (h : ¬ a.bare) (h1 : a.sigers ≠ [] → b1 ≠ []) (h2 : a.tsgs ≠ [] → b2 ≠ [])
    (h3 : a.lsgs ≠ [] → b3 ≠ []) (h4 : a.wigers ≠ [] → b4 ≠ []) (h5 : a.cigars ≠ [] → b5 ≠ []) (h6 : a.rsgs ≠ [] → b6 ≠ []) (h7 : a.bonds ≠ [] → b7 ≠ []) :
    b1 ++ (b2 ++ (b3 ++ (b4 ++ (b5 ++ (b6 ++ (b7 ++ b8)))))) ≠ [] := by
  intro h0
  simp only [List.append_eq_nil_iff] at h0
  obtain ⟨z1, z2, z3, z4, z5, z6, z7, z8⟩ := h0
  refine h ⟨?_, ?_, ?_, ?_, ?_, ?_, ?_⟩
  · exact Classical.byContradiction fun h => h1 h z1
  · exact Classical.byContradiction fun h => h2 h z2
  · exact Classical.byContradiction fun h => h3 h z3
  · exact Classical.byContradiction fun h => h5 h z5
  · exact Classical.byContradiction fun h => h4 h z4
  · exact Classical.byContradiction fun h => h6 h z6
  · exact Classical.byContradiction fun h => h7 h z7

theorem bonds_fit {a : Args} (hf : Fit a) {g : Clan × List Bond} (hg : g ∈ collate a.bonds) :
    (∀ b ∈ g.2, b.clan = g.1) ∧ g.2 ≠ [] ∧ ∀ b ∈ g.2, b.clan.slot ≠ none ∧ GoodPrims b.clan.klas b.mats := by
  obtain ⟨c1, c2, _⟩ := collate_spec a.bonds
  exact ⟨c1.same g hg, c1.ne g hg, fun b hb => hf.bonds b ((c2 b).1 (List.mem_flatMap.2 ⟨g, hg, hb⟩))⟩

theorem aims1_items {β : Type} {a : Args} {aims : Bytes} (hv : a.ver = .v1) (hf : Fit a) (h : aims1 a = .ok aims) (sub : P (Exts β)) :
    Items .v1 false sub aims a.atts [] ∧ (¬ a.bare → aims ≠ []) := by
  unfold aims1 at h
  obtain ⟨b1, _, w1, q1, rfl⟩ := cat_cons_ok h
  obtain ⟨b2, _, w2, q2, rfl⟩ := cat_cons_ok q1
  obtain ⟨b3, _, w3, q3, rfl⟩ := cat_cons_ok q2
  obtain ⟨b4, _, w4, q4, rfl⟩ := cat_cons_ok q3
  obtain ⟨b5, _, w5, q5, rfl⟩ := cat_cons_ok q4
  obtain ⟨b6, _, w6, q6, rfl⟩ := cat_cons_ok q5
  obtain ⟨b7, _, w7, q7, rfl⟩ := cat_cons_ok q6
  rw [cat_nil_ok q7]
  simp only [id] at w1 w2 w3 w4 w5 w6 w7
  have f2 := hf.tsgs
  have f3 := hf.lsgs
  have f6 := hf.rsgs
  rw [hv] at f2 f3 f6
  obtain ⟨i1, j1⟩ := put_items (m := ⟨.sigers, [], .one, .counted⟩) (by decide +kernel) rfl rfl (by
    intro e he
    obtain ⟨s, hs, rfl⟩ := List.mem_map.1 he
    exact good_sig (by simp) rfl rfl (hf.sigers s hs)) w1 sub
  obtain ⟨i2, j2⟩ := putE_items (m := ⟨.tsgs, [.prefixer, .number, .diger], .group, .counted⟩) (fun q => (quadElem q).sent .v1) (by decide +kernel) rfl rfl (by
    intro q hq e he
    exact good_quad1 (by simp) rfl rfl (f2 q hq) he) w2 sub
  obtain ⟨i3, j3⟩ := put_items (m := ⟨.lsgs, [.prefixer], .group, .counted⟩) (by decide +kernel) rfl rfl (by
    intro e he
    obtain ⟨s, hs, rfl⟩ := List.mem_map.1 he
    exact good_last (by simp) rfl rfl (f3 s hs)) w3 sub
  obtain ⟨i4, j4⟩ := putE_items (m := ⟨.wigers, [], .one, .counted⟩) (fun w => sigElem w.1) (by decide +kernel) rfl rfl (by
    intro w hw e he
    rw [wig_ok he]
    exact ⟨rfl, good_sig (by simp) rfl rfl (hf.wigers w hw)⟩) w4 sub
  obtain ⟨i5, j5⟩ := putE_items (m := ⟨.cigars, [.verfer, .cigar], .none, .counted⟩) cigElem (by decide +kernel) rfl rfl (by
    intro w hw e he
    rw [cig_ok he]
    exact ⟨rfl, good_cig (by simp) rfl rfl (hf.cigars w hw)⟩) w5 sub
  obtain ⟨i6, j6⟩ := putE_items (m := ⟨.rsgs, [.prefixer, .number, .diger], .group, .sized⟩) (fun q => (quadElem q).sent .v1) (by decide +kernel) rfl rfl (by
    intro q hq e he
    exact good_quad1 (by simp) rfl rfl (f6 q hq) he) w6 sub
  have hbonds : Items .v1 false sub b7 (((collate a.bonds).flatMap (·.2)).map (bondAtt .v1)) [] ∧ (collate a.bonds ≠ [] → b7 ≠ []) := by
    split at w7
    · refine cat_groups ?_ w7
      intro g hg b' hb'
      obtain ⟨g1, g2, g3⟩ := bonds_fit hf hg
      exact putBonds1_items g1 g2 g3 hb'
    · exact absurd w7 (by simp)
  obtain ⟨i7, j7⟩ := hbonds
  constructor
  · have := i1.append (i2.append (i3.append (i4.append (i5.append (i6.append i7)))))
    simp only [List.append_nil] at this ⊢
    unfold Args.atts
    rw [hv]
    exact this
  · intro hb
    exact not_bare hb (fun h => j1 (by simpa using h)) j2 (fun h => j3 (by simpa using h)) j4 j5 j6 (fun h => j7 (collate_ne h))

/-- Nested messages the parser takes. -/
theorem nests_items {β : Type} {sub : P (Exts β)} {R : Bytes → Exts β → Prop} (hR : ∀ b e, R b e → Item .v2 false sub b [] [e]) :
    ∀ {bs : List Bytes} {es : List (Exts β)} {b : Bytes}, All2 R bs es → cat (fun n => if reb64 (chars n) then .ok n else .error .valueError) bs = .ok b →
      Items .v2 false sub b [] es := by
  intro bs es b h
  induction h generalizing b with
  | nil =>
    intro h
    rw [cat_nil_ok h]
    exact .nil
  | @cons x e xs es h1 _ ih =>
    intro h
    obtain ⟨b1, b2, w1, w2, rfl⟩ := cat_cons_ok h
    split at w1
    · injection w1 with w1
      subst w1
      exact Items.cons (hR _ _ h1) (ih w2)
    · exact absurd w1 (by simp)

theorem aims2_items {β : Type} {a : Args} {aims : Bytes} {ns : List (Exts β)} {sub : P (Exts β)} {R : Bytes → Exts β → Prop} (hv : a.ver = .v2) (hf : Fit a)
    (h : aims2 a = .ok aims) (hn : All2 R a.nests ns) (hR : ∀ b ∈ a.nests, ∀ e, R b e → Item .v2 false sub b [] [e]) :
    Items .v2 false sub aims a.atts ns ∧ (¬ a.bare → aims ≠ []) := by
  unfold aims2 at h
  obtain ⟨b1, _, w1, q1, rfl⟩ := cat_cons_ok h
  obtain ⟨b2, _, w2, q2, rfl⟩ := cat_cons_ok q1
  obtain ⟨b3, _, w3, q3, rfl⟩ := cat_cons_ok q2
  obtain ⟨b4, _, w4, q4, rfl⟩ := cat_cons_ok q3
  obtain ⟨b5, _, w5, q5, rfl⟩ := cat_cons_ok q4
  obtain ⟨b6, _, w6, q6, rfl⟩ := cat_cons_ok q5
  obtain ⟨b7, _, w7, q7, rfl⟩ := cat_cons_ok q6
  obtain ⟨b8, _, w8, q8, rfl⟩ := cat_cons_ok q7
  rw [cat_nil_ok q8]
  simp only [id] at w1 w2 w3 w4 w5 w6 w7 w8
  have f2 := hf.tsgs
  have f3 := hf.lsgs
  have f6 := hf.rsgs
  rw [hv] at f2 f3 f6
  obtain ⟨i1, j1⟩ := put_items (m := ⟨.sigers, [], .one, .sized⟩) (by decide +kernel) rfl rfl (by
    intro e he
    obtain ⟨s, hs, rfl⟩ := List.mem_map.1 he
    exact good_sig (by simp) rfl rfl (hf.sigers s hs)) w1 sub
  obtain ⟨i2, j2⟩ := put_items (m := ⟨.tsgs, [.prefixer, .number, .diger], .group, .sized⟩) (by decide +kernel) rfl rfl (by
    intro e he
    obtain ⟨q, hq, rfl⟩ := List.mem_map.1 he
    exact good_quad2 (by simp) rfl rfl (f2 q hq)) w2 sub
  obtain ⟨i3, j3⟩ := put_items (m := ⟨.lsgs, [.prefixer], .group, .sized⟩) (by decide +kernel) rfl rfl (by
    intro e he
    obtain ⟨s, hs, rfl⟩ := List.mem_map.1 he
    exact good_last (by simp) rfl rfl (f3 s hs)) w3 sub
  obtain ⟨i4, j4⟩ := putE_items (m := ⟨.wigers, [], .one, .sized⟩) (fun w => sigElem w.1) (by decide +kernel) rfl rfl (by
    intro w hw e he
    rw [wig_ok he]
    exact ⟨rfl, good_sig (by simp) rfl rfl (hf.wigers w hw)⟩) w4 sub
  obtain ⟨i5, j5⟩ := putE_items (m := ⟨.cigars, [.verfer, .cigar], .none, .sized⟩) cigElem (by decide +kernel) rfl rfl (by
    intro w hw e he
    rw [cig_ok he]
    exact ⟨rfl, good_cig (by simp) rfl rfl (hf.cigars w hw)⟩) w5 sub
  obtain ⟨i6, j6⟩ := put_items (m := ⟨.rsgs, [.prefixer, .number, .diger], .group, .sized⟩) (by decide +kernel) rfl rfl (by
    intro e he
    obtain ⟨q, hq, rfl⟩ := List.mem_map.1 he
    exact good_quad2 (by simp) rfl rfl (f6 q hq)) w6 sub
  have hbonds : Items .v2 false sub b7 (((collate a.bonds).flatMap (·.2)).map (bondAtt .v2)) [] ∧ (collate a.bonds ≠ [] → b7 ≠ []) := by
    refine cat_groups ?_ w7
    intro g hg b' hb'
    obtain ⟨g1, g2, g3⟩ := bonds_fit hf hg
    exact putBonds2_items g1 g2 g3 hb'
  obtain ⟨i7, j7⟩ := hbonds
  have i8 : Items .v2 false sub b8 [] ns := nests_items (R := fun b e => b ∈ a.nests ∧ R b e) (fun b e h => hR b h.1 e h.2) (by
    have key : ∀ {bs : List Bytes} {es : List (Exts β)}, All2 R bs es → (∀ b ∈ bs, b ∈ a.nests) → All2 (fun b e => b ∈ a.nests ∧ R b e) bs es := by
      intro bs es h
      induction h with
      | nil => intro _; exact .nil
      | cons h1 _ ih => intro hb; exact .cons ⟨hb _ (by simp), h1⟩ (ih (fun b hb' => hb b (List.mem_cons_of_mem _ hb')))
    exact key hn (fun b hb => hb)) w8
  constructor
  · have := i1.append (i2.append (i3.append (i4.append (i5.append (i6.append (i7.append i8))))))
    simp only [List.append_nil, List.nil_append] at this ⊢
    have hs : (fun q => (quadElem q).sent .v2) = quadElem := funext fun q => elem_sent_v2 _
    unfold Args.atts
    rw [hv, hs]
    exact this
  · intro hb
    exact not_bare hb (fun h => j1 (by simpa using h)) (fun h => j2 (by simpa using h)) (fun h => j3 (by simpa using h)) j4 j5
      (fun h => j6 (by simpa using h)) (fun h => j7 (collate_ne h))

end Verif.Prs
