import Verif.Ser.Spec
import Verif.Mad.SaidMore

/-! # Fields of messages: lookups, the table, the form of messages -/

namespace Verif.Ser

open Verif.B64 Verif.Matter
open Verif.Mad hiding Kind verify makify Digested Collision
open Verif.Prs (Proto Kind Smellage asc chars versify deversify smell sniff)

theorem getKey_setField (fs : Flds) (l k : List Char) (v : Val) : getKey (setField fs l v) k = if k = l then some v else getKey fs k := by
  induction fs with
  | nil =>
    simp only [setField, getKey_cons]
    by_cases h : l = k
    · simp [h]
    · rw [if_neg h, if_neg (fun e => h e.symm)]
  | cons p r ih =>
    obtain ⟨m, w⟩ := p
    simp only [setField]
    by_cases hm : m = l
    · rw [if_pos hm, getKey_cons, getKey_cons]
      subst hm
      by_cases h : m = k
      · simp [h]
      · simp only [if_neg h]; rw [if_neg (fun e => h e.symm)]
    · rw [if_neg hm, getKey_cons, getKey_cons, ih]
      by_cases h : m = k
      · simp only [if_pos h]
        rw [if_neg (fun e => hm (h.trans e))]
      · simp only [if_neg h]

theorem keys_setField {fs : Flds} {l : List Char} (v : Val) (h : l ∈ fs.map (·.1)) : (setField fs l v).map (·.1) = fs.map (·.1) := by
  induction fs with
  | nil => simp at h
  | cons p r ih =>
    obtain ⟨m, w⟩ := p
    simp only [setField]
    by_cases hm : m = l
    · rw [if_pos hm]; rfl
    · rw [if_neg hm]
      simp only [List.map_cons, List.mem_cons] at h ⊢
      rw [ih (h.resolve_left (fun e => hm e.symm))]

theorem mem_keys_setField (fs : Flds) (l k : List Char) (v : Val) : k ∈ (setField fs l v).map (·.1) ↔ k = l ∨ k ∈ fs.map (·.1) := by
  induction fs with
  | nil => simp [setField]
  | cons p r ih =>
    obtain ⟨m, w⟩ := p
    simp only [setField]
    by_cases hm : m = l
    · rw [if_pos hm]; subst hm; simp
    · rw [if_neg hm]
      simp only [List.map_cons, List.mem_cons, ih]
      grind

theorem dict_setField {fs : Flds} (h : Dict fs) (l : List Char) (v : Val) : Dict (setField fs l v) := by
  unfold Dict at *
  induction fs with
  | nil => simp [setField]
  | cons p r ih =>
    obtain ⟨m, w⟩ := p
    simp only [List.map_cons, List.nodup_cons] at h
    simp only [setField]
    by_cases hm : m = l
    · rw [if_pos hm]; simp only [List.map_cons, List.nodup_cons]; exact h
    · rw [if_neg hm]
      simp only [List.map_cons, List.nodup_cons]
      refine ⟨?_, ih h.2⟩
      rw [mem_keys_setField]
      rintro (e | e)
      · exact hm e
      · exact h.1 e

/-- Dicts with the same labels in the same order and the same values. -/
theorem flds_ext {a b : Flds} (ha : Dict a) (hk : a.map (·.1) = b.map (·.1)) (hg : ∀ l, getKey a l = getKey b l) : a = b := by
  induction a generalizing b with
  | nil => cases b with
    | nil => rfl
    | cons q b => simp at hk
  | cons p a ih =>
    cases b with
    | nil => simp at hk
    | cons q b =>
      obtain ⟨m, v⟩ := p
      obtain ⟨n, w⟩ := q
      simp only [List.map_cons, List.cons.injEq] at hk
      obtain ⟨rfl, hk⟩ := hk
      unfold Dict at ha
      simp only [List.map_cons, List.nodup_cons] at ha
      have h0 := hg m
      simp only [getKey_cons, if_true, Option.some.injEq] at h0
      rw [h0, ih ha.2 hk]
      intro l
      have h1 := hg l
      simp only [getKey_cons] at h1
      by_cases hl : m = l
      · subst hl
        rw [getKey_none.2 ha.1, getKey_none.2 (by rw [← hk]; exact ha.1)]
      · simpa [hl] using h1

theorem setField_same {fs : Flds} (hd : Dict fs) {l : List Char} {v : Val} (h : getKey fs l = some v) : setField fs l v = fs := by
  have hm : l ∈ fs.map (·.1) := List.mem_map.2 ⟨_, getKey_mem h, rfl⟩
  apply flds_ext (dict_setField hd _ _) (keys_setField v hm)
  intro k
  rw [getKey_setField]
  split
  · next e => rw [e, h]
  · rfl

/-- What the table says of every message type. -/
structure Wf (fd : FieldDom) : Prop where
  nodup : fd.labels.Nodup
  first : fd.labels.head? = some ['v']
  vreq : ['v'] ∉ fd.opts
  opts : ∀ l ∈ fd.opts, l ∈ fd.labels
  alts : ∀ p ∈ fd.alts, p.1 ∈ fd.opts ∧ p.2 ∈ fd.opts
  saids : ∀ p ∈ fd.saids, p.1 ∈ fd.labels ∧ p.1 ∉ fd.opts ∧ p.2 ∈ digDex ∧ p.1 ≠ ['v'] ∧ p.1 ≠ ['t']
  dict : (fd.saids.map (·.1)).Nodup

def wfB (fd : FieldDom) : Bool :=
  decide (fd.labels.Nodup) && decide (fd.labels.head? = some ['v']) && decide (['v'] ∉ fd.opts) && fd.opts.all (fun l => decide (l ∈ fd.labels)) &&
  fd.alts.all (fun p => decide (p.1 ∈ fd.opts) && decide (p.2 ∈ fd.opts)) &&
  fd.saids.all (fun p => decide (p.1 ∈ fd.labels) && decide (p.1 ∉ fd.opts) && decide (p.2 ∈ digDex) && decide (p.1 ≠ ['v']) && decide (p.1 ≠ ['t'])) &&
  decide ((fd.saids.map (·.1)).Nodup)

theorem wf_of {fd : FieldDom} (h : wfB fd = true) : Wf fd := by
  simp only [wfB, Bool.and_eq_true, decide_eq_true_eq, List.all_eq_true] at h
  obtain ⟨⟨⟨⟨⟨⟨h1, h2⟩, h3⟩, h4⟩, h5⟩, h6⟩, h7⟩ := h
  exact ⟨h1, h2, h3, h4, h5, fun p hp => ⟨(h6 p hp).1.1.1.1, (h6 p hp).1.1.1.2, (h6 p hp).1.1.2, (h6 p hp).1.2, (h6 p hp).2⟩, h7⟩

theorem domOf_mem {doms : List (Option (List Char) × FieldDom)} {ilk : Option (List Char)} {fd : FieldDom} (h : domOf doms ilk = some fd) :
    (ilk, fd) ∈ doms := by
  induction doms with
  | nil => simp [domOf] at h
  | cons p r ih =>
    obtain ⟨k, fd'⟩ := p
    simp only [domOf] at h
    split at h
    · next e => injection h with h; subst h; subst e; simp
    · exact List.mem_cons_of_mem _ (ih h)

theorem domains_cases {proto : Proto} {pvrsn : Nat × Nat} {doms : List (Option (List Char) × FieldDom)} (h : domains proto pvrsn = some doms) :
    (proto = .keri ∧ pvrsn = (1, 0) ∧ doms = keri1) ∨ (proto = .keri ∧ pvrsn = (2, 0) ∧ doms = keri2) ∨
    (proto = .acdc ∧ pvrsn = (1, 0) ∧ doms = acdc1) ∨ (proto = .acdc ∧ pvrsn = (2, 0) ∧ doms = acdc2) := by
  unfold domains at h
  split at h <;> simp_all

theorem wf_tables : (∀ p ∈ keri1, wfB p.2 = true) ∧ (∀ p ∈ keri2, wfB p.2 = true) ∧ (∀ p ∈ acdc1, wfB p.2 = true) ∧ (∀ p ∈ acdc2, wfB p.2 = true) := by
  refine ⟨by decide +kernel, by decide +kernel, by decide +kernel, by decide +kernel⟩

theorem wf_dom {proto : Proto} {pvrsn : Nat × Nat} {doms : List (Option (List Char) × FieldDom)} {ilk : Option (List Char)} {fd : FieldDom}
    (h : domains proto pvrsn = some doms) (hf : domOf doms ilk = some fd) : Wf fd := by
  have hm := domOf_mem hf
  obtain ⟨w1, w2, w3, w4⟩ := wf_tables
  rcases domains_cases h with ⟨_, _, rfl⟩ | ⟨_, _, rfl⟩ | ⟨_, _, rfl⟩ | ⟨_, _, rfl⟩
  · exact wf_of (w1 _ hm)
  · exact wf_of (w2 _ hm)
  · exact wf_of (w3 _ hm)
  · exact wf_of (w4 _ hm)

theorem inOrder_iff (ls ks : List (List Char)) : inOrder ls ks = true ↔ ∃ r, ks = ls ++ r := by
  induction ls generalizing ks with
  | nil => simp [inOrder]
  | cons l ls ih =>
    cases ks with
    | nil => simp [inOrder]
    | cons k ks =>
      simp only [inOrder, Bool.and_eq_true, beq_iff_eq, ih, List.cons_append, List.cons.injEq]
      constructor
      · rintro ⟨rfl, r, rfl⟩; exact ⟨r, rfl, rfl⟩
      · rintro ⟨r, rfl, rfl⟩; exact ⟨rfl, r, rfl⟩

theorem sublist_filter {own all : List (List Char)} (h : own.Sublist all) (hn : all.Nodup) : all.filter (fun l => decide (l ∈ own)) = own := by
  induction h with
  | slnil => rfl
  | cons a h ih =>
    simp only [List.nodup_cons] at hn
    rw [List.filter_cons, if_neg (by simpa using fun hc => hn.1 (h.subset hc)), ih hn.2]
  | cons_cons a h ih =>
    simp only [List.nodup_cons] at hn
    rw [List.filter_cons, if_pos (by simp)]
    congr 1
    rw [← ih hn.2]
    apply List.filter_congr
    intro x hx
    have : x ≠ a := fun e => hn.1 (e ▸ hx)
    rw [ih hn.2]
    simp [this]

theorem fieldsOk_iff {fd : FieldDom} (hw : Wf fd) {keys : List (List Char)} (hn : keys.Nodup) : fieldsOk fd keys = true ↔ Shape fd keys := by
  have hs : ∀ l, l ∈ (keys.filter fun l => decide (l ∉ (fd.labels).filter (fun l => decide (l ∉ fd.opts)) ∧ l ∉ keys.filter fun l => decide (l ∉ fd.labels))) ↔
      l ∈ keys ∧ l ∈ fd.opts := by
    intro l
    simp only [List.mem_filter, decide_eq_true_eq]
    constructor
    · rintro ⟨h1, h2, h3⟩
      refine ⟨h1, ?_⟩
      have hl : l ∈ fd.labels := by
        apply Classical.byContradiction
        intro hc; exact h3 ⟨h1, hc⟩
      apply Classical.byContradiction
      intro hc; exact h2 ⟨hl, hc⟩
    · rintro ⟨h1, h2⟩
      exact ⟨h1, fun h => h.2 h2, fun h => h.2 (hw.opts l h2)⟩
  unfold fieldsOk
  show ((!(!(keys.filter fun l => decide (l ∉ fd.labels)).isEmpty && fd.strict)) && _ && _) = true ↔ _
  rw [Bool.and_eq_true, Bool.and_eq_true, inOrder_iff]
  have hsa : ∀ l, l ∈ (fd.labels.filter fun l => decide (¬ (l ∈ fd.opts ∧ l ∉ (keys.filter fun l => decide (l ∉ (fd.labels).filter (fun l => decide (l ∉ fd.opts)) ∧ l ∉ keys.filter fun l => decide (l ∉ fd.labels)))))) ↔
      l ∈ fd.labels ∧ (l ∈ fd.opts → l ∈ keys) := by
    intro l
    rw [List.mem_filter, decide_eq_true_eq, hs]
    constructor
    · rintro ⟨h1, h2⟩
      refine ⟨h1, fun ho => ?_⟩
      apply Classical.byContradiction
      intro hc; exact h2 ⟨ho, fun h => hc h.1⟩
    · rintro ⟨h1, h2⟩
      exact ⟨h1, fun h => h.2 ⟨h2 h.1, h.1⟩⟩
  constructor
  · rintro ⟨⟨h1, h2⟩, r, hr⟩
    have hr' : keys = (fd.labels.filter fun l => decide (¬ (l ∈ fd.opts ∧ l ∉ (keys.filter fun l => decide (l ∉ (fd.labels).filter (fun l => decide (l ∉ fd.opts)) ∧ l ∉ keys.filter fun l => decide (l ∉ fd.labels)))))) ++ r := hr
    generalize hsal : (fd.labels.filter fun l => decide (¬ (l ∈ fd.opts ∧ l ∉ (keys.filter fun l => decide (l ∉ (fd.labels).filter (fun l => decide (l ∉ fd.opts)) ∧ l ∉ keys.filter fun l => decide (l ∉ fd.labels)))))) = sal at hr' hsa
    have hext : ∀ l ∈ r, l ∉ fd.labels := by
      intro l hl hc
      have hk : l ∈ keys := by rw [hr']; simp [hl]
      have : l ∈ sal := (hsa l).2 ⟨hc, fun _ => hk⟩
      rw [hr', List.nodup_append] at hn
      exact hn.2.2 l this l hl rfl
    refine ⟨sal, r, hr', ?_, ?_, hext, ?_, ?_⟩
    · rw [← hsal]; exact List.filter_sublist
    · intro l hl ho
      exact (hsa l).2 ⟨hl, fun h => absurd h ho⟩
    · intro hst
      cases r with
      | nil => rfl
      | cons l r =>
        have hm : l ∈ keys.filter fun l => decide (l ∉ fd.labels) := by
          rw [List.mem_filter, decide_eq_true_eq]
          exact ⟨by rw [hr']; simp, hext l (by simp)⟩
        generalize (keys.filter fun l => decide (l ∉ fd.labels)) = e at h1 hm
        cases e with
        | nil => simp at hm
        | cons a e => simp [hst] at h1
    · rintro p hp ⟨hp1, hp2⟩
      rw [List.all_eq_true] at h2
      have h2 := h2 p hp
      have q1 := (hs p.1).2 ⟨by rw [hr']; simp [hp1], (hw.alts p hp).1⟩
      have q2 := (hs p.2).2 ⟨by rw [hr']; simp [hp2], (hw.alts p hp).2⟩
      rw [Bool.not_eq_true', Bool.and_eq_false_iff, decide_eq_false_iff_not, decide_eq_false_iff_not] at h2
      rcases h2 with h2 | h2
      · exact h2 q1
      · exact h2 q2
  · rintro ⟨own, ext, he, hsub, hreq, hext, hst, halt⟩
    refine ⟨⟨?_, ?_⟩, ext, ?_⟩
    · cases hstr : fd.strict with
      | false => simp
      | true =>
        have : (keys.filter fun l => decide (l ∉ fd.labels)) = [] := by
          rw [List.filter_eq_nil_iff]
          intro l hl
          rw [he, hst hstr, List.append_nil] at hl
          simpa using hsub.subset hl
        rw [this]; rfl
    · rw [List.all_eq_true]
      intro p hp
      rw [Bool.not_eq_true', Bool.and_eq_false_iff, decide_eq_false_iff_not, decide_eq_false_iff_not]
      have hin : ∀ l, l ∈ fd.opts → l ∈ keys → l ∈ own := by
        intro l ho hk
        rw [he, List.mem_append] at hk
        exact hk.resolve_right (fun hc => hext l hc (hw.opts l ho))
      by_cases q : p.1 ∈ own
      · right
        intro hc
        have := (hs p.2).1 hc
        exact halt p hp ⟨q, hin _ this.2 this.1⟩
      · left
        intro hc
        have := (hs p.1).1 hc
        exact q (hin _ this.2 this.1)
    · show keys = (fd.labels.filter fun l => decide (¬ (l ∈ fd.opts ∧ l ∉ (keys.filter fun l => decide (l ∉ (fd.labels).filter (fun l => decide (l ∉ fd.opts)) ∧ l ∉ keys.filter fun l => decide (l ∉ fd.labels)))))) ++ ext
      have : (fd.labels.filter fun l => decide (¬ (l ∈ fd.opts ∧ l ∉ (keys.filter fun l => decide (l ∉ (fd.labels).filter (fun l => decide (l ∉ fd.opts)) ∧ l ∉ keys.filter fun l => decide (l ∉ fd.labels)))))) = own := by
        refine Eq.trans ?_ (sublist_filter hsub hw.nodup)
        apply List.filter_congr
        intro l hl
        have q := hsa l
        rw [List.mem_filter] at q
        simp only [hl, true_and] at q
        rw [Bool.eq_iff_iff, q, decide_eq_true_eq]
        constructor
        · intro h
          by_cases ho : l ∈ fd.opts
          · have := h ho
            rw [he, List.mem_append] at this
            exact this.resolve_right (fun hc => hext l hc hl)
          · exact hreq l hl ho
        · intro h _
          rw [he]; simp [h]
      rw [this, ← he]

end Verif.Ser
