import Verif.Ser.FieldLemmas

/-! # Said fields of messages: dummies and digests -/

namespace Verif.Ser

open Verif.B64 Verif.Matter
open Verif.Mad hiding Kind verify makify Digested Collision
open Verif.Prs (Proto Kind Smellage asc chars versify deversify smell sniff)

/-- The code of the digest that goes in the field. -/
def digCode (s : Saids) (l : List Char) : Option (List Char) :=
  match getKey s l with
  | some c => if c ∈ digDex then some c else none
  | none => none

theorem digCode_cons (l c : List Char) (s : Saids) (k : List Char) :
    digCode ((l, c) :: s) k = if l = k then (if c ∈ digDex then some c else none) else digCode s k := by
  unfold digCode
  rw [getKey_cons]
  by_cases h : l = k <;> simp [h]

theorem digCode_not {s : Saids} {l : List Char} (h : l ∉ s.map (·.1)) : digCode s l = none := by
  unfold digCode; rw [getKey_none.2 h]

/-- A field with what the digest function gives, or as it is. -/
def fill (f : List Char → List Char) (s : Saids) (sad : Flds) (k : List Char) : Option Val :=
  match digCode s k with
  | some c => some (.text (f c))
  | none => getKey sad k

/-- The effect of filling fields one after another. -/
def Filled (f : List Char → List Char) (s : Saids) (sad sad' : Flds) : Prop :=
  sad'.map (·.1) = sad.map (·.1) ∧ Dict sad' ∧ ∀ k, getKey sad' k = fill f s sad k

theorem filled_cons {f : List Char → List Char} {l c : List Char} {s : Saids} {sad sad' : Flds} (hd : Dict sad) (hl : l ∈ sad.map (·.1)) (hn : l ∉ s.map (·.1))
    (h : Filled f s (if c ∈ digDex then setField sad l (.text (f c)) else sad) sad') : Filled f ((l, c) :: s) sad sad' := by
  obtain ⟨h1, h2, h3⟩ := h
  refine ⟨?_, h2, ?_⟩
  · rw [h1]; split
    · exact keys_setField _ hl
    · rfl
  · intro k
    rw [h3]
    unfold fill
    rw [digCode_cons]
    by_cases hk : l = k
    · subst hk
      rw [digCode_not hn, if_pos rfl]
      by_cases hc : c ∈ digDex
      · simp only [if_pos hc]; rw [getKey_setField, if_pos rfl]
      · simp only [if_neg hc]
    · rw [if_neg hk]
      split
      · rfl
      · split
        · rw [getKey_setField, if_neg (fun e => hk e.symm)]
        · rfl

theorem putDigests_filled (lib : Lib) (ser : List Char) (f : List Char → List Char) (hf : ∀ c t, digestOf lib.world c ser = .ok t → f c = t) :
    ∀ (s : Saids) (sad sad' : Flds), Dict sad → (s.map (·.1)).Nodup → (∀ l ∈ s.map (·.1), l ∈ sad.map (·.1)) → putDigests lib ser s sad = .ok sad' →
    Filled f s sad sad' ∧ ∀ p ∈ s, p.2 ∈ digDex → digestOf lib.world p.2 ser = .ok (f p.2) := by
  intro s
  induction s with
  | nil =>
    intro sad sad' hd _ _ h
    simp only [putDigests, Except.ok.injEq] at h
    subst h
    exact ⟨⟨rfl, hd, fun k => rfl⟩, by simp⟩
  | cons p s ih =>
    obtain ⟨l, c⟩ := p
    intro sad sad' hd hn hl h
    simp only [List.map_cons, List.nodup_cons] at hn
    have hl0 := hl l (by simp)
    simp only [putDigests] at h
    by_cases hc : c ∈ digDex
    · rw [if_pos hc] at h
      split at h
      · exact absurd h (by simp)
      next said hs =>
      have e := hf c said hs
      subst e
      obtain ⟨h1, h2⟩ := ih _ _ (dict_setField hd _ _) hn.2 (fun k hk => (mem_keys_setField _ _ _ _).2 (.inr (hl k (by simp [List.mem_map] at hk ⊢; exact .inr hk)))) h
      refine ⟨filled_cons hd hl0 hn.1 (by rw [if_pos hc]; exact h1), ?_⟩
      intro q hq hqc
      rcases List.mem_cons.1 hq with rfl | hq
      · exact hs
      · exact h2 q hq hqc
    · rw [if_neg hc] at h
      obtain ⟨h1, h2⟩ := ih _ _ hd hn.2 (fun k hk => hl k (by simp [List.mem_map] at hk ⊢; exact .inr hk)) h
      refine ⟨filled_cons hd hl0 hn.1 (by rw [if_neg hc]; exact h1), ?_⟩
      intro q hq hqc
      rcases List.mem_cons.1 hq with rfl | hq
      · exact absurd hqc hc
      · exact h2 q hq hqc

theorem putDigests_total (lib : Lib) (ser : List Char) :
    ∀ (s : Saids) (sad : Flds), (∀ p ∈ s, p.2 ∈ digDex → ∃ t, digestOf lib.world p.2 ser = .ok t) → ∃ sad', putDigests lib ser s sad = .ok sad' := by
  intro s
  induction s with
  | nil => intro sad _; exact ⟨sad, rfl⟩
  | cons p s ih =>
    obtain ⟨l, c⟩ := p
    intro sad h
    simp only [putDigests]
    by_cases hc : c ∈ digDex
    · obtain ⟨t, ht⟩ := h (l, c) (by simp) hc
      rw [if_pos hc]
      simp only at ht
      rw [ht]
      exact ih _ (fun q hq => h q (List.mem_cons_of_mem _ hq))
    · rw [if_neg hc]
      exact ih _ (fun q hq => h q (by simp [hq]))

/-- serdering.py:1054-1060, the code of a said field. -/
def pickOf (saids : Saids) (v : Option Val) (l d : List Char) : List Char :=
  match getKey saids l with
  | some c => c
  | none => match codeAt v with
    | some (c, _) => c
    | none => d

theorem pickSaids_filled (o : Saids) : ∀ (ss : Saids) (sad sad' : Flds) (s : Saids), Dict sad → (ss.map (·.1)).Nodup → (∀ l ∈ ss.map (·.1), l ∈ sad.map (·.1)) →
    pickSaids o ss sad = (sad', s) → s.map (·.1) = ss.map (·.1) ∧ Filled dummyOf s sad sad' ∧
    ∀ p ∈ ss, getKey s p.1 = some (pickOf o (getKey sad p.1) p.1 p.2) := by
  intro ss
  induction ss with
  | nil =>
    intro sad sad' s hd _ _ h
    simp only [pickSaids, Prod.mk.injEq] at h
    obtain ⟨rfl, rfl⟩ := h
    exact ⟨rfl, ⟨rfl, hd, fun k => rfl⟩, by simp⟩
  | cons p ss ih =>
    obtain ⟨l, d⟩ := p
    intro sad sad' s hd hn hl h
    simp only [List.map_cons, List.nodup_cons] at hn
    have hl0 := hl l (by simp)
    have hl1 : ∀ k ∈ ss.map (·.1), k ∈ sad.map (·.1) := fun k hk => hl k (by simp [List.mem_map] at hk ⊢; exact .inr hk)
    have h : (match pickSaids o ss (if pickOf o (getKey sad l) l d ∈ digDex then setField sad l (.text (dummyOf (pickOf o (getKey sad l) l d))) else sad) with
      | (sad', s) => (sad', (l, pickOf o (getKey sad l) l d) :: s)) = (sad', s) := h
    generalize hc : pickOf o (getKey sad l) l d = c at h
    generalize hr : pickSaids o ss (if c ∈ digDex then setField sad l (.text (dummyOf c)) else sad) = r at h
    obtain ⟨sad1, s1⟩ := r
    simp only [Prod.mk.injEq] at h
    obtain ⟨rfl, rfl⟩ := h
    have hd1 : Dict (if c ∈ digDex then setField sad l (.text (dummyOf c)) else sad) := by
      split
      · exact dict_setField hd _ _
      · exact hd
    obtain ⟨h1, h2, h3⟩ := ih _ _ _ hd1 hn.2 (by
      intro k hk
      split
      · exact (mem_keys_setField _ _ _ _).2 (.inr (hl1 k hk))
      · exact hl1 k hk) hr
    refine ⟨by simp [h1], filled_cons hd hl0 (by rw [h1]; exact hn.1) h2, ?_⟩
    intro q hq
    rcases List.mem_cons.1 hq with rfl | hq
    · rw [getKey_cons, if_pos rfl, hc]
    · have hne : l ≠ q.1 := fun e => hn.1 (e ▸ List.mem_map.2 ⟨q, hq, rfl⟩)
      rw [getKey_cons, if_neg hne, h3 q hq]
      congr 2
      split
      · rw [getKey_setField, if_neg (fun e => hne e.symm)]
      · rfl

/-- `readSaids` on fields that hold primitives. -/
theorem readSaids_facts : ∀ (ss : Saids) (sad sad' : Flds) (s : Saids), Dict sad → (ss.map (·.1)).Nodup → (∀ p ∈ ss, p.2 ∈ digDex) →
    readSaids ss sad = .ok (sad', s) →
    s.map (·.1) = ss.map (·.1) ∧ sad'.map (·.1) = sad.map (·.1) ∧ Dict sad' ∧
    (∀ l ∈ ss.map (·.1), ∃ c t, codeAt (getKey sad l) = some (c, t) ∧ getKey s l = some c ∧
      getKey sad' l = if c ∈ digDex then some (.text (List.replicate t.length '#')) else getKey sad l) ∧
    (∀ l, l ∉ ss.map (·.1) → getKey sad' l = getKey sad l) := by
  intro ss
  induction ss with
  | nil =>
    intro sad sad' s hd _ _ h
    simp only [readSaids, Except.ok.injEq, Prod.mk.injEq] at h
    obtain ⟨rfl, rfl⟩ := h
    exact ⟨rfl, rfl, hd, by simp, fun l _ => rfl⟩
  | cons p ss ih =>
    obtain ⟨l, d⟩ := p
    intro sad sad' s hd hn hdig h
    simp only [List.map_cons, List.nodup_cons] at hn
    simp only [readSaids] at h
    split at h
    · rw [if_pos (hdig (l, d) (by simp))] at h
      exact absurd h (by simp)
    next c t hct =>
    split at h
    · exact absurd h (by simp)
    next sad1 s1 hr =>
    simp only [Except.ok.injEq, Prod.mk.injEq] at h
    obtain ⟨rfl, rfl⟩ := h
    have hd1 : Dict (if c ∈ digDex then setField sad l (.text (List.replicate t.length '#')) else sad) := by
      split
      · exact dict_setField hd _ _
      · exact hd
    have hl0 : l ∈ sad.map (·.1) := by
      cases hg : getKey sad l with
      | none => rw [hg] at hct; simp [codeAt] at hct
      | some v => exact List.mem_map.2 ⟨_, getKey_mem hg, rfl⟩
    obtain ⟨h1, h2, h3, h4, h5⟩ := ih _ _ _ hd1 hn.2 (fun q hq => hdig q (by simp [hq])) hr
    have hother : ∀ k, k ≠ l → getKey (if c ∈ digDex then setField sad l (.text (List.replicate t.length '#')) else sad) k = getKey sad k := by
      intro k hk
      split
      · rw [getKey_setField, if_neg hk]
      · rfl
    refine ⟨by simp [h1], ?_, h3, ?_, ?_⟩
    · rw [h2]; split
      · exact keys_setField _ hl0
      · rfl
    · intro k hk
      simp only [List.map_cons, List.mem_cons] at hk
      by_cases hkl : k = l
      · subst hkl
        refine ⟨c, t, hct, by rw [getKey_cons, if_pos rfl], ?_⟩
        rw [h5 _ hn.1]
        split
        · rw [getKey_setField, if_pos rfl]
        · rfl
      · obtain ⟨c', t', q1, q2, q3⟩ := h4 k (hk.resolve_left hkl)
        rw [hother k hkl] at q1 q3
        exact ⟨c', t', q1, by rw [getKey_cons, if_neg (fun e => hkl e.symm), q2], q3⟩
    · intro k hk
      simp only [List.map_cons, List.mem_cons, not_or] at hk
      rw [h5 k hk.2, hother k hk.1]

theorem readSaids_total : ∀ (ss : Saids) (sad : Flds), (ss.map (·.1)).Nodup → (∀ l ∈ ss.map (·.1), ∃ c t, codeAt (getKey sad l) = some (c, t)) →
    ∃ r, readSaids ss sad = .ok r := by
  intro ss
  induction ss with
  | nil => intro sad _ _; exact ⟨_, rfl⟩
  | cons p ss ih =>
    obtain ⟨l, d⟩ := p
    intro sad hn h
    simp only [List.map_cons, List.nodup_cons] at hn
    obtain ⟨c, t, hct⟩ := h l (by simp)
    simp only [readSaids, hct]
    obtain ⟨⟨sad', s'⟩, hr⟩ := ih (if c ∈ digDex then setField sad l (.text (List.replicate t.length '#')) else sad) hn.2 (by
      intro k hk
      have hkl : k ≠ l := fun e => hn.1 (e ▸ hk)
      obtain ⟨c', t', q⟩ := h k (by simp [List.mem_map] at hk ⊢; exact .inr hk)
      refine ⟨c', t', ?_⟩
      split
      · rw [getKey_setField, if_neg hkl, q]
      · exact q)
    rw [hr]
    exact ⟨_, rfl⟩

/-! ## Lengths of JSON -/

theorem esc_bare {t : List Char} (h : Bare t) : escText t = t ++ ['"'] := by
  induction t with
  | nil => rfl
  | cons c t ih =>
    rw [escText, h c (by simp), ih (fun x hx => h x (by simp [hx]))]; rfl

theorem sameLen_json {v w : Val} (h : SameLen v w) : (jsonV v).length = (jsonV w).length := by
  rcases h with rfl | ⟨t, u, rfl, rfl, hl, ht, hu⟩
  · rfl
  · simp [jsonV, jsonText, esc_bare ht, esc_bare hu, hl]

theorem similar_json {a b : Flds} (h : Similar a b) (first : Bool) : (jsonM first a).length = (jsonM first b).length := by
  induction h generalizing first with
  | nil => rfl
  | cons l hv _ ih => simp [jsonM, sameLen_json hv, ih]

/-- The length of JSON does not depend on which texts of a given length are in it. -/
theorem json_steady (lib : Lib) (a : Attrs) (h : a.kind = .json) : Steady (dumps lib a) := by
  intro x y p q hs hp hq
  unfold dumps at hp hq
  rw [h] at hp hq
  simp only [Except.ok.injEq] at hp hq
  rw [← hp, ← hq]
  simp [json, jsonV, similar_json hs]

theorem similar_refl (a : Flds) : Similar a a := by
  induction a with
  | nil => exact .nil
  | cons p a ih => exact .cons p.1 (.inl rfl) ih

theorem similar_set {a : Flds} {l : List Char} {v w : Val} (h : getKey a l = some v) (hs : SameLen v w) : Similar a (setField a l w) := by
  induction a with
  | nil => simp [getKey] at h
  | cons p a ih =>
    obtain ⟨k, u⟩ := p
    rw [getKey_cons] at h
    simp only [setField]
    by_cases hk : k = l
    · rw [if_pos hk]
      rw [if_pos hk] at h
      injection h with h
      subst h
      exact .cons k hs (similar_refl a)
    · rw [if_neg hk]
      rw [if_neg hk] at h
      exact .cons k (.inl rfl) (ih h)

/-- By labels and values. -/
theorem similar_get {a b : Flds} (ha : Dict a) (hk : a.map (·.1) = b.map (·.1))
    (hg : ∀ l v w, getKey a l = some v → getKey b l = some w → SameLen v w) : Similar a b := by
  induction a generalizing b with
  | nil => cases b with
    | nil => exact .nil
    | cons q b => simp at hk
  | cons p a ih =>
    cases b with
    | nil => simp at hk
    | cons q b =>
      obtain ⟨m, v⟩ := p
      obtain ⟨n, w⟩ := q
      simp only [List.map_cons, List.cons.injEq] at hk
      obtain ⟨rfl, hk⟩ := hk
      unfold Dict at ha
      simp only [List.map_cons, List.nodup_cons] at ha
      refine .cons m (hg m v w (by rw [getKey_cons, if_pos rfl]) (by rw [getKey_cons, if_pos rfl])) (ih ha.2 hk ?_)
      intro l x y hx hy
      have hl : m ≠ l := by
        rintro rfl
        rw [getKey_none.2 ha.1] at hx
        simp at hx
      exact hg l x y (by rw [getKey_cons, if_neg hl]; exact hx) (by rw [getKey_cons, if_neg hl]; exact hy)

/-! ## Digests as primitives -/

theorem dummyOf_len {code : List Char} (h : code ∈ digDex) : ∃ n, dummyOf code = List.replicate n '#' ∧ (sizes? code).bind (·.fs) = some n := by
  have : ∀ c ∈ digDex, ((sizes? c).bind (·.fs)).isSome = true := by decide +kernel
  have := this code h
  unfold dummyOf
  cases hs : sizes? code with
  | none => rw [hs] at this; simp at this
  | some sz =>
    rw [hs] at this
    simp only [Option.bind_some] at this
    cases hf : sz.fs with
    | none => rw [hf] at this; simp at this
    | some n => exact ⟨n, by simp [hf], by simp [hf]⟩

theorem digest_len {lib : Lib} (hw : DigestsOk lib) {code ser t : List Char} (h : digestOf lib.world code ser = .ok t) :
    List.replicate t.length '#' = dummyOf code ∧ codeAt (some (.text t)) = some (code, t) := by
  obtain ⟨m, h1, h2, h3, h4, h5⟩ := digest_facts hw h
  refine ⟨?_, by simp [codeAt, h5, h2]⟩
  have this := h1.take []
  rw [List.append_nil] at this
  unfold takeMat at this
  rw [h5] at this
  simp only at this
  obtain ⟨k, sz, mat, r, c⟩ := (exfil_ok_iff _ m).1 h5
  have hfs := fullSize_valid c.size c.framed
  rw [hfs] at this
  simp only [Except.ok.injEq, Prod.mk.injEq, true_and] at this
  have hbl := both_length (wf_of_sizes c.size) c.softLen
  have hcl := c.len
  have q1 : t.length = k + r.length := by rw [c.text]; simp; omega
  have q2 := congrArg List.length this
  simp only [List.length_drop, List.length_nil] at q2
  obtain ⟨n, e1, e2⟩ := dummyOf_len h4
  have hk : t.length = k := by omega
  unfold fullSize at hfs
  rw [c.size] at hfs
  rw [← h2, c.size] at e2
  simp only [Option.bind_some] at e2
  simp only [e2, Except.ok.injEq] at hfs
  rw [e1, hk, hfs]

end Verif.Ser
