import Verif.Mad.SaidSpec
import Verif.Mad.Enough

/-! # Lemmas about SAIDs of field maps -/

namespace Verif.Mad

open Verif.B64 Verif.Matter

section Dict
variable {α : Type}

theorem getKey_cons (p : List Char × α) (d : List (List Char × α)) (l : List Char) :
    getKey (p :: d) l = if p.1 = l then some p.2 else getKey d l := by
  unfold getKey
  obtain ⟨k, v⟩ := p
  rw [List.lookup_cons]
  by_cases h : l = k
  · simp [h]
  · have : (l == k) = false := by simpa using h
    rw [this, if_neg (fun e => h e.symm)]

theorem getKey_none {d : List (List Char × α)} {l : List Char} : getKey d l = none ↔ l ∉ d.map (·.1) := by
  induction d with
  | nil => simp [getKey]
  | cons p d ih =>
    rw [getKey_cons]
    by_cases h : p.1 = l
    · simp [h]
    · rw [if_neg h, ih]
      simp only [List.map_cons, List.mem_cons, not_or]
      exact ⟨fun k => ⟨fun e => h e.symm, k⟩, fun k => k.2⟩

theorem getKey_mem {d : List (List Char × α)} {l : List Char} {v : α} (h : getKey d l = some v) : (l, v) ∈ d := mem_of_lookup h

theorem getKey_of_mem {d : List (List Char × α)} (hn : (d.map (·.1)).Nodup) {l : List Char} {v : α} (h : (l, v) ∈ d) : getKey d l = some v := by
  induction d with
  | nil => simp at h
  | cons p d ih =>
    rw [getKey_cons]
    simp only [List.map_cons, List.nodup_cons] at hn
    rcases List.mem_cons.1 h with e | e
    · rw [← e]; simp
    · rw [if_neg, ih hn.2 e]
      rintro rfl
      exact hn.1 (List.mem_map.2 ⟨_, e, rfl⟩)

theorem getKey_map (d : List (List Char × α)) {β : Type} (f : List Char → α → β) (l : List Char) :
    getKey (d.map fun (p : List Char × α) => (p.1, f p.1 p.2)) l = (getKey d l).map (f l) := by
  induction d with
  | nil => rfl
  | cons p d ih =>
    rw [List.map_cons, getKey_cons, getKey_cons, ih]
    by_cases h : p.1 = l
    · simp [h]
    · simp [h]

end Dict

theorem keys_map {α β : Type} (d : List (List Char × α)) (f : List Char → α → β) :
    (d.map fun (p : List Char × α) => (p.1, f p.1 p.2)).map (·.1) = d.map (·.1) := by simp [Function.comp_def]

theorem setCode_eq (saids : Saids) (l c : List Char) :
    setCode saids l c = saids.map fun (p : List Char × List Char) => (p.1, if p.1 = l then c else p.2) := by
  unfold setCode
  apply List.map_congr_left
  rintro ⟨k, v⟩ _
  dsimp only
  by_cases h : k = l <;> simp [h]

theorem setCode_get (saids : Saids) (l c k : List Char) (h : k ≠ l) : getKey (setCode saids l c) k = getKey saids k := by
  rw [setCode_eq, getKey_map saids (fun k' v => if k' = l then c else v)]
  simp [h]

theorem setCode_keys (saids : Saids) (l c : List Char) : (setCode saids l c).map (·.1) = saids.map (·.1) := by
  rw [setCode_eq, keys_map saids (fun k' v => if k' = l then c else v)]

theorem setField_map (fs : Flds) (l : List Char) (v : Val) (hn : (fs.map (·.1)).Nodup) (h : l ∈ fs.map (·.1)) :
    setField fs l v = fs.map fun (p : List Char × Val) => (p.1, if p.1 = l then v else p.2) := by
  induction fs with
  | nil => simp at h
  | cons p r ih =>
    obtain ⟨k, w⟩ := p
    simp only [List.map_cons, List.nodup_cons] at hn
    simp only [setField, List.map_cons]
    by_cases e : k = l
    · rw [if_pos e, if_pos e]
      congr 1
      conv => lhs; rw [← List.map_id r]
      apply List.map_congr_left
      rintro ⟨k', w'⟩ hm
      have : k' ≠ l := by
        rintro rfl
        exact hn.1 (e ▸ List.mem_map.2 ⟨_, hm, rfl⟩)
      simp [this]
    · rw [if_neg e, if_neg e, ih hn.2]
      rcases List.mem_cons.1 h with h | h
      · exact absurd h.symm e
      · exact h

/-- The code used for a said field, if it is there. -/
def pickCode (o : Option Val) (c : List Char) : List Char :=
  match o with
  | some v => codeOf c v
  | none => c

/-- The codes used in the end. -/
def finalCodes (saids : Saids) (mad : Flds) : Saids :=
  saids.map fun (p : List Char × List Char) => (p.1, pickCode (getKey mad p.1) p.2)

theorem finalCodes_get (saids : Saids) (mad : Flds) (l : List Char) :
    getKey (finalCodes saids mad) l = (getKey saids l).map fun c => pickCode (getKey mad l) c := by
  unfold finalCodes
  rw [getKey_map saids (fun k c => pickCode (getKey mad k) c)]

theorem finalCodes_keys (saids : Saids) (mad : Flds) : (finalCodes saids mad).map (·.1) = saids.map (·.1) := by
  unfold finalCodes
  rw [keys_map saids (fun k c => pickCode (getKey mad k) c)]

theorem dummyFlds_codes (strict : Bool) : ∀ (fs : Flds) (saids s : Saids) (b : List Char), (fs.map (·.1)).Nodup →
    (saids.map (·.1)).Nodup → dummyFlds strict saids fs = .ok (b, s) → s = finalCodes saids fs := by
  intro fs
  induction fs with
  | nil =>
    intro saids s b _ _ h
    simp only [dummyFlds, Except.ok.injEq, Prod.mk.injEq] at h
    rw [← h.2]
    unfold finalCodes
    simp [getKey, pickCode]
  | cons p fs ih =>
    obtain ⟨l, v⟩ := p
    intro saids s b hn hs h
    simp only [List.map_cons, List.nodup_cons] at hn
    simp only [dummyFlds] at h
    split at h
    · exact absurd h (by simp)
    split at h
    · next hg =>
      split at h
      · exact absurd h (by simp)
      split at h
      · exact absurd h (by simp)
      next b' s' hd =>
      simp only [Except.ok.injEq, Prod.mk.injEq] at h
      rw [← h.2, ih saids s' b' hn.2 hs hd]
      unfold finalCodes
      apply List.map_congr_left
      rintro ⟨k, c⟩ hk
      have : l ≠ k := by
        rintro rfl
        exact getKey_none.1 hg (List.mem_map.2 ⟨_, hk, rfl⟩)
      dsimp only
      rw [getKey_cons, if_neg this]
    · next d hg =>
      split at h
      · exact absurd h (by simp)
      split at h
      · exact absurd h (by simp)
      next b' s' hd =>
      simp only [Except.ok.injEq, Prod.mk.injEq] at h
      rw [← h.2, ih _ s' b' hn.2 (by rw [setCode_keys]; exact hs) hd]
      unfold finalCodes
      rw [setCode_eq, List.map_map]
      apply List.map_congr_left
      rintro ⟨k, c⟩ hk
      simp only [Function.comp]
      rw [getKey_cons]
      by_cases e : l = k
      · subst e
        have : getKey fs l = none := getKey_none.2 hn.1
        have hc : getKey saids l = some c := getKey_of_mem hs hk
        rw [hg] at hc
        injection hc with hc
        simp [this, hc, pickCode]
      · have : k ≠ l := fun x => e x.symm
        simp [e, this]

/-- Fields alike for the computation of said dummies. -/
def Alike (saids : Saids) (p q : List Char × Val) : Prop :=
  p.1 = q.1 ∧ (∀ d, getKey saids p.1 = some d → codeOf d q.2 = codeOf d p.2) ∧ (getKey saids p.1 = none → q.2 = p.2)

inductive AllAlike (saids : Saids) : Flds → Flds → Prop
  | nil : AllAlike saids [] []
  | cons {p q : List Char × Val} {fs gs : Flds} : Alike saids p q → AllAlike saids fs gs → AllAlike saids (p :: fs) (q :: gs)

theorem dummyFlds_alike (strict : Bool) : ∀ (fs gs : Flds) (saids : Saids), (fs.map (·.1)).Nodup → AllAlike saids fs gs →
    dummyFlds strict saids gs = dummyFlds strict saids fs := by
  intro fs
  induction fs with
  | nil => intro gs saids _ h; cases h; rfl
  | cons p fs ih =>
    obtain ⟨l, v⟩ := p
    intro gs saids hn h
    cases h with
    | @cons _ q _ gs' hp hr =>
      obtain ⟨k, u⟩ := q
      obtain ⟨h1, h2, h3⟩ := hp
      dsimp only at h1 h2 h3
      subst h1
      simp only [List.map_cons, List.nodup_cons] at hn
      simp only [dummyFlds]
      cases hg : getKey saids l with
      | none =>
        have := h3 hg
        subst this
        simp only [ih gs' saids hn.2 hr]
      | some d =>
        have := h2 d hg
        simp only [this]
        rw [ih gs' (setCode saids l (codeOf d v)) hn.2]
        clear ih
        induction hr with
        | nil => exact .nil
        | @cons a b fs' gs'' ha _ ih2 =>
          have hal : a.1 ≠ l := by
            rintro e
            exact hn.1 (by simp [e])
          refine .cons ⟨ha.1, ?_, ?_⟩ (ih2 ⟨fun hm => hn.1 (by simp only [List.map_cons, List.mem_cons]; exact .inr hm), (List.nodup_cons.1 hn.2).2⟩)
          · rw [setCode_get _ _ _ _ hal]; exact ha.2.1
          · rw [setCode_get _ _ _ _ hal]; exact ha.2.2

/-- What the value of a field becomes. -/
def dummyVal (o : Option (List Char)) (v : Val) : Val :=
  match o with
  | some d => .text (dummyOf (codeOf d v))
  | none => v

theorem dummyMad_eq : ∀ (ls : List (List Char)) (saids s : Saids) (mad mad' : Flds), ls.Nodup → (mad.map (·.1)).Nodup → (saids.map (·.1)).Nodup →
    dummyMad ls saids mad = .ok (mad', s) →
    mad' = (mad.map fun (p : List Char × Val) => (p.1, if p.1 ∈ ls then dummyVal (getKey saids p.1) p.2 else p.2)) ∧
    s = (saids.map fun (p : List Char × List Char) => (p.1, if p.1 ∈ ls then pickCode (getKey mad p.1) p.2 else p.2)) ∧
    ∀ l ∈ ls, ∀ v d, getKey mad l = some v → getKey saids l = some d → codeOf d v ∈ digDex := by
  intro ls
  induction ls with
  | nil =>
    intro saids s mad mad' _ _ _ h
    simp only [dummyMad, Except.ok.injEq, Prod.mk.injEq] at h
    simp [h.1, h.2]
  | cons l ls ih =>
    intro saids s mad mad' hn hm hs h
    simp only [List.nodup_cons] at hn
    simp only [dummyMad] at h
    split at h
    · next v d hv hd =>
      split at h
      · exact absurd h (by simp)
      next hdig =>
      simp only [Decidable.not_not] at hdig
      have hlm : l ∈ mad.map (·.1) := List.mem_map.2 ⟨_, getKey_mem hv, rfl⟩
      have hsf := setField_map mad l (.text (dummyOf (codeOf d v))) hm hlm
      obtain ⟨i1, i2, i3⟩ := ih _ s _ mad' hn.2 (by rw [hsf]; simpa [Function.comp_def] using hm) (by rw [setCode_keys]; exact hs) h
      refine ⟨?_, ?_, ?_⟩
      · rw [i1, hsf, List.map_map]
        apply List.map_congr_left
        rintro ⟨k, u⟩ hk
        simp only [Function.comp]
        by_cases e : k = l
        · subst e
          have hu : getKey mad k = some u := getKey_of_mem hm hk
          rw [hv] at hu
          injection hu with hu
          simp [hn.1, hd, hu, dummyVal]
        · simp only [e, if_false, List.mem_cons, false_or]
          rw [setCode_get _ _ _ _ e]
      · rw [i2, setCode_eq, List.map_map]
        apply List.map_congr_left
        rintro ⟨k, c⟩ hk
        simp only [Function.comp]
        by_cases e : k = l
        · subst e
          have hu : getKey saids k = some c := getKey_of_mem hs hk
          rw [hd] at hu
          injection hu with hu
          simp [hn.1, hv, hu, pickCode]
        · simp only [e, if_false, List.mem_cons, false_or]
          rw [hsf, getKey_map mad (fun k' w => if k' = l then Val.text (dummyOf (codeOf d v)) else w)]
          simp [e]
      · intro k hk v' d' hv' hd'
        rcases List.mem_cons.1 hk with e | e
        · subst e
          rw [hv] at hv'; rw [hd] at hd'
          injection hv' with hv'; injection hd' with hd'
          subst hv'; subst hd'
          exact hdig
        · have ne : k ≠ l := by rintro rfl; exact hn.1 e
          refine i3 k e v' d' ?_ ?_
          · rw [hsf, getKey_map mad (fun k' w => if k' = l then Val.text (dummyOf (codeOf d v)) else w), hv']
            simp [ne]
          · rw [setCode_get _ _ _ _ ne]; exact hd'
    · next hno =>
      obtain ⟨i1, i2, i3⟩ := ih saids s mad mad' hn.2 hm hs h
      refine ⟨?_, ?_, ?_⟩
      · rw [i1]
        apply List.map_congr_left
        rintro ⟨k, u⟩ hk
        dsimp only
        by_cases e : k = l
        · subst e
          cases hd : getKey saids k with
          | none => simp [dummyVal]
          | some d => exact absurd hd (fun hd => hno u d (getKey_of_mem hm hk) hd)
        · simp [e]
      · rw [i2]
        apply List.map_congr_left
        rintro ⟨k, c⟩ hk
        dsimp only
        by_cases e : k = l
        · subst e
          cases hv : getKey mad k with
          | none => simp [pickCode]
          | some v => exact absurd hv (fun hv => hno v c hv (getKey_of_mem hs hk))
        · simp [e]
      · intro k hk v' d' hv' hd'
        rcases List.mem_cons.1 hk with e | e
        · subst e; exact absurd hd' (fun hd => hno v' d' hv' hd)
        · exact i3 k e v' d' hv' hd'

/-- What the value of a field becomes. -/
def fillVal (f : List Char → List Char) (o : Option (List Char)) (v : Val) : Val :=
  match o with
  | some c => .text (f c)
  | none => v

/-- What the map becomes when its said fields are filled in. -/
def filled (f : List Char → List Char) (s : Saids) (mad : Flds) : Flds :=
  mad.map fun (p : List Char × Val) => (p.1, fillVal f (getKey s p.1) p.2)

theorem putSaids_eq (w : World) (ser : List Char) (f : List Char → List Char) : ∀ (s : Saids) (mad mad' : Flds), (s.map (·.1)).Nodup →
    (mad.map (·.1)).Nodup → (∀ c t, digestOf w c ser = .ok t → f c = t) → putSaids w ser s mad = .ok mad' →
    mad' = filled f s mad ∧ ∀ l c, (l, c) ∈ s → (getKey mad l).isSome = true → digestOf w c ser = .ok (f c) := by
  intro s
  induction s with
  | nil =>
    intro mad mad' _ _ _ h
    simp only [putSaids, Except.ok.injEq] at h
    subst h
    simp [filled, getKey, fillVal]
  | cons p s ih =>
    obtain ⟨l, c⟩ := p
    intro mad mad' hs hm hf h
    simp only [List.map_cons, List.nodup_cons] at hs
    simp only [putSaids] at h
    split at h
    · next hg =>
      obtain ⟨i1, i2⟩ := ih mad mad' hs.2 hm hf h
      refine ⟨?_, ?_⟩
      · rw [i1]
        unfold filled
        apply List.map_congr_left
        rintro ⟨k, u⟩ hk
        have : l ≠ k := by
          rintro rfl
          exact getKey_none.1 hg (List.mem_map.2 ⟨_, hk, rfl⟩)
        dsimp only
        rw [getKey_cons, if_neg this]
      · intro k c' hk hs'
        rcases List.mem_cons.1 hk with e | e
        · simp only [Prod.mk.injEq] at e
          rw [e.1, hg] at hs'
          simp at hs'
        · exact i2 k c' e hs'
    · next v hg =>
      split at h
      · exact absurd h (by simp)
      next said hd =>
      have hlm : l ∈ mad.map (·.1) := List.mem_map.2 ⟨_, getKey_mem hg, rfl⟩
      have hsf := setField_map mad l (.text said) hm hlm
      rw [hsf] at h
      obtain ⟨i1, i2⟩ := ih _ mad' hs.2 (by simpa [Function.comp_def] using hm) hf h
      refine ⟨?_, ?_⟩
      · rw [i1]
        unfold filled
        rw [List.map_map]
        apply List.map_congr_left
        rintro ⟨k, u⟩ hk
        simp only [Function.comp]
        rw [getKey_cons]
        by_cases e : k = l
        · subst e
          have : getKey s k = none := getKey_none.2 hs.1
          simp [this, hf c said hd, fillVal]
        · have e' : l ≠ k := fun x => e x.symm
          simp [e, e']
      · intro k c' hk hs'
        rcases List.mem_cons.1 hk with e | e
        · simp only [Prod.mk.injEq] at e
          rw [e.2, hd, hf c said hd]
        · refine i2 k c' e ?_
          rw [getKey_map mad (fun k' w => if k' = l then Val.text said else w)]
          simpa using hs'

theorem checkSaids_ok (w : World) (ser : List Char) : ∀ (s : Saids) (mad : Flds), checkSaids w ser s mad = .ok () ↔
    ∀ p ∈ s, ∀ v, getKey mad p.1 = some v → ∃ t, v = .text t ∧ digestOf w p.2 ser = .ok t := by
  intro s
  induction s with
  | nil => simp [checkSaids]
  | cons p s ih =>
    obtain ⟨l, c⟩ := p
    intro mad
    simp only [checkSaids, List.forall_mem_cons]
    cases hg : getKey mad l with
    | none => simp [ih]
    | some v =>
      simp only [Option.some.injEq]
      cases hd : digestOf w c ser with
      | error e => simp
      | ok said =>
        simp only
        cases v with
        | text t =>
          simp only
          by_cases e : t = said
          · subst e; simp [ih]
          · simp only [e, if_false]
            constructor
            · intro h; exact absurd h (by simp)
            · rintro ⟨h, _⟩
              obtain ⟨t', h1, h2⟩ := h _ rfl
              injection h1 with h1
              injection h2 with h2
              exact absurd (h1.trans h2.symm) e
        | _ =>
          constructor
          · intro h; exact absurd h (by simp)
          · rintro ⟨h, _⟩
            obtain ⟨t', h1, h2⟩ := h _ rfl
            exact absurd h1 (by simp)

theorem hash_size {w : World} (hw : HashOk w) {code : List Char} (hc : code ∈ digDex) (ser : List Char) :
    AllLt 256 (w.hash code ser) ∧ ∃ sz n, sizes? code = some sz ∧ sz.fs = some n ∧ (w.hash code ser).length = rawSize sz n := by
  have key : ∀ c ∈ digDex, (match sizes? c with | some sz => (match sz.fs with | some n => decide (rawSize sz n = (if c.length = 1 then 32 else 64)) | none => false) | none => false) = true := by
    decide +kernel
  obtain ⟨h1, h2⟩ := hw code ser
  refine ⟨h1, ?_⟩
  have := key code hc
  split at this
  · next sz hsz =>
    split at this
    · next n hn =>
      exact ⟨sz, n, hsz, hn, by rw [h2, of_decide_eq_true this]⟩
    · exact absurd this (by simp)
  · exact absurd this (by simp)

theorem digest_facts {w : World} {code ser t : List Char} (hw : HashOk w) (h : digestOf w code ser = .ok t) :
    ∃ m, Reads t m ∧ m.code = code ∧ m.raw = w.hash code ser ∧ code ∈ digDex ∧ exfil t = .ok m := by
  unfold digestOf at h
  split at h
  · exact absurd h (by simp)
  split at h
  · exact absurd h (by simp)
  next hc =>
  simp only [Decidable.not_not] at hc
  obtain ⟨h1, sz, n, h2, h3, h4⟩ := hash_size hw hc ser
  unfold qb64Of at h
  split at h
  · exact absurd h (by simp)
  next m hm =>
  obtain ⟨q, q1, q2, q3⟩ := make_reads h1 hm
  have hq := q1.text
  rw [h] at hq
  injection hq with hq
  subst hq
  obtain ⟨t', t1, t2, t3, t4⟩ := c03_text_roundtrip _ _ _ _ _ h1 hm
  have : t' = t := by rw [h] at t1; injection t1 with t1; exact t1.symm
  subst this
  have hdt : ∀ c ∈ digDex, ∀ sz, sizes? c = some sz → sz.ss = 0 ∧ ∃ n, sz.fs = some n := by
    intro c hc sz hsz
    have : ∀ c ∈ digDex, (sizes? c).all (fun s => s.ss = 0 && s.fs.isSome) = true := by decide +kernel
    have := this c hc
    rw [hsz] at this
    simp only [Option.all_some, Bool.and_eq_true, decide_eq_true_eq, Option.isSome_iff_exists] at this
    exact this
  have hss := (hdt code hc sz h2).1
  unfold make at hm
  split at hm
  · exact absurd hm (by simp)
  rw [h2] at hm
  simp only [h3] at hm
  split at hm
  · exact absurd hm (by simp)
  split at hm
  · exact absurd hm (by simp)
  injection hm with hm
  subst hm
  refine ⟨_, q1, rfl, ?_, hc, t2⟩
  dsimp only
  rw [← h4, List.take_length]

end Verif.Mad
