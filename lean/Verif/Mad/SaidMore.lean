import Verif.Mad.SaidLemmas

/-! # More lemmas about SAIDs of field maps -/

namespace Verif.Mad

open Verif.B64 Verif.Matter

theorem codeOf_digest {w : World} {code ser t : List Char} (hw : HashOk w) (h : digestOf w code ser = .ok t) (d : List Char) :
    codeOf d (.text t) = code := by
  obtain ⟨m, _, h2, _, _, h5⟩ := digest_facts hw h
  simp only [codeOf, h5, h2]

theorem allAlike_filled {f : List Char → List Char} {saids s : Saids} : ∀ {mad : Flds},
    (∀ l v, (l, v) ∈ mad → getKey saids l = none → getKey s l = none) →
    (∀ l v d, (l, v) ∈ mad → getKey saids l = some d → ∃ c, getKey s l = some c ∧ ∀ d', codeOf d' (.text (f c)) = codeOf d v) →
    AllAlike saids mad (filled f s mad) := by
  intro mad
  induction mad with
  | nil => intros; exact .nil
  | cons p mad ih =>
    obtain ⟨l, v⟩ := p
    intro h1 h2
    refine .cons ⟨rfl, ?_, ?_⟩ (ih (fun l v h => h1 l v (by simp [h])) (fun l v d h => h2 l v d (by simp [h])))
    · intro d hd
      obtain ⟨c, c1, c2⟩ := h2 l v d (by simp) hd
      simp only [c1, fillVal]
      exact c2 d
    · intro hn
      simp only [h1 l v (by simp) hn, fillVal]

theorem filled_keys (f : List Char → List Char) (s : Saids) (mad : Flds) : (filled f s mad).map (·.1) = mad.map (·.1) := by
  simp [filled, Function.comp_def]

theorem filled_get (f : List Char → List Char) (s : Saids) (mad : Flds) (l : List Char) :
    getKey (filled f s mad) l = (getKey mad l).map (fillVal f (getKey s l)) := by
  unfold filled
  rw [getKey_map mad (fun k v => fillVal f (getKey s k) v)]

theorem alike_get {saids : Saids} {fs gs : Flds} (h : AllAlike saids fs gs) (l d : List Char) (hd : getKey saids l = some d) :
    pickCode (getKey gs l) d = pickCode (getKey fs l) d := by
  induction h with
  | nil => rfl
  | @cons p q fs gs ha _ ih =>
    rw [getKey_cons, getKey_cons, ← ha.1]
    by_cases e : p.1 = l
    · simp only [e, if_true, pickCode]
      exact ha.2.1 d (by rw [e]; exact hd)
    · simp only [e, if_false]
      exact ih

theorem alike_keys {saids : Saids} {fs gs : Flds} (h : AllAlike saids fs gs) : gs.map (·.1) = fs.map (·.1) := by
  induction h with
  | nil => rfl
  | cons ha _ ih => rw [List.map_cons, List.map_cons, ih, ha.1]

theorem finalCodes_alike {saids : Saids} {fs gs : Flds} (hs : (saids.map (·.1)).Nodup) (h : AllAlike saids fs gs) :
    finalCodes saids gs = finalCodes saids fs := by
  unfold finalCodes
  apply List.map_congr_left
  rintro ⟨l, c⟩ hm
  dsimp only
  rw [alike_get h l c (getKey_of_mem hs hm)]

/-- dummyMad as one step. -/
theorem dummyMad_full {saids s : Saids} {mad mad' : Flds} (hm : (mad.map (·.1)).Nodup) (hs : (saids.map (·.1)).Nodup)
    (h : dummyMad (saids.map (·.1)) saids mad = .ok (mad', s)) :
    mad' = (mad.map fun (p : List Char × Val) => (p.1, dummyVal (getKey saids p.1) p.2)) ∧ s = finalCodes saids mad ∧
    ∀ l v d, getKey mad l = some v → getKey saids l = some d → codeOf d v ∈ digDex := by
  obtain ⟨h1, h2, h3⟩ := dummyMad_eq _ saids s mad mad' hs hm hs h
  refine ⟨?_, ?_, ?_⟩
  · rw [h1]
    apply List.map_congr_left
    rintro ⟨l, v⟩ _
    dsimp only
    by_cases e : l ∈ saids.map (·.1)
    · rw [if_pos e]
    · rw [if_neg e, getKey_none.2 e]; rfl
  · rw [h2]
    unfold finalCodes
    apply List.map_congr_left
    rintro ⟨l, v⟩ hk
    dsimp only
    rw [if_pos (List.mem_map.2 ⟨_, hk, rfl⟩)]
  · intro l v d hv hd
    exact h3 l (List.mem_map.2 ⟨_, getKey_mem hd, rfl⟩) v d hv hd

theorem dummyMad_total : ∀ (ls : List (List Char)) (saids : Saids) (mad : Flds), ls.Nodup → (mad.map (·.1)).Nodup →
    (∀ l ∈ ls, ∀ v d, getKey mad l = some v → getKey saids l = some d → codeOf d v ∈ digDex) →
    ∃ r, dummyMad ls saids mad = .ok r := by
  intro ls
  induction ls with
  | nil => intro saids mad _ _ _; exact ⟨_, rfl⟩
  | cons l ls ih =>
    intro saids mad hn hm hd
    simp only [List.nodup_cons] at hn
    simp only [dummyMad]
    split
    · next v d hv hd' =>
      rw [if_neg (by simpa using hd l (by simp) v d hv hd')]
      have hlm : l ∈ mad.map (·.1) := List.mem_map.2 ⟨_, getKey_mem hv, rfl⟩
      have hsf := setField_map mad l (.text (dummyOf (codeOf d v))) hm hlm
      apply ih _ _ hn.2 (by rw [hsf]; simpa [Function.comp_def] using hm)
      intro k hk v' d' hv' hd''
      have ne : k ≠ l := by rintro rfl; exact hn.1 hk
      rw [setCode_get _ _ _ _ ne] at hd''
      rw [hsf, getKey_map mad (fun k' w => if k' = l then Val.text (dummyOf (codeOf d v)) else w)] at hv'
      simp only [ne, if_false] at hv'
      refine hd k (by simp [hk]) v' d' ?_ hd''
      cases hg : getKey mad k with
      | none => rw [hg] at hv'; simp at hv'
      | some u => rw [hg] at hv'; simpa using hv'
    · exact ih saids mad hn.2 hm (fun k hk => hd k (by simp [hk]))

theorem exhaleDummy_alike (w : World) (kind : Kind) (strict : Bool) {saids s : Saids} {mad mad2 mad1 : Flds} {ser : List Char}
    (hm : (mad.map (·.1)).Nodup) (hs : (saids.map (·.1)).Nodup) (ha : AllAlike saids mad mad2)
    (h : exhaleDummy w kind strict saids mad = .ok (ser, mad1, s)) :
    ∃ mad3, exhaleDummy w kind strict saids mad2 = .ok (ser, mad3, s) ∧ s = finalCodes saids mad ∧
      mad3.map (·.1) = mad.map (·.1) ∧ mad1.map (·.1) = mad.map (·.1) ∧
      (∀ l, getKey saids l = none → getKey mad1 l = getKey mad l) ∧ (∀ f, filled f s mad1 = filled f s mad) ∧ (∀ f, filled f s mad3 = filled f s mad2) := by
  cases kind with
  | cesr =>
    simp only [exhaleDummy] at h ⊢
    split at h
    · exact absurd h (by simp)
    next b s' hd =>
    split at h
    · exact absurd h (by simp)
    next raw hr =>
    simp only [Except.ok.injEq, Prod.mk.injEq] at h
    obtain ⟨rfl, rfl, rfl⟩ := h
    refine ⟨mad2, ?_, dummyFlds_codes strict mad saids s' b hm hs hd, alike_keys ha, rfl, fun _ _ => rfl, fun _ => rfl, fun _ => rfl⟩
    rw [dummyFlds_alike strict mad mad2 saids hm ha, hd]
    simp only [hr]
  | other =>
    simp only [exhaleDummy] at h ⊢
    split at h
    · exact absurd h (by simp)
    next mad' s' hd =>
    split at h
    · exact absurd h (by simp)
    next raw hr =>
    simp only [Except.ok.injEq, Prod.mk.injEq] at h
    obtain ⟨rfl, rfl, rfl⟩ := h
    obtain ⟨d1, d2, d3⟩ := dummyMad_full hm hs hd
    have hm2 : (mad2.map (·.1)).Nodup := by rw [alike_keys ha]; exact hm
    have hsame : (mad2.map fun (p : List Char × Val) => (p.1, dummyVal (getKey saids p.1) p.2)) =
        (mad.map fun (p : List Char × Val) => (p.1, dummyVal (getKey saids p.1) p.2)) := by
      clear d1 d2 d3 hd hr hm hm2
      induction ha with
      | nil => rfl
      | @cons p q fs gs ha _ ih =>
        rw [List.map_cons, List.map_cons, ih, ← ha.1]
        congr 2
        cases hg : getKey saids p.1 with
        | none => simp only [dummyVal]; exact ha.2.2 hg
        | some d => simp only [dummyVal]; rw [ha.2.1 d hg]
    obtain ⟨⟨m3, s3⟩, h3⟩ := dummyMad_total (saids.map (·.1)) saids mad2 hs hm2 (by
      intro l hl v d hv hd
      have := alike_get ha l d hd
      rw [hv] at this
      simp only [pickCode] at this
      rw [this]
      cases hg : getKey mad l with
      | none =>
        exfalso
        have := getKey_none.1 hg
        rw [← alike_keys ha] at this
        exact this (List.mem_map.2 ⟨_, getKey_mem hv, rfl⟩)
      | some u => exact d3 l u d hg hd)
    obtain ⟨e1, e2, _⟩ := dummyMad_full hm2 hs h3
    have hfill : ∀ (f : List Char → List Char) (m : Flds), filled f s' (m.map fun (p : List Char × Val) => (p.1, dummyVal (getKey saids p.1) p.2)) = filled f s' m := by
      intro f m
      unfold filled
      rw [List.map_map]
      apply List.map_congr_left
      rintro ⟨l, v⟩ _
      simp only [Function.comp]
      cases hg : getKey s' l with
      | some c => rfl
      | none =>
        rw [d2, finalCodes_get] at hg
        have : getKey saids l = none := by simpa using hg
        simp [fillVal, this, dummyVal]
    refine ⟨m3, ?_, d2, ?_, ?_, ?_, ?_, ?_⟩
    · rw [h3]
      simp only
      rw [e1, hsame, ← d1, hr, e2, d2, finalCodes_alike hs ha]
    · rw [e1, hsame]; simp [Function.comp_def]
    · rw [d1]; simp [Function.comp_def]
    · intro l hl
      rw [d1, getKey_map mad (fun k v => dummyVal (getKey saids k) v), hl]
      simp [dummyVal]
    · intro f; rw [d1]; exact hfill f mad
    · intro f; rw [e1]; exact hfill f mad2

theorem makify_facts {w : World} {kind : Kind} {strict : Bool} {saids s : Saids} {mad mad' : Flds} {raw : List Char} (hw : HashOk w)
    (hm : (mad.map (·.1)).Nodup) (hs : (saids.map (·.1)).Nodup) (h : makify w kind strict saids mad = .ok (raw, mad', s)) :
    ∃ ser f, s = finalCodes saids mad ∧ mad' = filled f s mad ∧ AllAlike saids mad mad' ∧
      (∀ l c, (l, c) ∈ s → (getKey mad l).isSome = true → digestOf w c ser = .ok (f c)) ∧
      (∃ m3, exhaleDummy w kind strict saids mad' = .ok (ser, m3, s) ∧ putSaids w ser s m3 = .ok mad') ∧
      exhaleKind w kind strict mad' = .ok raw := by
  unfold makify at h
  split at h
  · exact absurd h (by simp)
  next ser mad1 s1 he =>
  split at h
  · exact absurd h (by simp)
  next mad2 hp =>
  split at h
  · exact absurd h (by simp)
  next raw' hr =>
  simp only [Except.ok.injEq, Prod.mk.injEq] at h
  obtain ⟨rfl, rfl, rfl⟩ := h
  have hrefl : AllAlike saids mad mad := by
    clear hm he hp
    induction mad with
    | nil => exact .nil
    | cons p r ih => exact .cons ⟨rfl, fun _ _ => rfl, fun _ => rfl⟩ ih
  obtain ⟨_, _, a1, _, a3, _, a5, _⟩ := exhaleDummy_alike w kind strict hm hs hrefl he
  let f : List Char → List Char := fun c => match digestOf w c ser with | .ok t => t | .error _ => []
  have hf : ∀ c t, digestOf w c ser = .ok t → f c = t := by intro c t h; simp only [f, h]
  have hs1 : (s1.map (·.1)).Nodup := by rw [a1, finalCodes_keys]; exact hs
  have hm1 : (mad1.map (·.1)).Nodup := by rw [a3]; exact hm
  obtain ⟨p1, p2⟩ := putSaids_eq w ser f s1 mad1 mad2 hs1 hm1 hf hp
  have p1' := p1.trans (a5 f)
  have hsome : ∀ l, (getKey mad1 l).isSome = (getKey mad l).isSome := by
    intro l
    cases h1 : getKey mad1 l with
    | none =>
      have := getKey_none.1 h1
      rw [a3] at this
      rw [getKey_none.2 this]
    | some v =>
      cases h2 : getKey mad l with
      | none =>
        have := getKey_none.1 h2
        rw [← a3] at this
        exact absurd (List.mem_map.2 ⟨_, getKey_mem h1, rfl⟩) this
      | some _ => rfl
  have hdig : ∀ l c, (l, c) ∈ s1 → (getKey mad l).isSome = true → digestOf w c ser = .ok (f c) := by
    intro l c hl hg
    exact p2 l c hl (by rw [hsome]; exact hg)
  have hal : AllAlike saids mad mad2 := by
    rw [p1']
    refine allAlike_filled ?_ ?_
    · intro l v _ hn
      rw [a1, finalCodes_get, hn]; rfl
    · intro l v d hl hd
      have hv := getKey_of_mem hm hl
      refine ⟨codeOf d v, ?_, ?_⟩
      · rw [a1, finalCodes_get, hd, hv]; rfl
      · intro d'
        refine codeOf_digest hw (hdig l _ ?_ (by rw [hv]; rfl)) d'
        apply getKey_mem
        rw [a1, finalCodes_get, hd, hv]; rfl
  refine ⟨ser, f, a1, p1', hal, hdig, ?_, hr⟩
  obtain ⟨m3, b1, _, b3, _, _, _, b6⟩ := exhaleDummy_alike w kind strict hm hs hal he
  refine ⟨m3, b1, ?_⟩
  have hkeys2 : mad2.map (·.1) = mad.map (·.1) := alike_keys hal
  have hput : ∃ x, putSaids w ser s1 m3 = .ok x := by
    have key : ∀ (s : Saids) (m : Flds), (s.map (·.1)).Nodup → (∀ l c, (l, c) ∈ s → l ∈ m.map (·.1) → digestOf w c ser = .ok (f c)) →
        (m.map (·.1)).Nodup → ∃ x, putSaids w ser s m = .ok x := by
      intro s
      induction s with
      | nil => intro m _ _ _; exact ⟨_, rfl⟩
      | cons p s ih =>
        obtain ⟨l, c⟩ := p
        intro m hn hd hmn
        simp only [List.map_cons, List.nodup_cons] at hn
        simp only [putSaids]
        cases hg : getKey m l with
        | none => exact ih m hn.2 (fun l c h => hd l c (by simp [h])) hmn
        | some v =>
          have hlm : l ∈ m.map (·.1) := List.mem_map.2 ⟨_, getKey_mem hg, rfl⟩
          simp only
          rw [hd l c (by simp) hlm]
          simp only
          have hsf := setField_map m l (.text (f c)) hmn hlm
          have hk : (setField m l (.text (f c))).map (·.1) = m.map (·.1) := by rw [hsf]; simp [Function.comp_def]
          refine ih _ hn.2 (fun l' c' h h' => hd l' c' (by simp [h]) (by rw [← hk]; exact h')) (by rw [hk]; exact hmn)
    refine key s1 m3 hs1 ?_ (by rw [b3]; exact hm)
    intro l c hl hk
    rw [b3] at hk
    refine hdig l c hl ?_
    cases hg : getKey mad l with
    | none => exact absurd hk (getKey_none.1 hg)
    | some _ => rfl
  obtain ⟨x, hx⟩ := hput
  obtain ⟨x1, _⟩ := putSaids_eq w ser f s1 m3 x hs1 (by rw [b3]; exact hm) hf hx
  rw [hx, x1, b6 f, p1']
  congr 1
  unfold filled
  rw [List.map_map]
  apply List.map_congr_left
  rintro ⟨l, v⟩ _
  simp only [Function.comp]
  cases hg : getKey s1 l <;> simp [fillVal]

/-! ## What a said commits to -/

theorem hash_head {strict : Bool} {env : Env} {saids s : Saids} {fs : Flds} {b : List Char} (hg : GoodFlds env fs)
    (h : dummyFlds strict saids fs = .ok (b, s)) : b.head? ≠ some '#' := by
  cases fs with
  | nil =>
    simp only [dummyFlds, Except.ok.injEq, Prod.mk.injEq] at h
    rw [← h.1]; simp
  | cons p fs =>
    obtain ⟨l, v⟩ := p
    simp only [GoodFlds] at hg
    simp only [dummyFlds] at h
    split at h
    · exact absurd h (by simp)
    next x hx =>
    obtain ⟨_, l2, l3, _⟩ := takeLabel_of hg.1 hx
    have hb : ∃ y, b = x ++ y := by
      repeat' split at h
      all_goals first
        | (simp only [Except.ok.injEq, Prod.mk.injEq] at h; exact ⟨_, h.1.symm⟩)
        | (simp at h; done)
    obtain ⟨y, rfl⟩ := hb
    cases x with
    | nil => simp at l2
    | cons c r =>
      simp only [reb64, List.all_cons, Bool.and_eq_true] at l3
      simp only [List.cons_append, List.head?_cons, ne_eq, Option.some.injEq]
      rintro rfl
      exact absurd l3.1 (by decide +kernel)

theorem replicate_split {n1 n2 : Nat} {a b : List Char} (ha : a.head? ≠ some '#') (hb : b.head? ≠ some '#')
    (h : List.replicate n1 '#' ++ a = List.replicate n2 '#' ++ b) : n1 = n2 ∧ a = b := by
  induction n1 generalizing n2 with
  | zero =>
    cases n2 with
    | zero => exact ⟨rfl, by simpa using h⟩
    | succ n2 =>
      exfalso
      apply ha
      simp only [List.replicate_zero, List.nil_append] at h
      rw [h]; rfl
  | succ n1 ih =>
    cases n2 with
    | zero =>
      exfalso
      apply hb
      simp only [List.replicate_zero, List.nil_append] at h
      rw [← h]; rfl
    | succ n2 =>
      simp only [List.replicate_succ, List.cons_append, List.cons.injEq, true_and] at h
      obtain ⟨e1, e2⟩ := ih h
      exact ⟨by omega, e2⟩

theorem dummyOf_rep (code : List Char) : ∃ n, dummyOf code = List.replicate n '#' := by
  unfold dummyOf
  split
  · split
    · exact ⟨_, rfl⟩
    · exact ⟨0, rfl⟩
  · exact ⟨0, rfl⟩

theorem dummyFlds_inj {strict : Bool} {env : Env} : ∀ (fs gs : Flds) (sa sb s1 s2 : Saids) (b : List Char), sa.map (·.1) = sb.map (·.1) →
    GoodFlds env fs → GoodFlds env gs → dummyFlds strict sa fs = .ok (b, s1) → dummyFlds strict sb gs = .ok (b, s2) →
    masked (sa.map (·.1)) fs = masked (sa.map (·.1)) gs := by
  intro fs
  induction fs with
  | nil =>
    intro gs sa sb s1 s2 b hk _ hg h1 h2
    simp only [dummyFlds, Except.ok.injEq, Prod.mk.injEq] at h1
    cases gs with
    | nil => rfl
    | cons p gs =>
      exfalso
      obtain ⟨l, v⟩ := p
      simp only [GoodFlds] at hg
      simp only [dummyFlds] at h2
      split at h2
      · exact absurd h2 (by simp)
      next x hx =>
      obtain ⟨_, l2, _⟩ := takeLabel_of hg.1 hx
      have hb : ∃ y, b = x ++ y := by
        repeat' split at h2
        all_goals first
          | (simp only [Except.ok.injEq, Prod.mk.injEq] at h2; exact ⟨_, h2.1.symm⟩)
          | (simp at h2; done)
      obtain ⟨y, rfl⟩ := hb
      have := congrArg List.length h1.1
      simp at this
      omega
  | cons p fs ih =>
    obtain ⟨l, v⟩ := p
    intro gs sa sb s1 s2 b hk hf hg h1 h2
    simp only [GoodFlds] at hf
    cases gs with
    | nil =>
      exfalso
      simp only [dummyFlds, Except.ok.injEq, Prod.mk.injEq] at h2
      simp only [dummyFlds] at h1
      split at h1
      · exact absurd h1 (by simp)
      next x hx =>
      obtain ⟨_, l2, _⟩ := takeLabel_of hf.1 hx
      have hb : ∃ y, b = x ++ y := by
        repeat' split at h1
        all_goals first
          | (simp only [Except.ok.injEq, Prod.mk.injEq] at h1; exact ⟨_, h1.1.symm⟩)
          | (simp at h1; done)
      obtain ⟨y, rfl⟩ := hb
      have := congrArg List.length h2.1
      simp at this
      omega
    | cons q gs =>
      obtain ⟨k, u⟩ := q
      simp only [GoodFlds] at hg
      simp only [dummyFlds] at h1 h2
      split at h1
      · exact absurd h1 (by simp)
      next x hx =>
      split at h2
      · exact absurd h2 (by simp)
      next y hy =>
      obtain ⟨t1, _⟩ := takeLabel_of hf.1 hx
      obtain ⟨t2, _⟩ := takeLabel_of hg.1 hy
      have hmem : ∀ l, getKey sa l = none ↔ getKey sb l = none := by
        intro l; rw [getKey_none, getKey_none, hk]
      have same : ∀ r1 r2, b = x ++ r1 → b = y ++ r2 → l = k ∧ r1 = r2 := by
        intro r1 r2 e1 e2
        have a1 := t1 r1
        have a2 := t2 r2
        rw [← e1] at a1
        rw [← e2, a1] at a2
        simp only [Except.ok.injEq, Prod.mk.injEq] at a2
        exact a2
      cases hga : getKey sa l with
      | none =>
        rw [hga] at h1
        simp only at h1
        split at h1
        · exact absurd h1 (by simp)
        next a1 ha1 =>
        split at h1
        · exact absurd h1 (by simp)
        next b1 s1' hd1 =>
        simp only [Except.ok.injEq, Prod.mk.injEq] at h1
        have hlk : l = k := by
          have hb : ∃ z, b = y ++ z := by
            repeat' split at h2
            all_goals first
              | (simp only [Except.ok.injEq, Prod.mk.injEq] at h2; exact ⟨_, h2.1.symm⟩)
              | (simp at h2; done)
          obtain ⟨z, hz⟩ := hb
          exact (same _ _ h1.1.symm hz).1
        subst hlk
        rw [(hmem l).1 hga] at h2
        simp only at h2
        split at h2
        · exact absurd h2 (by simp)
        next a2 ha2 =>
        split at h2
        · exact absurd h2 (by simp)
        next b2 s2' hd2 =>
        simp only [Except.ok.injEq, Prod.mk.injEq] at h2
        obtain ⟨_, e⟩ := same _ _ h1.1.symm h2.1.symm
        have B1 := serVal_back env strict v a1 hf.2.1 ha1
        have B2 := serVal_back env strict u a2 hg.2.1 ha2
        have c1 := B1.back (a1.length + a2.length) b1 (by omega)
        have c2 := B2.back (a1.length + a2.length) b2 (by omega)
        rw [e, c2] at c1
        simp only [Except.ok.injEq, Prod.mk.injEq] at c1
        obtain ⟨rfl, rfl⟩ := c1
        have := ih gs sa sb s1' s2' _ hk hf.2.2 hg.2.2 hd1 hd2
        simp only [masked, List.map_cons] at this ⊢
        rw [this]
      | some d1 =>
        rw [hga] at h1
        simp only at h1
        split at h1
        · exact absurd h1 (by simp)
        split at h1
        · exact absurd h1 (by simp)
        next b1 s1' hd1 =>
        simp only [Except.ok.injEq, Prod.mk.injEq] at h1
        have hlk : l = k := by
          have hb : ∃ z, b = y ++ z := by
            repeat' split at h2
            all_goals first
              | (simp only [Except.ok.injEq, Prod.mk.injEq] at h2; exact ⟨_, h2.1.symm⟩)
              | (simp at h2; done)
          obtain ⟨z, hz⟩ := hb
          exact (same _ _ h1.1.symm hz).1
        subst hlk
        cases hgb : getKey sb l with
        | none => rw [(hmem l).2 hgb] at hga; exact absurd hga (by simp)
        | some d2 =>
          rw [hgb] at h2
          simp only at h2
          split at h2
          · exact absurd h2 (by simp)
          split at h2
          · exact absurd h2 (by simp)
          next b2 s2' hd2 =>
          simp only [Except.ok.injEq, Prod.mk.injEq] at h2
          obtain ⟨_, e⟩ := same _ _ h1.1.symm h2.1.symm
          obtain ⟨n1, r1⟩ := dummyOf_rep (codeOf d1 v)
          obtain ⟨n2, r2⟩ := dummyOf_rep (codeOf d2 u)
          rw [r1, r2] at e
          obtain ⟨_, rfl⟩ := replicate_split (hash_head hf.2.2 hd1) (hash_head hg.2.2 hd2) e
          have := ih gs _ _ s1' s2' _ (by rw [setCode_keys, setCode_keys]; exact hk) hf.2.2 hg.2.2 hd1 hd2
          rw [setCode_keys] at this
          have hin : l ∈ sa.map (·.1) := List.mem_map.2 ⟨_, getKey_mem hga, rfl⟩
          simp only [masked, List.map_cons] at this ⊢
          rw [this, if_pos hin, if_pos hin]

theorem enclose_inj {b1 b2 t : List Char} (h1 : Ctr.encloseText .v2 mapCode b1 = .ok t) (h2 : Ctr.encloseText .v2 mapCode b2 = .ok t) : b1 = b2 := by
  obtain ⟨c1, d1, g1⟩ := group_reads (.inl rfl) h1
  obtain ⟨c2, d2, g2⟩ := group_reads (.inl rfl) h2
  have e1 := g1.take []
  have e2 := g2.take []
  rw [e1] at e2
  simp only [Except.ok.injEq, Prod.mk.injEq, List.append_nil] at e2
  exact e2.2

end Verif.Mad
