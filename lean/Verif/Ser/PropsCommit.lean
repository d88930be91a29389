import Verif.Ser.PropsRight

/-! # C126, C128: what the SAID and the prefix of a message commit to -/

namespace Verif.Ser

open Verif.B64 Verif.Matter
open Verif.Mad hiding Kind verify makify Digested Collision
open Verif.Prs (Proto Kind Smellage asc chars versify deversify smell sniff)

theorem same_ser {lib : Lib} (hw : DigestsOk lib) {s1 s2 : Serder} (r1 : Right lib s1) (r2 : Right lib s2) {l c t : List Char}
    (h1 : l ∈ saidLabels s1) (h2 : l ∈ saidLabels s2) (e1 : codeAt (getKey s1.sad l) = some (c, t)) (hc : c ∈ digDex) (e2 : getKey s2.sad l = getKey s1.sad l) :
    (∃ ser, Digested lib s1 ser ∧ Digested lib s2 ser) ∨ Collision lib s1 s2 := by
  obtain ⟨c1, t1, a1, a2⟩ := r1.digests l h1
  obtain ⟨c2, t2, b1, b2⟩ := r2.digests l h2
  rw [e2, e1] at b1
  rw [e1] at a1
  simp only [Option.some.injEq, Prod.mk.injEq] at a1 b1
  obtain ⟨rfl, rfl⟩ := a1
  obtain ⟨rfl, rfl⟩ := b1
  obtain ⟨x1, p1, p2⟩ := a2 hc
  obtain ⟨x2, q1, q2⟩ := b2 hc
  obtain ⟨m, _, _, p3, _, p5⟩ := digest_facts hw p2
  obtain ⟨m', _, _, q3, _, q5⟩ := digest_facts hw q2
  rw [p5] at q5
  injection q5 with q5
  subst q5
  by_cases e : x1 = x2
  · subst e; exact .inl ⟨x1, p1, q1⟩
  · exact .inr ⟨c, x1, x2, p1, q1, e, p3.symm.trans q3⟩

theorem masked_dummied (ls : List (List Char)) (sad : Flds) : masked ls (dummied ls sad) = masked ls sad := by
  unfold masked dummied
  rw [List.map_map]
  apply List.map_congr_left
  rintro ⟨l, v⟩ _
  simp only [Function.comp]
  split <;> rfl

theorem saidLabels_dummied {s1 s2 : Serder} (ha : s1.attrs = s2.attrs) (ht : getKey s1.sad ['t'] = getKey s2.sad ['t']) : saidLabels s1 = saidLabels s2 := by
  unfold saidLabels
  have : ilkOf s1.sad = ilkOf s2.sad := by unfold ilkOf; rw [ht]
  rw [this, ha]

theorem t_not_said (s : Serder) : ['t'] ∉ saidLabels s ∧ ['v'] ∉ saidLabels s := by
  unfold saidLabels
  split
  · simp
  · next ilk _ =>
    split
    · simp
    · next fd hf =>
      unfold domain at hf
      cases hd : domains s.attrs.proto s.attrs.pvrsn with
      | none => rw [hd] at hf; simp at hf
      | some doms =>
        rw [hd] at hf
        have hw := wf_dom hd hf
        constructor
        · intro h
          obtain ⟨p, hp, e⟩ := List.mem_map.1 h
          exact (hw.saids p hp).2.2.2.2 e
        · intro h
          obtain ⟨p, hp, e⟩ := List.mem_map.1 h
          exact (hw.saids p hp).2.2.2.1 e

/-- The fields of two messages are the same in all but the fields with SAIDs, which are the same ones. -/
def SameBut (s1 s2 : Serder) : Prop := saidLabels s1 = saidLabels s2 ∧ masked (saidLabels s1) s1.sad = masked (saidLabels s1) s2.sad

theorem sameBut_of {s1 s2 : Serder} (ha : s1.attrs = s2.attrs) (h : dummied (saidLabels s1) s1.sad = dummied (saidLabels s2) s2.sad) : SameBut s1 s2 := by
  have ht : getKey s1.sad ['t'] = getKey s2.sad ['t'] := by
    have := congrArg (fun f => getKey f ['t']) h
    simp only [dummied_get, if_neg (t_not_said s1).1, if_neg (t_not_said s2).1, Option.map_id'] at this
    exact this
  have hl := saidLabels_dummied ha ht
  refine ⟨hl, ?_⟩
  rw [← masked_dummied _ s1.sad, h, ← hl, masked_dummied]

/-- **C126.** The SAID of a message commits to its fields: two messages that are as they should be and have the same digest in a said field have the same
fields but for their SAIDs, or the two are a collision of the digest function. -/
theorem c126_commits {lib : Lib} (hw : DigestsOk lib) {s1 s2 : Serder} (r1 : Right lib s1) (r2 : Right lib s2) (ha : s1.attrs = s2.attrs)
    {Held : Flds → Prop} (R : Reader lib s1.attrs Held) (hk : s1.attrs.kind ≠ .cesr)
    (d1 : Held (dummied (saidLabels s1) s1.sad)) (d2 : Held (dummied (saidLabels s2) s2.sad)) {l c t : List Char}
    (h1 : l ∈ saidLabels s1) (h2 : l ∈ saidLabels s2) (e1 : codeAt (getKey s1.sad l) = some (c, t)) (hc : c ∈ digDex) (e2 : getKey s2.sad l = getKey s1.sad l) :
    SameBut s1 s2 ∨ Collision lib s1 s2 := by
  rcases same_ser hw r1 r2 h1 h2 e1 hc e2 with ⟨ser, p1, p2⟩ | h
  · left
    unfold Digested at p1 p2
    have b1 := R.back _ _ 0 d1 p1 (fun h => absurd h hk)
    rw [← ha] at p2
    have b2 := R.back _ _ 0 d2 p2 (fun h => absurd h hk)
    rw [b1] at b2
    injection b2 with b2
    exact sameBut_of ha b2
  · exact .inr h

/-- **C126.** The same for native CESR, where the SAID does not cover the version string. -/
theorem c126_commits_native {lib : Lib} (hw : DigestsOk lib) {s1 s2 : Serder} (r1 : Right lib s1) (r2 : Right lib s2) (ha : s1.attrs = s2.attrs)
    {Held : Flds → Prop} (R : Reader lib s1.attrs Held) (hk : s1.attrs.kind = .cesr) (hu : Unversioned (dumps lib s1.attrs))
    (d1 : Held (dummied (saidLabels s1) s1.sad)) (d2 : Held (dummied (saidLabels s2) s2.sad)) {l c t : List Char}
    (h1 : l ∈ saidLabels s1) (h2 : l ∈ saidLabels s2) (e1 : codeAt (getKey s1.sad l) = some (c, t)) (hc : c ∈ digDex) (e2 : getKey s2.sad l = getKey s1.sad l) :
    (saidLabels s1 = saidLabels s2 ∧ masked (['v'] :: saidLabels s1) s1.sad = masked (['v'] :: saidLabels s1) s2.sad) ∨ Collision lib s1 s2 := by
  rcases same_ser hw r1 r2 h1 h2 e1 hc e2 with ⟨ser, p1, p2⟩ | h
  · left
    unfold Digested at p1 p2
    obtain ⟨v1, g1, w1⟩ := r1.version
    obtain ⟨v2, g2, _⟩ := r2.version
    obtain ⟨vs, hvs⟩ : ∃ vs, versifyText s1.attrs s1.size = .ok vs := by
      unfold deversifyVal at w1
      split at w1
      · have := Prs.c84_parsed _ _ w1
        exact ⟨_, by unfold versifyText; rw [this]⟩
      · exact absurd w1 (by simp)
    obtain ⟨t, rfl, ht⟩ := plain_version hvs
    have key : ∀ (s : Serder), s.attrs = s1.attrs → Held (dummied (saidLabels s) s.sad) → (∃ v, getKey s.sad ['v'] = some v) →
        dumps lib s1.attrs (dummied (saidLabels s) s.sad) = .ok ser →
        lib.loads ⟨s1.attrs.proto, s1.attrs.pvrsn, s1.attrs.kind, s1.size, s1.attrs.gvrsn⟩ ser = .ok (setField (dummied (saidLabels s) s.sad) ['v'] (.text t)) := by
      intro s _ hd hv hp
      obtain ⟨v, hv⟩ := hv
      have hgd : getKey (dummied (saidLabels s) s.sad) ['v'] = some v := by
        rw [dummied_get, hv]; simp only [Option.map_some, if_neg (t_not_said s).2]
      have hm : ['v'] ∈ (dummied (saidLabels s) s.sad).map (·.1) := List.mem_map.2 ⟨_, getKey_mem hgd, rfl⟩
      refine R.back _ _ _ (R.set _ _ _ hd hm ht) ?_ (fun _ => ⟨_, hvs, by rw [getKey_setField, if_pos rfl]⟩)
      rw [hu _ _ v, setField_same (R.dict _ hd) hgd]
      exact hp
    have b1 := key s1 rfl d1 ⟨v1, g1⟩ p1
    have b2 := key s2 ha.symm d2 ⟨v2, g2⟩ (by rw [ha]; exact p2)
    rw [b1] at b2
    injection b2 with b2
    have hget : ∀ k, k ≠ ['v'] → getKey (dummied (saidLabels s1) s1.sad) k = getKey (dummied (saidLabels s2) s2.sad) k := by
      intro k hkv
      have := congrArg (fun f => getKey f k) b2
      simpa only [getKey_setField, if_neg hkv] using this
    have htt : getKey s1.sad ['t'] = getKey s2.sad ['t'] := by
      have := hget ['t'] (by decide)
      simpa only [dummied_get, if_neg (t_not_said s1).1, if_neg (t_not_said s2).1, Option.map_id'] using this
    have hl := saidLabels_dummied ha htt
    refine ⟨hl, ?_⟩
    have hvk : ∀ (s : Serder) v, getKey s.sad ['v'] = some v → ['v'] ∈ (dummied (saidLabels s) s.sad).map (·.1) := by
      intro s v h
      rw [dummied_keys]
      exact List.mem_map.2 ⟨_, getKey_mem h, rfl⟩
    have hkeys : s1.sad.map (·.1) = s2.sad.map (·.1) := by
      have := congrArg (fun f : Flds => f.map (·.1)) b2
      simpa only [keys_setField _ (hvk s1 v1 g1), keys_setField _ (hvk s2 v2 g2), dummied_keys] using this
    have hmk : ∀ f : Flds, (masked (['v'] :: saidLabels s1) f).map (·.1) = f.map (·.1) := by intro f; unfold masked; rw [List.map_map]; rfl
    apply dict_ext (by rw [hmk]; exact r1.dict) (by rw [hmk, hmk, hkeys])
    intro k
    have hg : ∀ (f : Flds), getKey (masked (['v'] :: saidLabels s1) f) k = (getKey f k).map fun v => if k ∈ ['v'] :: saidLabels s1 then none else some v :=
      fun f => getKey_map f (fun l v => if l ∈ ['v'] :: saidLabels s1 then none else some v) k
    rw [hg, hg]
    by_cases hks : k ∈ ['v'] :: saidLabels s1
    · have hsame : (getKey s1.sad k).isSome = (getKey s2.sad k).isSome := by
        cases x1 : getKey s1.sad k <;> cases x2 : getKey s2.sad k
        · rfl
        · have := getKey_none.1 x1
          rw [hkeys] at this
          exact absurd (List.mem_map.2 ⟨_, getKey_mem x2, rfl⟩) this
        · have := getKey_none.1 x2
          rw [← hkeys] at this
          exact absurd (List.mem_map.2 ⟨_, getKey_mem x1, rfl⟩) this
        · rfl
      cases x1 : getKey s1.sad k <;> cases x2 : getKey s2.sad k <;> rw [x1, x2] at hsame <;> simp [hks] at hsame ⊢
    · simp only [List.mem_cons, not_or] at hks
      have := hget k hks.1
      simp only [dummied_get, if_neg hks.2, if_neg (hl ▸ hks.2 : k ∉ saidLabels s2), Option.map_id'] at this
      rw [this]
  · exact .inr h

theorem numsM_dummied (ls : List (List Char)) : ∀ (sad : Flds), NumsM sad → NumsM (dummied ls sad) := by
  intro sad
  induction sad with
  | nil => intro h; exact h
  | cons p r ih =>
    obtain ⟨l, v⟩ := p
    intro h
    simp only [NumsM] at h
    simp only [dummied, List.map_cons, NumsM]
    refine ⟨?_, ih h.2⟩
    split
    · unfold dummyVal
      split
      · split
        · simp [Nums]
        · exact h.1
      · exact h.1
    · exact h.1

/-- **C126.** For the kind JSON nothing is asked of the serialization; the numbers in the fields are ones that JSON prints. -/
theorem c126_commits_json {lib : Lib} (hw : DigestsOk lib) {s1 s2 : Serder} (r1 : Right lib s1) (r2 : Right lib s2) (ha : s1.attrs = s2.attrs)
    (hk : s1.attrs.kind = .json) (n1 : NumsM s1.sad) (n2 : NumsM s2.sad) {l c t : List Char}
    (h1 : l ∈ saidLabels s1) (h2 : l ∈ saidLabels s2) (e1 : codeAt (getKey s1.sad l) = some (c, t)) (hc : c ∈ digDex) (e2 : getKey s2.sad l = getKey s1.sad l) :
    SameBut s1 s2 ∨ Collision lib s1 s2 := by
  rcases same_ser hw r1 r2 h1 h2 e1 hc e2 with ⟨ser, p1, p2⟩ | h
  · left
    unfold Digested dumps at p1 p2
    rw [← ha] at p2
    rw [hk] at p1 p2
    simp only [Except.ok.injEq] at p1 p2
    rw [← p2] at p1
    exact sameBut_of ha (json_inj (numsM_dummied _ _ n1) (numsM_dummied _ _ n2) p1)
  · exact .inr h

theorem masked_get {ls : List (List Char)} {a b : Flds} (h : masked ls a = masked ls b) : a.map (·.1) = b.map (·.1) ∧ ∀ k, k ∉ ls → getKey a k = getKey b k := by
  have hk : ∀ f : Flds, (masked ls f).map (·.1) = f.map (·.1) := by intro f; unfold masked; rw [List.map_map]; rfl
  have hg : ∀ (f : Flds) k, getKey (masked ls f) k = (getKey f k).map fun v => if k ∈ ls then none else some v :=
    fun f k => getKey_map f (fun l v => if l ∈ ls then none else some v) k
  refine ⟨by rw [← hk a, h, hk b], fun k hkl => ?_⟩
  have := congrArg (fun f => getKey f k) h
  simp only [hg, if_neg hkl] at this
  cases ha : getKey a k <;> cases hb : getKey b k <;> rw [ha, hb] at this <;> simp at this ⊢
  exact this

/-- **C126.** When the said fields have the same codes, the messages are the same. -/
theorem c126_determines {lib : Lib} (hw : DigestsOk lib) {s1 s2 : Serder} (r1 : Right lib s1) (r2 : Right lib s2) (ha : s1.attrs = s2.attrs)
    (hk : s1.attrs.kind = .json) (n1 : NumsM s1.sad) (n2 : NumsM s2.sad) {l c t : List Char}
    (h1 : l ∈ saidLabels s1) (h2 : l ∈ saidLabels s2) (e1 : codeAt (getKey s1.sad l) = some (c, t)) (hc : c ∈ digDex) (e2 : getKey s2.sad l = getKey s1.sad l)
    (hcodes : ∀ k ∈ saidLabels s1, (codeAt (getKey s1.sad k)).map (·.1) = (codeAt (getKey s2.sad k)).map (·.1)) :
    (s1.sad = s2.sad ∧ s1.raw = s2.raw) ∨ Collision lib s1 s2 := by
  rcases same_ser hw r1 r2 h1 h2 e1 hc e2 with ⟨ser, p1, p2⟩ | h
  · left
    have q1 := p1
    have q2 := p2
    unfold Digested dumps at q1 q2
    rw [← ha] at q2
    rw [hk] at q1 q2
    simp only [Except.ok.injEq] at q1 q2
    rw [← q2] at q1
    have hdd := json_inj (numsM_dummied _ _ n1) (numsM_dummied _ _ n2) q1
    obtain ⟨hl, hm⟩ := sameBut_of ha hdd
    obtain ⟨m1, m2⟩ := masked_get hm
    have hsad : s1.sad = s2.sad := by
      apply flds_ext r1.dict m1
      intro k
      by_cases hks : k ∈ saidLabels s1
      · obtain ⟨c1, t1, a1, a2⟩ := r1.digests k hks
        obtain ⟨c2, t2, b1, b2⟩ := r2.digests k (hl ▸ hks)
        have := hcodes k hks
        rw [a1, b1] at this
        simp only [Option.map_some, Option.some.injEq] at this
        subst this
        by_cases hcd : c1 ∈ digDex
        · obtain ⟨x1, y1, z1⟩ := a2 hcd
          obtain ⟨x2, y2, z2⟩ := b2 hcd
          unfold Digested at p1 p2 y1 y2
          rw [p1] at y1
          rw [p2] at y2
          injection y1 with y1
          injection y2 with y2
          subst y1 y2
          rw [z1] at z2
          injection z2 with z2
          rw [codeAt_text a1, codeAt_text b1, z2]
        · have := congrArg (fun f => getKey f k) hdd
          simp only [dummied_get, if_pos hks, if_pos (hl ▸ hks : k ∈ saidLabels s2)] at this
          rw [codeAt_text a1, codeAt_text b1] at this ⊢
          simp only [Option.map_some, Option.some.injEq] at this
          rw [codeAt_text a1] at a1
          rw [codeAt_text b1] at b1
          unfold dummyVal at this
          rw [a1, b1] at this
          simp only [if_neg hcd] at this
          rw [this]
      · exact m2 k hks
    refine ⟨hsad, ?_⟩
    have w1 := r1.dumped
    have w2 := r2.dumped
    rw [← ha, ← hsad, w1] at w2
    injection w2
  · exact .inr h

/-- **C128.** What `SerderKERI` accepts has a right prefix, unless it is a query, reply, prod, bare or exchange message of version 1.0: the prefix of a
delegated event is a digest; the prefix of an inception that is a public key is its only key, with threshold one; what has a nontransferable prefix has no next
keys, no witnesses and no anchors; and the delegator is a prefix. -/
theorem c128_prefix {lib : Lib} {Held : Flds → Prop} {s : Serder} (h : Accepted lib .keri Held s) :
    ∃ ilk, ilkOf s.sad = .ok ilk ∧
      (s.attrs.pvrsn = (1, 0) ∧ ilk ∈ [some ['q', 'r', 'y'], some ['r', 'p', 'y'], some ['p', 'r', 'o'], some ['b', 'a', 'r'], some ['e', 'x', 'n']] ∨
        ∃ code pre, getKey s.sad ['i'] = some (.text pre) ∧ codeAt (getKey s.sad ['i']) = some (code, pre) ∧ code ∈ preDex ∧
          (ilk = some dip ∨ ilk = some drt → code ∈ digDex) ∧
          (ilk = some icp ∨ ilk = some dip → code ∈ preNonDigDex → ∃ kt, getKey s.sad ['k'] = some (.list [.text pre]) ∧
            getKey s.sad ['k', 't'] = some kt ∧ lib.sithOne kt = true) ∧
          (ilk = some icp ∨ ilk = some dip ∨ ilk = some rot ∨ ilk = some drt → code ∈ nonTransDex →
            truthyOpt (getKey s.sad ['n']) = false ∧ truthyOpt (getKey s.sad ['b']) = false ∧ truthyOpt (getKey s.sad ['a']) = false)) ∧
      (ilk = some dip → ∃ c t, codeAt (getKey s.sad ['d', 'i']) = some (c, t) ∧ c ∈ preDex) := by
  obtain ⟨_, ilk, fd, e1, e2, e3, e4, e5⟩ := verifyKeri_facts ((check_ok.1 (accepted_checked h)).2 rfl)
  refine ⟨ilk, e1, ?_, ?_⟩
  · rcases e4 with e4 | e4
    · left
      unfold unprefixed at e4
      simp only [Bool.and_eq_true, decide_eq_true_eq] at e4
      refine ⟨?_, e4.2⟩
      unfold domain at e2
      cases hd : domains s.attrs.proto s.attrs.pvrsn with
      | none => rw [hd] at e2; simp at e2
      | some doms =>
        rcases domains_cases hd with ⟨_, e, _⟩ | ⟨_, e, _⟩ | ⟨_, e, _⟩ | ⟨_, e, _⟩
        · exact e
        · rw [e] at e4; simp at e4
        · exact e
        · rw [e] at e4; simp at e4
    · right
      unfold prefixOk at e4
      split at e4
      · exact absurd e4 (by simp)
      next code pre hc =>
      simp only [Bool.and_eq_true, decide_eq_true_eq, Bool.or_eq_true, Bool.not_eq_true', Bool.and_eq_false_iff, decide_eq_false_iff_not] at e4
      obtain ⟨⟨f1, f2⟩, f3⟩ := e4
      have hsub : ∀ c ∈ digDex, c ∈ preDex := by decide +kernel
      refine ⟨code, pre, codeAt_text hc, hc, ?_, ?_, ?_, ?_⟩
      · split at f1
        · exact hsub _ f1
        · exact f1
      · intro hi
        rw [if_pos hi] at f1
        exact f1
      · intro hi hcn
        rcases f2 with (h | h) | h
        · exact absurd hi h
        · exact absurd hcn h
        · unfold basicOk at h
          split at h
          · next k kt hk hkt =>
            simp only [Bool.and_eq_true, decide_eq_true_eq] at h
            exact ⟨kt, by rw [hk, h.2], hkt, h.1⟩
          · exact absurd h (by simp)
      · intro hi hcn
        rcases f3 with (h | h) | h
        · exact absurd hi h
        · exact absurd hcn h
        · exact ⟨h.1.1, h.1.2, h.2⟩
  · intro hi
    unfold delegatorOk at e5
    rw [hi] at e5
    simp only [ne_eq, not_true_eq_false, decide_false, Bool.false_or] at e5
    split at e5
    · next c t hc => exact ⟨c, t, hc, by simpa using e5⟩
    · exact absurd e5 (by simp)

end Verif.Ser
