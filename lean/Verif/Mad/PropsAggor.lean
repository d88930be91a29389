import Verif.Mad.AggorLemmas

/-! # Properties C122-C124: aggregates -/

namespace Verif.Mad

open Verif.B64 Verif.Matter

section
variable {w : AWorld} {kind : Kind} {strict : Bool} {saids : Saids}

theorem aggMake_facts {code raw : List Char} {ael ael' : List Val} (hw : HashOk w.toWorld) (hs : Dict saids) (hd : DictElems ael)
    (h : aggMake w kind strict saids code ael = .ok (raw, ael')) :
    aggFrom w kind strict saids code ael' = .ok raw ∧ DictElems ael' ∧ WholeElems ael' ∧ ael'.length = ael.length := by
  unfold aggMake at h
  split at h
  · split at h
    · exact absurd h (by simp)
    next hr =>
    simp only [Except.ok.injEq, Prod.mk.injEq] at h
    obtain ⟨rfl, rfl⟩ := h
    exact ⟨by unfold aggFrom aggVerify; simp only [hr], by simp [DictElems], by simp [WholeElems], rfl⟩
  next t r =>
    split at h
    · exact absurd h (by simp)
    next c a hm =>
    split at h
    · exact absurd h (by simp)
    next ser hser =>
    split at h
    · exact absurd h (by simp)
    next agid hag =>
    split at h
    · exact absurd h (by simp)
    next raw' hr =>
    simp only [Except.ok.injEq, Prod.mk.injEq] at h
    obtain ⟨rfl, rfl⟩ := h
    obtain ⟨i1, i2, i3, i4⟩ := makeElems_check hw hs hd.tail hm
    refine ⟨?_, ?_, ?_, by simp [i3]⟩
    · unfold aggFrom aggVerify aggSer
      simp only [hr, i1, hser, hag, if_true]
    · intro fs hf
      rw [List.mem_cons] at hf
      rcases hf with hf | hf
      · exact absurd hf (by simp)
      · exact i2 fs hf
    · intro u hu
      rw [List.mem_cons] at hu
      rcases hu with hu | hu
      · injection hu with hu; subst hu; exact isDig_digElem (digest_isDig hw hag)
      · exact isDig_digElem (i4 u hu)
  · exact absurd h (by simp)

theorem aggFrom_facts {code raw : List Char} {ael : List Val} (hne : ael ≠ []) (h : aggFrom w kind strict saids code ael = .ok raw) :
    exhaleList w kind strict ael = .ok raw ∧ ∃ agid r c ser, ael = .text agid :: r ∧ checkElems w kind strict saids r = .ok c ∧
      exhaleList w kind strict (.text (dummyOf code) :: c) = .ok ser ∧ aggSer w kind strict saids code r = .ok ser ∧ digestOf w.toWorld code ser = .ok agid := by
  unfold aggFrom at h
  split at h
  · exact absurd h (by simp)
  next raw' hr =>
  split at h
  · exact absurd h (by simp)
  next hv =>
  injection h with h
  subst h
  refine ⟨hr, ?_⟩
  unfold aggVerify at hv
  split at hv
  · exact absurd rfl hne
  next agid r =>
    split at hv
    · exact absurd hv (by simp)
    next ser hser =>
    split at hv
    · exact absurd hv (by simp)
    next d hd =>
    split at hv
    next hag =>
      subst hag
      have hser' := hser
      unfold aggSer at hser'
      split at hser'
      · exact absurd hser' (by simp)
      next c hc => exact ⟨agid, r, c, ser, rfl, hc, hser', hser, hd⟩
    · exact absurd hv (by simp)
  · exact absurd hv (by simp)

theorem said_shown {fs : Flds} (hw : HashOk w.toWorld) (hs : Dict saids) (hd : Dict fs) (h : verify w.toWorld kind strict saids fs = .ok ())
    (hf : ∃ p s v, saids = p :: s ∧ (p.1, v) ∈ fs) : Shown (saidVal saids fs) := by
  obtain ⟨⟨l, d⟩, s, v, rfl, hv⟩ := hf
  obtain ⟨ser, m1, _, h2⟩ := verify_facts hd hs h
  obtain ⟨t, rfl, ht⟩ := h2 l v d (by simp [getKey]) (getKey_of_mem hd hv)
  exact ⟨t, by unfold saidVal; simp only [getKey_of_mem hd hv], digest_isDig hw ht⟩

theorem check_shown {r c : List Val} {code ser : List Char} (hw : HashOk w.toWorld) (hs : Dict saids) (hd : DictElems r)
    (ho : kind = .other → HasFirst saids r) (hc : checkElems w kind strict saids r = .ok c)
    (he : exhaleList w kind strict (.text (dummyOf code) :: c) = .ok ser) : ∀ v ∈ c, Shown v := by
  cases kind with
  | cesr =>
    simp only [exhaleList] at he
    split at he
    · exact absurd he (by simp)
    next b hb =>
    rw [exhaleElems] at hb
    split at hb
    · exact absurd hb (by simp)
    next hb' => exact exhaleElems_shown (checkElems_shown hw hs hd hc) hb'
  | other =>
    have hf := ho rfl
    intro v hv
    obtain ⟨hl, hg⟩ := checkElems_get hc
    obtain ⟨k, hk, hkv⟩ := List.mem_iff_getElem.1 hv
    have hk' : k < r.length := by omega
    rcases hg k r[k] (by simp [hk']) with ⟨fs, e, hver, hcv⟩ | ⟨t, q, e, hq, hcv⟩
    · rw [List.getElem?_eq_getElem hk, hkv, Option.some.injEq] at hcv
      subst hcv
      have hm : Val.map fs ∈ r := e ▸ List.getElem_mem hk'
      exact said_shown hw hs (hd fs hm) hver (hf fs hm)
    · rw [List.getElem?_eq_getElem hk, hkv, Option.some.injEq] at hcv
      subst hcv
      exact ⟨q, rfl, digElem_isDig hq⟩
end

/-- C122: a list of elements that is given its aggregate verifies, and is as long as before. -/
theorem c122_made_verifies (w : AWorld) (kind : Kind) (strict : Bool) (saids : Saids) (code raw : List Char) (ael ael' : List Val) (hw : HashOk w.toWorld)
    (hs : Dict saids) (hd : DictElems ael) (h : aggMake w kind strict saids code ael = .ok (raw, ael')) :
    aggFrom w kind strict saids code ael' = .ok raw ∧ ael'.length = ael.length :=
  ⟨(aggMake_facts hw hs hd h).1, (aggMake_facts hw hs hd h).2.2.2⟩

theorem makeElems_kept {w : AWorld} {kind : Kind} {strict : Bool} {saids : Saids} (hw : HashOk w.toWorld) (hs : Dict saids) : ∀ {r c a : List Val}, DictElems r →
    makeElems w kind strict saids r = .ok (c, a) → ∀ k : Nat,
      (∀ fs, r[k]? = some (.map fs) → ∃ fs', a[k]? = some (.map fs') ∧ masked (saids.map (·.1)) fs' = masked (saids.map (·.1)) fs) ∧
      (∀ t, r[k]? = some (.text t) → ∃ q, digElem t = .ok q ∧ a[k]? = some (.text q)) := by
  intro r
  induction r with
  | nil => intro c a _ _ k; simp
  | cons e r ih =>
    intro c a hd h k
    cases e with
    | map fs =>
      rw [makeElems] at h
      split at h
      · exact absurd h (by simp)
      next raw fs1 s hm =>
      split at h
      · exact absurd h (by simp)
      next c' a' hr =>
      simp only [Except.ok.injEq, Prod.mk.injEq] at h
      obtain ⟨rfl, rfl⟩ := h
      cases k with
      | zero =>
        simp only [List.getElem?_cons_zero, Option.some.injEq]
        refine ⟨?_, by simp⟩
        rintro gs hg
        injection hg with hg
        subst hg
        exact ⟨fs1, rfl, c117_others_kept w.toWorld kind strict saids s fs fs1 raw hw (hd fs (by simp)) hs hm⟩
      | succ k => simp only [List.getElem?_cons_succ]; exact ih hd.tail hr k
    | text t =>
      rw [makeElems] at h
      split at h
      · exact absurd h (by simp)
      next q hq =>
      split at h
      · exact absurd h (by simp)
      next c' a' hr =>
      simp only [Except.ok.injEq, Prod.mk.injEq] at h
      obtain ⟨rfl, rfl⟩ := h
      cases k with
      | zero =>
        simp only [List.getElem?_cons_zero, Option.some.injEq]
        refine ⟨by simp, ?_⟩
        rintro gs hg
        injection hg with hg
        subst hg
        exact ⟨q, hq, rfl⟩
      | succ k => simp only [List.getElem?_cons_succ]; exact ih hd.tail hr k
    | null => simp [makeElems] at h
    | bool _ => simp [makeElems] at h
    | num _ => simp [makeElems] at h
    | list _ => simp [makeElems] at h

/-- C122: giving a list its aggregate changes nothing but the zeroth element and the SAIDs of the maps; of a text it keeps the digest at its front. -/
theorem c122_kept (w : AWorld) (kind : Kind) (strict : Bool) (saids : Saids) (code raw : List Char) (ael ael' : List Val) (hw : HashOk w.toWorld)
    (hs : Dict saids) (hd : DictElems ael) (h : aggMake w kind strict saids code ael = .ok (raw, ael')) (k : Nat) :
    (∀ fs, ael[k]? = some (.map fs) → ∃ fs', ael'[k]? = some (.map fs') ∧ masked (saids.map (·.1)) fs' = masked (saids.map (·.1)) fs) ∧
    (∀ t, 0 < k → ael[k]? = some (.text t) → ∃ q, digElem t = .ok q ∧ ael'[k]? = some (.text q)) := by
  unfold aggMake at h
  split at h
  · simp
  next t r =>
    split at h
    · exact absurd h (by simp)
    next c a hm =>
    split at h
    · exact absurd h (by simp)
    split at h
    · exact absurd h (by simp)
    split at h
    · exact absurd h (by simp)
    simp only [Except.ok.injEq, Prod.mk.injEq] at h
    obtain ⟨_, rfl⟩ := h
    cases k with
    | zero => simp
    | succ k =>
      simp only [List.getElem?_cons_succ]
      obtain ⟨h1, h2⟩ := makeElems_kept hw hs hd.tail hm k
      exact ⟨h1, fun t _ => h2 t⟩
  · exact absurd h (by simp)

theorem makeElems_elems {w : AWorld} {kind : Kind} {strict : Bool} {saids : Saids} : ∀ {r : List Val} {x : List Val × List Val},
    makeElems w kind strict saids r = .ok x → ∀ v ∈ r, (∃ fs, v = .map fs) ∨ ∃ t, v = .text t
  | [], _, _, v, hv => absurd hv (by simp)
  | e :: r, x, h, v, hv => by
    rw [List.mem_cons] at hv
    cases e with
    | map fs =>
      rcases hv with rfl | hv
      · exact .inl ⟨fs, rfl⟩
      rw [makeElems] at h
      split at h
      · exact absurd h (by simp)
      split at h
      · exact absurd h (by simp)
      next hr => exact makeElems_elems hr v hv
    | text t =>
      rcases hv with rfl | hv
      · exact .inr ⟨t, rfl⟩
      rw [makeElems] at h
      split at h
      · exact absurd h (by simp)
      split at h
      · exact absurd h (by simp)
      next hr => exact makeElems_elems hr v hv
    | null => simp [makeElems] at h
    | bool _ => simp [makeElems] at h
    | num _ => simp [makeElems] at h
    | list _ => simp [makeElems] at h

theorem aggMake_elems {w : AWorld} {kind : Kind} {strict : Bool} {saids : Saids} {code : List Char} {ael : List Val} {x : List Char × List Val}
    (h : aggMake w kind strict saids code ael = .ok x) : ∀ v ∈ ael, (∃ fs, v = .map fs) ∨ ∃ t, v = .text t := by
  unfold aggMake at h
  split at h
  · simp
  next t r =>
    split at h
    · exact absurd h (by simp)
    next hm =>
    intro v hv
    rw [List.mem_cons] at hv
    rcases hv with rfl | hv
    · exact .inr ⟨t, rfl⟩
    · exact makeElems_elems hm v hv
  · exact absurd h (by simp)

theorem masked_has {ls : List (List Char)} {l : List Char} {f g : Flds} (h : masked ls f = masked ls g) {v : Val} (hv : (l, v) ∈ g) : ∃ u, (l, u) ∈ f := by
  have h1 := congrArg (List.map Prod.fst) h
  simp only [masked, List.map_map, Function.comp_def] at h1
  have h2 : l ∈ g.map (fun p => p.1) := List.mem_map.2 ⟨_, hv, rfl⟩
  rw [← h1] at h2
  obtain ⟨⟨l', u⟩, h3, rfl⟩ := List.mem_map.1 h2
  exact ⟨u, h3⟩

/-- C122: of a list that verifies, whichever elements are disclosed, the disclosure shows those, keeps the others' SAIDs, has the same aggregate and verifies. -/
theorem c122_disclosure_partial (w : AWorld) (kind : Kind) (saids : Saids) (code raw : List Char) (ael : List Val) (hw : HashOk w.toWorld)
    (hs : Dict saids) (hd : DictElems ael) (ht : WholeElems ael) (hne : ael ≠ [])
    (ho : kind = .other → HasFirst saids ael ∧ ∀ vs, (∀ v ∈ vs, v ∈ ael ∨ ∃ t, v = .text t) → ∃ s, w.dumpsL vs = .ok s)
    (h : aggFrom w kind true saids code ael = .ok raw) (indices : List Int) :
    ∃ d, disclose w kind true saids ael indices = .ok d ∧ verifyDisclosure w kind saids code d = .ok true ∧ Discloses saids indices ael d ∧
      d.head? = ael.head? := by
  obtain ⟨hr, agid, r, c, ser, rfl, hc, hx, hsr, hag⟩ := aggFrom_facts hne h
  have hdig := digest_isDig hw hag
  have hsh := check_shown (code := code) hw hs hd.tail (fun e => fun fs hf => (ho e).1 fs (List.mem_cons_of_mem _ hf)) hc hx
  have hca : checkElems w kind true saids (.text agid :: r) = .ok (.text agid :: c) := by
    rw [checkElems, isDig_digElem hdig]; simp only [hc]
  obtain ⟨d, d1, d2, d3, d4⟩ := disclose_facts (a := .text agid :: r) hw hs indices 0 hd (fun t h => digElem_isDig (ht t h))
    (by intro v hv; rw [List.mem_cons] at hv; rcases hv with rfl | hv; exact ⟨agid, rfl, hdig⟩; exact hsh v hv) hca
  have hdis : Discloses saids indices (.text agid :: r) d := by
    refine ⟨d3.1, fun k => ?_⟩
    have := d3.2 k
    rwa [Nat.zero_add] at this
  have h0 := (hdis.2 0).2.1 agid (by simp)
  have hex : ∃ raw', exhaleList w kind true d = .ok raw' := by
    cases kind with
    | cesr =>
      simp only [exhaleList] at hr ⊢
      split at hr
      · exact absurd hr (by simp)
      next b hb =>
      obtain ⟨_, b', b1, b2, b3⟩ := d4 b rfl hb
      simp only [b1]
      exact (enclose_ok (.inr rfl) hr).2 b' b2 b3
    | other =>
      simp only [exhaleList]
      refine (ho rfl).2 d ?_
      intro v hv
      obtain ⟨k, hk, rfl⟩ := List.mem_iff_getElem.1 hv
      have hk' : k < (Val.text agid :: r).length := by rw [← hdis.1]; exact hk
      by_cases hi : (k : Int) ∈ indices
      · left
        have := (hdis.2 k).1 hi
        rw [List.getElem?_eq_getElem hk, List.getElem?_eq_getElem hk', Option.some.injEq] at this
        rw [this]
        exact List.getElem_mem hk'
      · right
        rcases (checkElems_get hca).2 k _ (List.getElem?_eq_getElem hk') with ⟨fs, e, _, _⟩ | ⟨t, q, e, _, _⟩
        · obtain ⟨_, _, t, _, _, hd⟩ := (hdis.2 k).2.2 hi fs (by rw [List.getElem?_eq_getElem hk', e])
          rw [List.getElem?_eq_getElem hk, Option.some.injEq] at hd
          exact ⟨t, hd⟩
        · have := (hdis.2 k).2.1 t (by rw [List.getElem?_eq_getElem hk', e])
          rw [List.getElem?_eq_getElem hk, Option.some.injEq] at this
          exact ⟨t, this⟩
  refine ⟨d, d1, ?_, hdis, by cases d with | nil => simp at h0 | cons v d' => simpa using h0⟩
  cases d with
  | nil => simp at h0
  | cons v d' =>
    simp only [List.getElem?_cons_zero, Option.some.injEq] at h0
    subst h0
    rw [checkElems, isDig_digElem hdig] at d2
    dsimp only at d2
    split at d2
    · exact absurd d2 (by simp)
    next c' hc' =>
    simp only [Except.ok.injEq, List.cons.injEq, true_and] at d2
    subst d2
    obtain ⟨raw', hraw'⟩ := hex
    unfold verifyDisclosure aggFrom aggVerify aggSer
    simp only [hraw', hc', hx, hag, if_true]

/-- C122: so too of a list just given its aggregate. -/
theorem c122_selective_partial (w : AWorld) (kind : Kind) (saids : Saids) (code raw : List Char) (ael ael' : List Val) (hw : HashOk w.toWorld)
    (hs : Dict saids) (hd : DictElems ael) (hne : ael ≠ [])
    (ho : kind = .other → HasFirst saids ael ∧ ∀ vs, (∀ v ∈ vs, v ∈ ael' ∨ ∃ t, v = .text t) → ∃ s, w.dumpsL vs = .ok s)
    (h : aggMake w kind true saids code ael = .ok (raw, ael')) (indices : List Int) :
    ∃ d, disclose w kind true saids ael' indices = .ok d ∧ verifyDisclosure w kind saids code d = .ok true ∧ Discloses saids indices ael' d ∧
      d.head? = ael'.head? := by
  obtain ⟨h1, h2, h3, h4⟩ := aggMake_facts hw hs hd h
  refine c122_disclosure_partial w kind saids code raw ael' hw hs h2 h3 ?_ (fun e => ⟨?_, (ho e).2⟩) h1 indices
  rotate_left
  · intro fs hf
    obtain ⟨k, hk, hkv⟩ := List.mem_iff_getElem.1 hf
    have hk' : k < ael.length := by omega
    obtain ⟨k1, k2⟩ := c122_kept w kind true saids code raw ael ael' hw hs hd h k
    have hkv' : ael'[k]? = some (.map fs) := by rw [List.getElem?_eq_getElem hk, hkv]
    rcases Nat.eq_zero_or_pos k with rfl | hpos
    · obtain ⟨_, agid, r, _, _, rfl, _⟩ := aggFrom_facts (by rintro rfl; simp at hk) h1
      simp at hkv'
    · cases he : ael[k] with
      | map gs =>
        obtain ⟨fs', f1, f2⟩ := k1 gs (by rw [List.getElem?_eq_getElem hk', he])
        rw [hkv'] at f1
        injection f1 with f1
        injection f1 with f1
        subst f1
        obtain ⟨p, s, v, q1, q2⟩ := (ho e).1 gs (by rw [← he]; exact List.getElem_mem hk')
        obtain ⟨u, q3⟩ := masked_has f2 q2
        exact ⟨p, s, u, q1, q3⟩
      | text t =>
        obtain ⟨q, _, q2⟩ := k2 t hpos (by rw [List.getElem?_eq_getElem hk', he])
        rw [hkv'] at q2
        exact absurd q2 (by simp)
      | _ => rcases aggMake_elems h _ (List.getElem_mem hk') with ⟨_, hx⟩ | ⟨_, hx⟩ <;> rw [he] at hx <;> exact absurd hx (by simp)
  rintro rfl
  exact hne (List.eq_nil_of_length_eq_zero h4.symm)

section
variable {w : AWorld} {kind : Kind} {strict : Bool} {saids : Saids}

/-- How the elements agree once their compact forms are the same. -/
theorem same_elems {r1 r2 c : List Val} (h1 : checkElems w kind strict saids r1 = .ok c) (h2 : checkElems w kind strict saids r2 = .ok c)
    (hw : HashOk w.toWorld) (hs : Dict saids) (hd1 : DictElems r1) (hd2 : DictElems r2) (hsh : ∀ v ∈ c, Shown v)
    (hm : ∀ f g, Val.map f ∈ r1 → Val.map g ∈ r2 → verify w.toWorld kind strict saids f = .ok () → verify w.toWorld kind strict saids g = .ok () →
      ∀ l d v, (l, d) ∈ saids → (l, v) ∈ f → (l, v) ∈ g → masked (saids.map (·.1)) f = masked (saids.map (·.1)) g ∨ Collision w.toWorld kind strict saids f g) :
    r1.length = r2.length ∧ ∀ (k : Nat) e1 e2, r1[k]? = some e1 → r2[k]? = some e2 → SameElem w kind strict saids e1 e2 := by
  obtain ⟨l1, g1⟩ := checkElems_get h1
  obtain ⟨l2, g2⟩ := checkElems_get h2
  refine ⟨by omega, ?_⟩
  intro k e1 e2 h1 h2
  have mem : ∀ {v : Val}, c[k]? = some v → Shown v := fun h => hsh _ (List.mem_of_getElem? h)
  have first : ∀ {fs : Flds} {q : List Char}, Dict fs → verify w.toWorld kind strict saids fs = .ok () → saidVal saids fs = .text q →
      ∃ p s, saids = p :: s ∧ (p.1, Val.text q) ∈ fs := by
    intro fs q hd hv he
    rcases said_isDig hw hs hd hv with h | ⟨t, h1, _, p, s, h3, h4⟩
    · rw [he] at h; exact absurd h (by simp)
    · rw [he] at h1; injection h1 with h1; subst h1; exact ⟨p, s, h3, h4⟩
  rcases g1 k e1 h1 with ⟨f, rfl, v1, c1⟩ | ⟨t, q, rfl, v1, c1⟩
  · obtain ⟨q, hq, _⟩ := mem c1
    obtain ⟨p, s, hp, hpf⟩ := first (hd1 f (List.mem_of_getElem? h1)) v1 hq
    rcases g2 k e2 h2 with ⟨g, rfl, v2, c2⟩ | ⟨u, q', rfl, v2, c2⟩
    · rw [c1, Option.some.injEq, hq] at c2
      obtain ⟨p', s', hp', hpg⟩ := first (hd2 g (List.mem_of_getElem? h2)) v2 c2.symm
      rw [hp] at hp'
      injection hp' with hpe _
      subst hpe
      exact hm f g (List.mem_of_getElem? h1) (List.mem_of_getElem? h2) v1 v2 p.1 p.2 _ (by rw [hp]; simp) hpf hpg
    · rw [c1, Option.some.injEq, hq, Val.text.injEq] at c2
      subst c2
      exact ⟨p, s, q, hp, hpf, v2⟩
  · rcases g2 k e2 h2 with ⟨g, rfl, v2, c2⟩ | ⟨u, q', rfl, v2, c2⟩
    · rw [c1, Option.some.injEq] at c2
      obtain ⟨p, s, hp, hpg⟩ := first (hd2 g (List.mem_of_getElem? h2)) v2 c2.symm
      exact ⟨p, s, q, hp, hpg, v1⟩
    · rw [c1, Option.some.injEq, Val.text.injEq] at c2
      subst c2
      exact ⟨q, v1, v2⟩

theorem agid_ser {code agid ser1 ser2 : List Char} (hw : HashOk w.toWorld) (h1 : digestOf w.toWorld code ser1 = .ok agid) (h2 : digestOf w.toWorld code ser2 = .ok agid) :
    w.hash code ser1 = w.hash code ser2 := by
  obtain ⟨m1, _, _, a3, _, a5⟩ := digest_facts hw h1
  obtain ⟨m2, _, _, b3, _, b5⟩ := digest_facts hw h2
  rw [a5] at b5
  injection b5 with b5
  subst b5
  exact a3.symm.trans b3
end

/-- C123: an aggregate commits to the elements and their order: two lists that verify and have the same aggregate are equally long and agree at every place,
or are a collision of the digest function.  Native serialization. -/
theorem c123_commits_partial (env : Env) (w : AWorld) (strict : Bool) (saids : Saids) (code agid raw1 raw2 : List Char) (r1 r2 : List Val) (hw : HashOk w.toWorld)
    (hs : Dict saids) (g1 : ∀ f, Val.map f ∈ r1 → Good env (.map f)) (g2 : ∀ f, Val.map f ∈ r2 → Good env (.map f))
    (h1 : aggFrom w .cesr strict saids code (.text agid :: r1) = .ok raw1) (h2 : aggFrom w .cesr strict saids code (.text agid :: r2) = .ok raw2) :
    (r1.length = r2.length ∧ ∀ (k : Nat) e1 e2, r1[k]? = some e1 → r2[k]? = some e2 → SameElem w .cesr strict saids e1 e2) ∨
      AggCollision w .cesr strict saids code r1 r2 := by
  have d1 : DictElems r1 := fun f h => (by have := g1 f h; simp only [Good] at this; exact this.1)
  have d2 : DictElems r2 := fun f h => (by have := g2 f h; simp only [Good] at this; exact this.1)
  obtain ⟨_, a1, x1, c1, ser1, e1, k1, y1, z1, u1⟩ := aggFrom_facts (by simp) h1
  obtain ⟨_, a2, x2, c2, ser2, e2, k2, y2, z2, u2⟩ := aggFrom_facts (by simp) h2
  injection e1 with e1 e1'
  injection e1 with e1
  injection e2 with e2 e2'
  injection e2 with e2
  subst e1 e1' e2 e2'
  have hh := agid_ser hw u1 u2
  by_cases hse : ser1 = ser2
  · subst hse
    left
    have s1 := check_shown (code := code) hw hs d1 (by simp) k1 y1
    have s2 := check_shown (code := code) hw hs d2 (by simp) k2 y2
    have hcc : c1 = c2 := by
      simp only [exhaleList] at y1 y2
      split at y1
      · exact absurd y1 (by simp)
      next b1 hb1 =>
      split at y2
      · exact absurd y2 (by simp)
      next b2 hb2 =>
      have := enclose_injx y1 y2
      subst this
      rw [exhaleElems] at hb1 hb2
      split at hb1
      · exact absurd hb1 (by simp)
      next b1' hb1' =>
      split at hb2
      · exact absurd hb2 (by simp)
      next b2' hb2' =>
      injection hb1 with hb1
      injection hb2 with hb2
      rw [← hb2] at hb1
      have := List.append_cancel_left hb1
      subst this
      exact exhaleElems_inj s1 s2 hb1' hb2'
    subst hcc
    exact same_elems k1 k2 hw hs d1 d2 s1 (fun f g hf hg v1 v2 l d v hl hv1 hv2 =>
      c118_commits_partial env w.toWorld strict saids f g hw hs (g1 f hf) (g2 g hg) v1 v2 l d v hl hv1 hv2)
  · exact .inr ⟨ser1, ser2, z1, z2, hse, hh⟩

/-- C123 for the other kinds, when their serialization is unambiguous and the maps of one of the lists have the first of the said fields. -/
theorem c123_commits_other_partial (w : AWorld) (strict : Bool) (saids : Saids) (code agid raw1 raw2 : List Char) (r1 r2 : List Val) (hw : HashOk w.toWorld)
    (hs : Dict saids) (d1 : DictElems r1) (d2 : DictElems r2) (f1 : HasFirst saids r1)
    (hm : ∀ a b s, w.dumps a = .ok s → w.dumps b = .ok s → a = b) (hl : ∀ a b s, w.dumpsL a = .ok s → w.dumpsL b = .ok s → a = b)
    (h1 : aggFrom w .other strict saids code (.text agid :: r1) = .ok raw1) (h2 : aggFrom w .other strict saids code (.text agid :: r2) = .ok raw2) :
    (r1.length = r2.length ∧ ∀ (k : Nat) e1 e2, r1[k]? = some e1 → r2[k]? = some e2 → SameElem w .other strict saids e1 e2) ∨
      AggCollision w .other strict saids code r1 r2 := by
  obtain ⟨_, a1, x1, c1, ser1, e1, k1, y1, z1, u1⟩ := aggFrom_facts (by simp) h1
  obtain ⟨_, a2, x2, c2, ser2, e2, k2, y2, z2, u2⟩ := aggFrom_facts (by simp) h2
  injection e1 with e1 e1'
  injection e1 with e1
  injection e2 with e2 e2'
  injection e2 with e2
  subst e1 e1' e2 e2'
  have hh := agid_ser hw u1 u2
  by_cases hse : ser1 = ser2
  · subst hse
    left
    have s1 := check_shown (code := code) hw hs d1 (fun _ => f1) k1 y1
    have hcc : c1 = c2 := by
      simp only [exhaleList] at y1 y2
      have := hl _ _ _ y1 y2
      injection this
    subst hcc
    exact same_elems k1 k2 hw hs d1 d2 s1 (fun f g hf hg v1 v2 l d v hl hv1 hv2 =>
      c118_commits_other w.toWorld strict saids f g hw hs hm (d1 f hf) (d2 g hg) v1 v2 l d v hl hv1 hv2)
  · exact .inr ⟨ser1, ser2, z1, z2, hse, hh⟩

/-- C123: with one said field, a map shown by two disclosures at the same place is the same map, or a collision. -/
theorem c123_same_map (w : AWorld) (kind : Kind) (strict : Bool) (l d : List Char) (v : Val) (f g : Flds) (hf : Dict f) (hg : Dict g) (e1 : (l, v) ∈ f) (e2 : (l, v) ∈ g)
    (h : SameElem w kind strict [(l, d)] (.map f) (.map g)) : f = g ∨ Collision w.toWorld kind strict [(l, d)] f g := by
  rcases h with h | h
  · exact .inl (masked_single hf hg e1 e2 h)
  · exact .inr h

/-- C124: the native serialization of a list that verifies is read back and verifies, whatever follows on the stream. -/
theorem c124_received_partial (env : Env) (w : AWorld) (strict : Bool) (saids : Saids) (code raw : List Char) (ael : List Val)
    (hg : ∀ f, Val.map f ∈ ael → Good env (.map f)) (ht : WholeElems ael) (h : aggFrom w .cesr strict saids code ael = .ok raw) :
    ∀ rest, aggFromRaw env w strict saids code (raw ++ rest) = .ok (ael, rest) := by
  intro rest
  unfold aggFrom at h
  split at h
  · exact absurd h (by simp)
  next raw' hr =>
  split at h
  · exact absurd h (by simp)
  next hv =>
  injection h with h
  subst h
  simp only [exhaleList] at hr
  split at hr
  · exact absurd hr (by simp)
  next b hb =>
  obtain ⟨c, hd, g⟩ := group_reads (.inr rfl) hr
  have hlen : Ctr.byteCountText c + hd.length = raw'.length := by rw [g.count, g.eq, List.length_append]; omega
  have hp := g.peek (b ++ rest)
  rw [← List.append_assoc, ← g.eq] at hp
  have h4 := (enclose_ok (.inr rfl) hr).1
  have hcount : b.length = c.count * 4 := by rw [← g.count]; rfl
  have hl : isListCtr c = true := by unfold isListCtr; rcases g.code with e | e <;> rw [e] <;> decide
  have ha : aggInhale env strict raw' = .ok ael := by
    have htk := g.take []
    rw [List.append_nil, List.append_nil] at htk
    unfold aggInhale
    rw [htk]
    dsimp only
    rw [if_neg (by simp [hl]), if_neg (by simp [hcount])]
    exact inhaleElems_back env hg (fun t h => digElem_isDig (ht t h)) hb _ (Nat.le_refl _)
  unfold aggFromRaw
  simp only [hp, g.full, hlen, List.take_left' rfl, List.drop_left' rfl, ha, hv]

/-- C124: so a list given its aggregate is received as it was made. -/
theorem c124_made_partial (env : Env) (w : AWorld) (strict : Bool) (saids : Saids) (code raw : List Char) (ael ael' : List Val) (hw : HashOk w.toWorld)
    (hs : Dict saids) (hd : DictElems ael) (hg : ∀ f, Val.map f ∈ ael' → Good env (.map f)) (h : aggMake w .cesr strict saids code ael = .ok (raw, ael')) :
    ∀ rest, aggFromRaw env w strict saids code (raw ++ rest) = .ok (ael', rest) := by
  obtain ⟨h1, _, h3, _⟩ := aggMake_facts hw hs hd h
  exact c124_received_partial env w strict saids code raw ael' hg h3 h1

theorem aggVerify_facts {w : AWorld} {kind : Kind} {strict : Bool} {saids : Saids} {code : List Char} {ael : List Val} (hv : aggVerify w kind strict saids code ael = .ok ()) :
    ael = [] ∨ ∃ agid r ser, ael = .text agid :: r ∧ aggSer w kind strict saids code r = .ok ser ∧ digestOf w.toWorld code ser = .ok agid := by
  unfold aggVerify at hv
  split at hv
  · exact .inl rfl
  next agid r =>
    split at hv
    · exact absurd hv (by simp)
    next ser hser =>
    split at hv
    · exact absurd hv (by simp)
    next d hd =>
    split at hv
    next hag => exact .inr ⟨agid, r, ser, rfl, hser, hag ▸ hd⟩
    · exact absurd hv (by simp)
  · exact absurd hv (by simp)

/-- C124: what is read as an aggregate verifies, and the aggregate it gives is the digest of what its elements commit to. -/
theorem c124_checked (env : Env) (w : AWorld) (strict : Bool) (saids : Saids) (code raw rest : List Char) (ael : List Val)
    (h : aggFromRaw env w strict saids code raw = .ok (ael, rest)) :
    aggVerify w .cesr strict saids code ael = .ok () ∧ (ael = [] ∨ ∃ agid r ser, ael = .text agid :: r ∧ aggSer w .cesr strict saids code r = .ok ser ∧
      digestOf w.toWorld code ser = .ok agid) := by
  unfold aggFromRaw at h
  split at h
  · exact absurd h (by simp)
  split at h
  · exact absurd h (by simp)
  split at h
  · exact absurd h (by simp)
  split at h
  · exact absurd h (by simp)
  next hv =>
  simp only [Except.ok.injEq, Prod.mk.injEq] at h
  obtain ⟨rfl, _⟩ := h
  exact ⟨hv, aggVerify_facts hv⟩

/-- C122: a disclosure is taken as verified only if it verifies. -/
theorem c122_checked (w : AWorld) (kind : Kind) (saids : Saids) (code : List Char) (ael : List Val) (h : verifyDisclosure w kind saids code ael = .ok true) :
    ∃ agid r ser, ael = .text agid :: r ∧ aggSer w kind true saids code r = .ok ser ∧ digestOf w.toWorld code ser = .ok agid := by
  unfold verifyDisclosure at h
  split at h
  · exact absurd h (by simp)
  next raw hr =>
  split at h
  · exact absurd h (by simp)
  next v r =>
  obtain ⟨_, agid, r, _, ser, he, _, _, hs, hd⟩ := aggFrom_facts (by simp) hr
  exact ⟨agid, r, ser, he, hs, hd⟩

end Verif.Mad
