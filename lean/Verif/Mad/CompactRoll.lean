import Verif.Mad.CompactLoop

/-! # Going around does not change the most compact form -/

namespace Verif.Mad

open Verif.B64 Verif.Matter

section
variable {w : World} {kind : Kind} {saids : Saids}

theorem exfil_nil : ∀ m, exfil [] ≠ .ok m := by
  intro m h
  have : (match exfil [] with | .ok _ => true | .error _ => false) = false := by decide +kernel
  rw [h] at this
  exact absurd this (by simp)

theorem made_said (hw : HashOk w) (hs : Dict saids) {strict : Bool} {mad mad' : Flds} {raw : List Char} {s : Saids} (hm : Dict mad)
    (h : makify w kind strict saids mad = .ok (raw, mad', s)) :
    isMap (saidVal saids mad') = false ∧ (∀ p r v, saids = p :: r → getKey mad p.1 = some v →
      ∃ t m, saidVal saids mad' = .text t ∧ exfil t = .ok m ∧ m.code ∈ digDex) := by
  obtain ⟨ser, f, h1, h2, _, h4, _⟩ := makify_facts hw hm hs h
  cases hc : saids with
  | nil => simp [saidVal, isMap]
  | cons p r =>
    obtain ⟨l, d⟩ := p
    have hg : getKey s l = some (pickCode (getKey mad l) d) := by
      rw [h1, finalCodes_get, hc, getKey_at, if_pos rfl]; rfl
    unfold saidVal
    dsimp only
    rw [h2, filled_get, hg]
    cases hml : getKey mad l with
    | none =>
      refine ⟨rfl, ?_⟩
      intro p r' v e hv
      injection e with e _
      subst e
      dsimp only at hv
      rw [hml] at hv
      exact absurd hv (by simp)
    | some u =>
      rw [hml] at hg
      refine ⟨rfl, ?_⟩
      intro p r' v e hv
      have hd := h4 l (pickCode (some u) d) (getKey_mem hg) (by rw [hml]; rfl)
      obtain ⟨m, d1, d2, d3, d4, d5⟩ := digest_facts hw hd
      exact ⟨_, m, rfl, d5, d2 ▸ d4⟩

theorem made_truthy (hw : HashOk w) (hs : Dict saids) {strict : Bool} {mad mad' : Flds} {raw : List Char} {s : Saids} (hm : Dict mad)
    (hp : Primary saids mad) (ha : anySaid saids mad = true)
    (h : makify w kind strict saids mad = .ok (raw, mad', s)) : truthy (saidVal saids mad') = true := by
  obtain ⟨p, r, v, e, hv⟩ := hp ha
  obtain ⟨t, m, a, b, _⟩ := (made_said hw hs hm h).2 p r v e hv
  rw [a]
  cases t with
  | nil => exact absurd b (exfil_nil m)
  | cons _ _ => rfl

mutual
theorem rolledV_none (w : World) (kind : Kind) (saids : Saids) : ∀ v, hasSaidV saids v = false → rolledV w kind saids v = .ok v
  | .map fs, h => by
    rw [hasSaidV] at h
    rw [rolledV, rolledF_none w kind saids fs h]
    dsimp only
    rw [if_neg]
    intro ha
    rw [hasSaidF_iff.2 (.inl ha)] at h
    exact absurd h (by simp)
  | .null, _ => by simp [rolledV]
  | .bool _, _ => by simp [rolledV]
  | .num _, _ => by simp [rolledV]
  | .text _, _ => by simp [rolledV]
  | .list _, _ => by simp [rolledV]

theorem rolledF_none (w : World) (kind : Kind) (saids : Saids) : ∀ fs, hasSaidF saids fs = false → rolledF w kind saids fs = .ok fs
  | [], _ => by simp [rolledF]
  | (l, v) :: r, h => by
    rw [hasSaidF] at h
    split at h
    · exact absurd h (by simp)
    next hl =>
    split at h
    · exact absurd h (by simp)
    next hv =>
    rw [rolledF, if_neg (by simp [hl]), rolledV_none w kind saids v (by simpa using hv)]
    dsimp only
    rw [rolledF_none w kind saids r h]
end

theorem rdF_keys {fs fs1 : Flds} {n : Bool} (h : rdF w kind saids fs = .ok (fs1, n)) : fs1.map (·.1) = fs.map (·.1) := by
  induction fs generalizing fs1 n with
  | nil => simp only [rdF, Except.ok.injEq, Prod.mk.injEq] at h; obtain ⟨rfl, _⟩ := h; rfl
  | cons q r ih =>
    obtain ⟨l, v⟩ := q
    rw [rdF] at h
    split at h
    · exact absurd h (by simp)
    split at h
    · split at h
      · exact absurd h (by simp)
      split at h
      · exact absurd h (by simp)
      next hr =>
      simp only [Except.ok.injEq, Prod.mk.injEq] at h
      obtain ⟨rfl, _⟩ := h
      simp only [List.map_cons, ih hr]
    · split at h
      · exact absurd h (by simp)
      next hr =>
      simp only [Except.ok.injEq, Prod.mk.injEq] at h
      obtain ⟨rfl, _⟩ := h
      simp only [List.map_cons, ih hr]

theorem anySaid_keys {fs gs : Flds} (h : gs.map (·.1) = fs.map (·.1)) : anySaid saids gs = anySaid saids fs := by
  unfold anySaid
  congr 1
  funext p
  have : (getKey gs p.1 = none) ↔ (getKey fs p.1 = none) := by rw [getKey_none, getKey_none, h]
  cases h1 : getKey gs p.1 <;> cases h2 : getKey fs p.1 <;> simp_all

theorem rdF_nested {fs fs1 : Flds} {n : Bool} (h : rdF w kind saids fs = .ok (fs1, n)) :
    (n = true ↔ ∃ p ∈ fs, hasSaidV saids p.2 = true) ∧ (n = false → fs1 = fs ∧ rolledF w kind saids fs = .ok fs) := by
  induction fs generalizing fs1 n with
  | nil => simp only [rdF, Except.ok.injEq, Prod.mk.injEq] at h; obtain ⟨rfl, rfl⟩ := h; simp [rolledF]
  | cons q r ih =>
    obtain ⟨l, v⟩ := q
    rw [rdF] at h
    split at h
    · exact absurd h (by simp)
    next hl =>
    split at h
    · next hv =>
      split at h
      · exact absurd h (by simp)
      split at h
      · exact absurd h (by simp)
      simp only [Except.ok.injEq, Prod.mk.injEq] at h
      obtain ⟨_, rfl⟩ := h
      exact ⟨⟨fun _ => ⟨_, List.mem_cons_self .., hv⟩, fun _ => rfl⟩, by simp⟩
    · next hv =>
      split at h
      · exact absurd h (by simp)
      next hr =>
      simp only [Except.ok.injEq, Prod.mk.injEq] at h
      obtain ⟨rfl, rfl⟩ := h
      obtain ⟨a, b⟩ := ih hr
      refine ⟨by rw [a]; simp [hv], ?_⟩
      intro hn
      obtain ⟨c, d⟩ := b hn
      refine ⟨by rw [c], ?_⟩
      rw [rolledF, if_neg hl, rolledV_none w kind saids v (by simpa using hv)]
      dsimp only
      rw [d]

theorem isMap_hasSaid {v : Val} (h : isMap v = false) : hasSaidV saids v = false := by
  cases v <;> first | rfl | simp [isMap] at h

theorem rolledV_notMap {v : Val} (h : isMap v = false) : rolledV w kind saids v = .ok v := rolledV_none w kind saids v (isMap_hasSaid h)

theorem tidy_notMap {v : Val} (h : isMap v = false) : Tidy v := by
  cases v <;> first | (simp [Tidy]; done) | simp [isMap] at h

theorem maps_notMap {v : Val} (h : isMap v = false) : mapsV v = 0 := by
  cases v <;> first | (simp [mapsV]; done) | simp [isMap] at h

mutual
/-- What a round leaves: as tidy, with fewer maps, of the same most compact form. -/
theorem rdV_facts (w : World) (kind : Kind) (saids : Saids) (hw : HashOk w) (hs : Dict saids) : ∀ (v v1 : Val), Tidy v → rdV w kind saids v = .ok v1 →
    Tidy v1 ∧ rolledV w kind saids v1 = rolledV w kind saids v ∧ (isMap v1 = true → isMap v = true) ∧ (hasSaidV saids v = true → mapsV v1 < mapsV v)
  | .map fs, v1, t, h => by
    rw [Tidy] at t
    rw [rdV] at h
    split at h
    · exact absurd h (by simp)
    next fs1 n hf =>
    obtain ⟨a1, a2, a3⟩ := rdF_facts w kind saids hw hs fs fs1 n t.1 t.2 hf
    obtain ⟨b1, b2⟩ := rdF_nested hf
    split at h
    · next hc =>
      simp only [Bool.and_eq_true, Bool.not_eq_true'] at hc
      obtain ⟨rfl, c2⟩ := b2 hc.2
      split at h
      · exact absurd h (by simp)
      next raw fs2 s hm =>
      injection h with h
      subst h
      have hmap := (made_said hw hs t.1 hm).1
      refine ⟨tidy_notMap hmap, ?_, by rw [hmap]; simp, ?_⟩
      · rw [rolledV_notMap hmap, rolledV, c2]
        dsimp only
        rw [if_pos hc.1, hm]
      · intro _
        rw [maps_notMap hmap, mapsV]
        omega
    · next hc =>
      injection h with h
      subst h
      refine ⟨by rw [Tidy]; exact ⟨by rw [rdF_keys hf]; exact t.1, a1⟩, ?_, fun _ => rfl, ?_⟩
      · rw [rolledV, rolledV, a2, anySaid_keys (rdF_keys hf)]
      · intro hh
        rw [hasSaidV, hasSaidF_iff] at hh
        have hn : n = true := by
          rcases hh with hh | hh
          · simpa [hh] using hc
          · exact b1.2 hh
        have := a3 hn
        rw [mapsV, mapsV]
        omega
  | .null, _, _, h => by simp only [rdV, Except.ok.injEq] at h; subst h; simp [Tidy, isMap, hasSaidV]
  | .bool _, _, _, h => by simp only [rdV, Except.ok.injEq] at h; subst h; simp [Tidy, isMap, hasSaidV]
  | .num _, _, _, h => by simp only [rdV, Except.ok.injEq] at h; subst h; simp [Tidy, isMap, hasSaidV]
  | .text _, _, _, h => by simp only [rdV, Except.ok.injEq] at h; subst h; simp [Tidy, isMap, hasSaidV]
  | .list _, _, _, h => by simp only [rdV, Except.ok.injEq] at h; subst h; simp [Tidy, isMap, hasSaidV]

theorem rdF_facts (w : World) (kind : Kind) (saids : Saids) (hw : HashOk w) (hs : Dict saids) : ∀ (fs fs1 : Flds) (n : Bool), (fs.map (·.1)).Nodup →
    TidyF fs → rdF w kind saids fs = .ok (fs1, n) →
    TidyF fs1 ∧ rolledF w kind saids fs1 = rolledF w kind saids fs ∧ (n = true → mapsF fs1 < mapsF fs)
  | [], _, _, _, _, h => by simp only [rdF, Except.ok.injEq, Prod.mk.injEq] at h; obtain ⟨rfl, rfl⟩ := h; simp [TidyF]
  | (l, v) :: r, fs1, n, hn, t, h => by
    rw [TidyF] at t
    rw [List.map_cons, List.nodup_cons] at hn
    rw [rdF] at h
    split at h
    · exact absurd h (by simp)
    next hl =>
    split at h
    · next hv =>
      split at h
      · exact absurd h (by simp)
      next v1 hv1 =>
      split at h
      · exact absurd h (by simp)
      next r1 n1 hr =>
      simp only [Except.ok.injEq, Prod.mk.injEq] at h
      obtain ⟨rfl, rfl⟩ := h
      obtain ⟨a1, a2, a3, a4⟩ := rdV_facts w kind saids hw hs v v1 t.2.1 hv1
      obtain ⟨b1, b2, b3⟩ := rdF_facts w kind saids hw hs r r1 n1 hn.2 t.2.2 hr
      refine ⟨by rw [TidyF]; exact ⟨t.1, a1, b1⟩, ?_, ?_⟩
      · rw [rolledF, rolledF, if_neg hl, if_neg, a2, b2]
        intro h2
        simp only [Bool.and_eq_true] at h2 hl
        exact hl ⟨a3 h2.1, h2.2⟩
      · intro _
        have := a4 hv
        rw [mapsF, mapsF]
        have : mapsF r1 ≤ mapsF r := by
          cases n1 with
          | true => exact Nat.le_of_lt (b3 rfl)
          | false => rw [((rdF_nested hr).2 rfl).1]; exact Nat.le_refl _
        omega
    · split at h
      · exact absurd h (by simp)
      next r1 n1 hr =>
      simp only [Except.ok.injEq, Prod.mk.injEq] at h
      obtain ⟨rfl, rfl⟩ := h
      obtain ⟨b1, b2, b3⟩ := rdF_facts w kind saids hw hs r r1 n1 hn.2 t.2.2 hr
      refine ⟨by rw [TidyF]; exact ⟨t.1, t.2.1, b1⟩, ?_, ?_⟩
      · rw [rolledF, rolledF, if_neg hl, if_neg hl, b2]
      · intro h
        have := b3 h
        rw [mapsF, mapsF]
        omega
end

mutual
theorem rdV_ok (w : World) (kind : Kind) (saids : Saids) : ∀ (v x : Val), rolledV w kind saids v = .ok x → ∃ v1, rdV w kind saids v = .ok v1
  | .map fs, x, h => by
    rw [rolledV] at h
    split at h
    · exact absurd h (by simp)
    next fs1 hf =>
    obtain ⟨y, hy⟩ := rdF_ok w kind saids fs fs1 hf
    obtain ⟨fs2, n⟩ := y
    rw [rdV, hy]
    dsimp only
    by_cases hc : (anySaid saids fs && !n) = true
    · rw [if_pos hc]
      simp only [Bool.and_eq_true, Bool.not_eq_true'] at hc
      obtain ⟨rfl, c2⟩ := (rdF_nested hy).2 hc.2
      rw [hf] at c2
      injection c2 with c2
      subst c2
      rw [if_pos hc.1] at h
      split at h
      · exact absurd h (by simp)
      · next hm => rw [hm]; exact ⟨_, rfl⟩
    · rw [if_neg hc]; exact ⟨_, rfl⟩
  | .null, _, _ => ⟨_, by rw [rdV]; simp⟩
  | .bool _, _, _ => ⟨_, by rw [rdV]; simp⟩
  | .num _, _, _ => ⟨_, by rw [rdV]; simp⟩
  | .text _, _, _ => ⟨_, by rw [rdV]; simp⟩
  | .list _, _, _ => ⟨_, by rw [rdV]; simp⟩

theorem rdF_ok (w : World) (kind : Kind) (saids : Saids) : ∀ (fs x : Flds), rolledF w kind saids fs = .ok x → ∃ y, rdF w kind saids fs = .ok y
  | [], _, _ => ⟨_, by rw [rdF]⟩
  | (l, v) :: r, x, h => by
    rw [rolledF] at h
    split at h
    · exact absurd h (by simp)
    next hl =>
    split at h
    · exact absurd h (by simp)
    next v1 hv =>
    split at h
    · exact absurd h (by simp)
    next r1 hr =>
    obtain ⟨v2, hv2⟩ := rdV_ok w kind saids v v1 hv
    obtain ⟨⟨r2, n⟩, hr2⟩ := rdF_ok w kind saids r r1 hr
    rw [rdF, if_neg hl, hv2, hr2]
    dsimp only
    split
    · exact ⟨_, rfl⟩
    · exact ⟨_, rfl⟩
end

theorem primary_keys {fs gs : Flds} (h : gs.map (·.1) = fs.map (·.1)) (hp : Primary saids fs) : Primary saids gs := by
  intro ha
  rw [anySaid_keys h] at ha
  obtain ⟨p, s, v, e, hv⟩ := hp ha
  cases hg : getKey gs p.1 with
  | some u => exact ⟨p, s, u, e, hg⟩
  | none =>
    rw [getKey_none, h] at hg
    exact absurd (List.mem_map.2 ⟨_, getKey_mem hv, rfl⟩) hg

/-- The loop ends with the most compact form, however long it may go on, if that is long enough. -/
theorem loop_rolled (hw : HashOk w) (hs : Dict saids) : ∀ (n : Nat) (mad : Flds) (leaves : Leaves), Tidy (.map mad) → Primary saids mad →
    getKey leaves [] = none → mapsF mad < n →
    (∀ r, (∃ L, compactLoop w kind saids n mad leaves = .ok (r, L)) ↔ rolledTop w kind saids mad = .ok r) ∧
    (∀ k, compactLoop w kind saids (n + k) mad leaves = compactLoop w kind saids n mad leaves)
  | 0, _, _, _, _, _, h => absurd h (by omega)
  | n + 1, mad, leaves, t, hp, hl, hn => by
    obtain ⟨oe, oo⟩ := compactOnce_eq (w := w) (kind := kind) (saids := saids) t leaves
    have t' := t
    rw [Tidy] at t'
    cases hr : rdTop w kind saids mad with
    | error e =>
      have ho := oe e hr
      have hloop : ∀ k, compactLoop w kind saids (k + 1) mad leaves = .error e := by intro k; simp only [compactLoop, ho]
      refine ⟨?_, fun k => by rw [show n + 1 + k = n + k + 1 by omega, hloop, hloop]⟩
      intro r
      rw [hloop]
      refine ⟨fun ⟨L, h⟩ => absurd h (by simp), ?_⟩
      intro h
      exfalso
      rw [rolledTop] at h
      split at h
      · exact absurd h (by simp)
      next fs1 hf =>
      obtain ⟨⟨fs2, m⟩, hy⟩ := rdF_ok w kind saids mad fs1 hf
      rw [rdTop, hy] at hr
      dsimp only at hr
      by_cases hc : (anySaid saids mad && !m) = true
      · rw [if_pos hc] at hr
        simp only [Bool.and_eq_true, Bool.not_eq_true'] at hc
        obtain ⟨rfl, c2⟩ := (rdF_nested hy).2 hc.2
        rw [hf] at c2
        injection c2 with c2
        subst c2
        rw [if_pos hc.1] at h
        split at h
        · exact absurd h (by simp)
        next hm => rw [hm] at hr; exact absurd hr (by simp)
      · rw [if_neg hc] at hr; exact absurd hr (by simp)
    | ok x =>
      obtain ⟨mad2, top⟩ := x
      obtain ⟨L, ho, hL⟩ := oo mad2 top hr
      rw [hl] at ho hL
      simp only [Option.isSome_none, Bool.false_or] at ho hL
      rw [rdTop] at hr
      split at hr
      · exact absurd hr (by simp)
      next fs1 m hy =>
      obtain ⟨a1, a2, a3⟩ := rdF_facts w kind saids hw hs mad fs1 m t'.1 t'.2 hy
      obtain ⟨b1, b2⟩ := rdF_nested hy
      by_cases hc : (anySaid saids mad && !m) = true
      · rw [if_pos hc] at hr
        simp only [Bool.and_eq_true, Bool.not_eq_true'] at hc
        obtain ⟨rfl, c2⟩ := b2 hc.2
        split at hr
        · exact absurd hr (by simp)
        next raw fs2 s hm =>
        simp only [Except.ok.injEq, Prod.mk.injEq] at hr
        obtain ⟨rfl, rfl⟩ := hr
        rw [made_truthy hw hs t'.1 hp hc.1 hm] at ho
        simp only [Bool.and_true, Bool.or_true] at ho
        have hloop : ∀ k, compactLoop w kind saids (k + 1) fs1 leaves = .ok (fs2, L) := by intro k; simp only [compactLoop, ho, if_true]
        refine ⟨?_, fun k => by rw [show n + 1 + k = n + k + 1 by omega, hloop, hloop]⟩
        intro r
        rw [hloop, rolledTop, c2]
        dsimp only
        rw [if_pos hc.1, hm]
        dsimp only
        constructor
        · rintro ⟨L', h⟩
          simp only [Except.ok.injEq, Prod.mk.injEq] at h
          rw [h.1]
        · intro h
          injection h with h
          rw [h]
          exact ⟨_, rfl⟩
      · rw [if_neg hc] at hr
        simp only [Except.ok.injEq, Prod.mk.injEq] at hr
        obtain ⟨rfl, rfl⟩ := hr
        simp only [Bool.and_false, Bool.or_false] at ho
        cases hh : hasSaidF saids mad with
        | false =>
          rw [hh] at ho
          simp only [Bool.not_false] at ho
          have hm : m = false := by
            cases m with
            | false => rfl
            | true => rw [hasSaidF_iff.2 (.inr (b1.1 rfl))] at hh; exact absurd hh (by simp)
          obtain ⟨rfl, c2⟩ := b2 hm
          have hloop : ∀ k, compactLoop w kind saids (k + 1) fs1 leaves = .ok (fs1, L) := by intro k; simp only [compactLoop, ho, if_true]
          refine ⟨?_, fun k => by rw [show n + 1 + k = n + k + 1 by omega, hloop, hloop]⟩
          intro r
          rw [hloop, rolledTop, c2]
          dsimp only
          rw [if_neg (fun ha => by rw [hasSaidF_iff.2 (.inl ha)] at hh; exact absurd hh (by simp))]
          constructor
          · rintro ⟨L', h⟩
            simp only [Except.ok.injEq, Prod.mk.injEq] at h
            rw [h.1]
          · intro h
            injection h with h
            rw [h]
            exact ⟨_, rfl⟩
        | true =>
          rw [hh] at ho
          simp only [Bool.not_true] at ho
          have hm : m = true := by
            rw [hasSaidF_iff] at hh
            rcases hh with hh | hh
            · simpa [hh] using hc
            · exact b1.2 hh
          have hlt := a3 hm
          have hloop : ∀ k, compactLoop w kind saids (k + 1) mad leaves = compactLoop w kind saids k fs1 L := by
            intro k
            simp only [compactLoop, ho]
            simp
          have tk : Tidy (.map fs1) := by rw [Tidy]; exact ⟨by rw [rdF_keys hy]; exact t'.1, a1⟩
          have hL' : getKey L [] = none := by
            cases hg : getKey L [] with
            | none => rfl
            | some _ => rw [hg] at hL; simp at hL
          obtain ⟨i1, i2⟩ := loop_rolled hw hs n fs1 L tk (primary_keys (rdF_keys hy) hp) hL' (by omega)
          refine ⟨?_, fun k => by rw [show n + 1 + k = n + k + 1 by omega, hloop, hloop, i2]⟩
          intro r
          rw [hloop, i1]
          rw [rolledTop, rolledTop, a2, anySaid_keys (rdF_keys hy)]
end

end Verif.Mad
