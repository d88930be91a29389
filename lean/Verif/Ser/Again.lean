import Verif.Ser.MakeLemmas

/-! # What is made is made again when it is verified -/

namespace Verif.Ser

open Verif.B64 Verif.Matter
open Verif.Mad hiding Kind verify makify Digested Collision
open Verif.Prs (Proto Kind Smellage asc chars versify deversify smell sniff)

theorem getKey_of_key {α : Type} {d : List (List Char × α)} {l : List Char} (h : l ∈ d.map (·.1)) : ∃ v, getKey d l = some v := by
  cases hg : getKey d l with
  | some v => exact ⟨v, rfl⟩
  | none => exact absurd h (getKey_none.1 hg)

theorem digCode_mem {s : Saids} {l c : List Char} (h : digCode s l = some c) : (l, c) ∈ s ∧ c ∈ digDex := by
  unfold digCode at h
  split at h
  · next c' hc =>
    split at h
    · next hd => injection h with h; subst h; exact ⟨getKey_mem hc, hd⟩
    · exact absurd h (by simp)
  · exact absurd h (by simp)

/-- Reading the said fields of what has been made gives back the dummies and the codes. -/
theorem readback {lib : Lib} (hw : DigestsOk lib) {ser : List Char} {o ss s : Saids} {sadA sad1 base full : Flds} (hd : Dict sadA) (hn : (ss.map (·.1)).Nodup)
    (hss : ∀ p ∈ ss, p.2 ∈ digDex ∧ p.1 ≠ ['v']) (hl : ∀ l ∈ ss.map (·.1), l ∈ sadA.map (·.1)) (ho : ∀ p ∈ o, p.2 ∈ digDex)
    (hp : pickSaids o ss sadA = (sad1, s)) (hb : Dict base) (hbk : base.map (·.1) = sadA.map (·.1)) (hbg : ∀ k, k ≠ ['v'] → getKey base k = getKey sad1 k)
    (hf : Filled (digs lib ser) s base full) (hdg : ∀ p ∈ s, p.2 ∈ digDex → digestOf lib.world p.2 ser = .ok (digs lib ser p.2)) :
    readSaids ss full = .ok (base, s) := by
  obtain ⟨p1, ⟨p2, p3, p4⟩, p5⟩ := pickSaids_filled o ss sadA sad1 s hd hn hl hp
  obtain ⟨f1, f2, f3⟩ := hf
  have hsn : (s.map (·.1)).Nodup := by rw [p1]; exact hn
  have hcode : ∀ l ∈ ss.map (·.1), ∃ c t, getKey s l = some c ∧ codeAt (getKey full l) = some (c, t) ∧
      (c ∈ digDex → getKey base l = some (.text (List.replicate t.length '#'))) ∧ (c ∉ digDex → getKey full l = getKey base l) := by
    intro l hls
    obtain ⟨⟨l', d⟩, hm, rfl⟩ := List.mem_map.1 hls
    simp only at hls ⊢
    have hs := p5 _ hm
    simp only at hs
    have hlv := (hss _ hm).2
    simp only at hlv
    generalize hc : pickOf o (getKey sadA l') l' d = c at hs
    by_cases hcd : c ∈ digDex
    · have hdc : digCode s l' = some c := by unfold digCode; rw [hs]; simp [hcd]
      have hfull : getKey full l' = some (.text (digs lib ser c)) := by rw [f3]; unfold fill; rw [hdc]
      have hdig := hdg (l', c) (getKey_mem hs) hcd
      simp only at hdig
      obtain ⟨q1, q2⟩ := digest_len hw hdig
      refine ⟨c, digs lib ser c, hs, by rw [hfull]; exact q2, fun _ => ?_, fun h => absurd hcd h⟩
      rw [hbg _ hlv, p4]
      unfold fill
      rw [hdc, q1]
    · have hdc : digCode s l' = none := by unfold digCode; rw [hs]; simp [hcd]
      have hfull : getKey full l' = getKey base l' := by rw [f3]; unfold fill; rw [hdc]
      have hbase : getKey base l' = getKey sadA l' := by rw [hbg _ hlv, p4]; unfold fill; rw [hdc]
      unfold pickOf at hc
      split at hc
      · next c' hg =>
        subst hc
        exact absurd (ho _ (getKey_mem hg)) hcd
      · split at hc
        · next c' t hct =>
          subst hc
          exact ⟨c', t, hs, by rw [hfull, hbase]; exact hct, fun h => absurd h hcd, fun _ => hfull⟩
        · subst hc
          exact absurd (hss _ hm).1 hcd
  obtain ⟨⟨sadC, s'⟩, hr⟩ := readSaids_total ss full hn (fun l hl => by obtain ⟨c, t, _, h, _⟩ := hcode l hl; exact ⟨c, t, h⟩)
  obtain ⟨r1, r2, r3, r4, r5⟩ := readSaids_facts ss full sadC s' f2 hn (fun p hp => (hss p hp).1) hr
  have hs' : s' = s := by
    apply dict_ext (by rw [r1]; exact hn) (by rw [r1, p1])
    intro l
    by_cases hls : l ∈ ss.map (·.1)
    · obtain ⟨c, t, a1, a2, _⟩ := r4 l hls
      obtain ⟨c', t', b1, b2, _⟩ := hcode l hls
      rw [a1] at b2
      simp only [Option.some.injEq, Prod.mk.injEq] at b2
      rw [a2, b1, b2.1]
    · rw [getKey_none.2 (by rw [r1]; exact hls), getKey_none.2 (by rw [p1]; exact hls)]
  have hsad : sadC = base := by
    apply flds_ext r3 (by rw [r2, f1])
    intro l
    by_cases hls : l ∈ ss.map (·.1)
    · obtain ⟨c, t, a1, a2, a3⟩ := r4 l hls
      obtain ⟨c', t', b1, b2, b3, b4⟩ := hcode l hls
      rw [a1] at b2
      simp only [Option.some.injEq, Prod.mk.injEq] at b2
      obtain ⟨rfl, rfl⟩ := b2
      rw [a3]
      split
      · next hc => exact (b3 hc).symm
      · next hc => exact b4 hc
    · rw [r5 l hls, f3]
      unfold fill
      rw [digCode_not (by rw [p1]; exact hls)]
  rw [hr, hs', hsad]

theorem span_len {proto : Proto} {pvrsn : Nat × Nat} {doms : List (Option (List Char) × FieldDom)} (h : domains proto pvrsn = some doms) :
    span pvrsn = Prs.vsLen pvrsn.1 := by
  rcases domains_cases h with ⟨_, rfl, _⟩ | ⟨_, rfl, _⟩ | ⟨_, rfl, _⟩ | ⟨_, rfl, _⟩ <;> rfl

/-- Filling the digests keeps the lengths. -/
theorem similar_filled {lib : Lib} (hw : DigestsOk lib) {ser : List Char} {ss s o : Saids} {sadA sad1 base full : Flds} (hd : Dict sadA) (hn : (ss.map (·.1)).Nodup)
    (hss : ∀ p ∈ ss, p.2 ∈ digDex ∧ p.1 ≠ ['v']) (hl : ∀ l ∈ ss.map (·.1), l ∈ sadA.map (·.1)) (hp : pickSaids o ss sadA = (sad1, s))
    (hb : Dict base) (hbg : ∀ k, k ≠ ['v'] → getKey base k = getKey sad1 k) (hf : Filled (digs lib ser) s base full)
    (hdg : ∀ p ∈ s, p.2 ∈ digDex → digestOf lib.world p.2 ser = .ok (digs lib ser p.2)) : Similar base full := by
  obtain ⟨p1, ⟨p2, p3, p4⟩, p5⟩ := pickSaids_filled o ss sadA sad1 s hd hn hl hp
  obtain ⟨f1, f2, f3⟩ := hf
  apply similar_get hb f1.symm
  intro l v w hv hwl
  rw [f3] at hwl
  unfold fill at hwl
  cases hdc : digCode s l with
  | none =>
    rw [hdc] at hwl
    simp only at hwl
    rw [hv] at hwl
    injection hwl with e
    exact .inl e
  | some c =>
    rw [hdc] at hwl
    simp only [Option.some.injEq] at hwl
    obtain ⟨hm, hcd⟩ := digCode_mem hdc
    have hdig := hdg _ hm hcd
    simp only at hdig
    obtain ⟨q1, q2⟩ := digest_len hw hdig
    have hlss : l ∈ ss.map (·.1) := by rw [← p1]; exact List.mem_map.2 ⟨_, hm, rfl⟩
    obtain ⟨q, hq, rfl⟩ := List.mem_map.1 hlss
    rw [hbg _ (hss _ hq).2, p4] at hv
    unfold fill at hv
    rw [hdc] at hv
    simp only [Option.some.injEq] at hv
    refine .inr ⟨dummyOf c, digs lib ser c, hv.symm, hwl.symm, ?_, ?_, bare_b64 (digest_b64 hw hdig)⟩
    · rw [← q1]; simp
    · rw [← q1]; exact bare_hash _

/-- Making again what has been made. -/
theorem again {lib : Lib} (hw : DigestsOk lib) {a : Attrs} (hka : KindOk lib a) {o ss s : Saids} {sadA sad1 sad3 : Flds} {raw : List Char} {size : Nat}
    (hd : Dict sadA) (hn : (ss.map (·.1)).Nodup) (hss : ∀ p ∈ ss, p.2 ∈ digDex ∧ p.1 ≠ ['v']) (hl : ∀ l ∈ ss.map (·.1), l ∈ sadA.map (·.1))
    (hv : ['v'] ∈ sadA.map (·.1)) (ho : ∀ p ∈ o, p.2 ∈ digDex) (hp : pickSaids o ss sadA = (sad1, s))
    (hc : compute lib a (if a.kind = .cesr then sad1 else setField sad1 ['v'] (.text (List.replicate (span a.pvrsn) '#'))) s = .ok (sad3, raw, size))
    (hfit : Prs.Fits a.pvrsn size a.gvrsn) (hgen : GenOk a) (hspan : span a.pvrsn = Prs.vsLen a.pvrsn.1) :
    sad3.map (·.1) = sadA.map (·.1) ∧ Dict sad3 ∧ size = raw.length ∧ dumps lib a sad3 = .ok raw ∧
    (∃ base ser, readSaids ss sad3 = .ok (base, s) ∧ compute lib a base s = .ok (sad3, raw, size) ∧ dumps lib a base = .ok ser ∧
      ∀ p ∈ s, p.2 ∈ digDex → ∃ t, digestOf lib.world p.2 ser = .ok t ∧ getKey sad3 p.1 = some (.text t)) ∧
    (∃ v, getKey sad3 ['v'] = some v ∧ deversifyVal v = .ok ⟨a.proto, a.pvrsn, a.kind, size, a.gvrsn⟩ ∧ versifyText a size = .ok v) ∧
    (∀ k, k ∉ ss.map (·.1) → k ≠ ['v'] → getKey sad3 k = getKey sadA k) ∧
    (∀ p ∈ ss, getKey s p.1 = some (pickOf o (getKey sadA p.1) p.1 p.2) ∧
      (pickOf o (getKey sadA p.1) p.1 p.2 ∉ digDex → getKey sad3 p.1 = getKey sadA p.1)) := by
  obtain ⟨p1, ⟨p2, p3, p4⟩, p5⟩ := pickSaids_filled o ss sadA sad1 s hd hn hl hp
  have hsn : (s.map (·.1)).Nodup := by rw [p1]; exact hn
  have hvs : ['v'] ∉ s.map (·.1) := by
    rw [p1]
    intro h
    obtain ⟨p, hp, e⟩ := List.mem_map.1 h
    exact (hss p hp).2 e
  have hv1 : ['v'] ∈ sad1.map (·.1) := by rw [p2]; exact hv
  have rest : ∀ {base sad3 : Flds} {ser : List Char}, (∀ k, k ≠ ['v'] → getKey base k = getKey sad1 k) → Filled (digs lib ser) s base sad3 →
      (∀ k, k ∉ ss.map (·.1) → k ≠ ['v'] → getKey sad3 k = getKey sadA k) ∧
      (∀ p ∈ ss, getKey s p.1 = some (pickOf o (getKey sadA p.1) p.1 p.2) ∧
        (pickOf o (getKey sadA p.1) p.1 p.2 ∉ digDex → getKey sad3 p.1 = getKey sadA p.1)) := by
    intro base sad3 ser hbg hf
    refine ⟨fun k h1 h2 => ?_, fun p hp => ⟨p5 p hp, fun hnd => ?_⟩⟩
    · rw [hf.2.2]; unfold fill; rw [digCode_not (by rw [p1]; exact h1)]; simp only
      rw [hbg k h2, p4]; unfold fill; rw [digCode_not (by rw [p1]; exact h1)]
    · have hdc : digCode s p.1 = none := by unfold digCode; rw [p5 p hp]; simp [hnd]
      rw [hf.2.2]; unfold fill; rw [hdc]; simp only
      rw [hbg _ (hss p hp).2, p4]; unfold fill; rw [hdc]
  unfold KindOk at hka
  by_cases hk : a.kind = .cesr
  · rw [if_pos hk] at hka hc
    obtain ⟨ser, sad3', vs, c1, c2, c3, c4, rfl, rfl⟩ := (compute_cesr hk).1 hc
    obtain ⟨hf, hdg⟩ := putDigests_filled lib ser (digs lib ser) (digs_eq lib ser) s sad1 sad3' p3 hsn (by
      intro l hls; rw [p1] at hls; rw [p2]; exact hl l hls) c2
    obtain ⟨t, e1, e2, e3, e4, e5⟩ := versifyText_facts c4 hfit hgen
    have hv3 : ['v'] ∈ sad3'.map (·.1) := by rw [hf.1]; exact hv1
    have hbg : ∀ k, k ≠ ['v'] → getKey (setField sad1 ['v'] vs) k = getKey sad1 k := by
      intro k hkv; rw [getKey_setField, if_neg hkv]
    have hf' : Filled (digs lib ser) s (setField sad1 ['v'] vs) (setField sad3' ['v'] vs) := by
      refine ⟨by rw [keys_setField _ hv3, keys_setField _ hv1, hf.1], dict_setField hf.2.1 _ _, ?_⟩
      intro k
      rw [getKey_setField]
      by_cases hkv : k = ['v']
      · subst hkv
        rw [if_pos rfl]
        unfold fill
        rw [digCode_not hvs]
        simp only
        rw [getKey_setField, if_pos rfl]
      · rw [if_neg hkv, hf.2.2]
        unfold fill
        rw [getKey_setField, if_neg hkv]
    obtain ⟨v1, hg1⟩ := getKey_of_key hv1
    obtain ⟨v3, hg3⟩ := getKey_of_key hv3
    have d1 : dumps lib a (setField sad1 ['v'] vs) = .ok ser := by
      rw [hka sad1 vs v1, setField_same p3 hg1, c1]
    have d3 : dumps lib a (setField sad3' ['v'] vs) = .ok raw := by
      rw [hka sad3' vs v3, setField_same hf.2.1 hg3, c3]
    have hrd := readback hw hd hn hss hl ho hp (dict_setField p3 _ _) (by rw [keys_setField _ hv1, p2]) hbg hf' hdg
    obtain ⟨r1, r2⟩ := rest hbg hf'
    refine ⟨by rw [keys_setField _ hv3, hf.1, p2], dict_setField hf.2.1 _ _, rfl, d3, ⟨setField sad1 ['v'] vs, ser, hrd, ?_, d1, ?_⟩,
      ⟨vs, by rw [getKey_setField, if_pos rfl], e5, c4⟩, r1, r2⟩
    · rw [compute_cesr hk]
      obtain ⟨sad4, h4⟩ := putDigests_total lib ser s (setField sad1 ['v'] vs) (fun p hp hpd => ⟨_, hdg p hp hpd⟩)
      obtain ⟨hf4, _⟩ := putDigests_filled lib ser (digs lib ser) (digs_eq lib ser) s _ sad4 (dict_setField p3 ['v'] vs) hsn (by
        intro l hls; rw [p1] at hls; rw [keys_setField _ hv1, p2]; exact hl l hls) h4
      have e4 : sad4 = setField sad3' ['v'] vs := by
        apply flds_ext hf4.2.1 (by rw [hf4.1, hf'.1])
        intro l; rw [hf4.2.2, hf'.2.2]
      refine ⟨ser, sad4, vs, d1, h4, by rw [e4]; exact d3, c4, ?_, rfl⟩
      rw [e4]
      exact (setField_same (dict_setField hf.2.1 _ _) (by rw [getKey_setField, if_pos rfl])).symm
    · intro p hps hpd
      refine ⟨digs lib ser p.2, hdg p hps hpd, ?_⟩
      rw [hf'.2.2]
      unfold fill digCode
      rw [getKey_of_mem hsn (show (p.1, p.2) ∈ s from hps)]
      simp [hpd]
  · rw [if_neg hk] at hka hc
    obtain ⟨raw0, vs, ser, c1, c2, rfl, c4, c5, c6⟩ := (compute_other hk).1 hc
    obtain ⟨t, e1, e2, e3, e4, e5⟩ := versifyText_facts c2 hfit hgen
    have hss1 : setField (setField sad1 ['v'] (.text (List.replicate (span a.pvrsn) '#'))) ['v'] vs = setField sad1 ['v'] vs := by
      apply flds_ext (dict_setField (dict_setField p3 _ _) _ _) (by
        rw [keys_setField _ (by rw [keys_setField _ hv1]; exact hv1), keys_setField _ hv1, keys_setField _ hv1])
      intro k
      rw [getKey_setField, getKey_setField, getKey_setField]
      split <;> rfl
    rw [hss1] at c4 c5
    have hbd : Dict (setField sad1 ['v'] vs) := dict_setField p3 _ _
    have hbk : (setField sad1 ['v'] vs).map (·.1) = sad1.map (·.1) := keys_setField _ hv1
    have hbg : ∀ k, k ≠ ['v'] → getKey (setField sad1 ['v'] vs) k = getKey sad1 k := by
      intro k hkv; rw [getKey_setField, if_neg hkv]
    obtain ⟨hf, hdg⟩ := putDigests_filled lib ser (digs lib ser) (digs_eq lib ser) s _ sad3 hbd hsn (by
      intro l hls; rw [p1] at hls; rw [hbk, p2]; exact hl l hls) c5
    have hl0 : raw0.length = ser.length := by
      apply hka _ _ _ _ _ c1 c4
      rw [← hss1]
      refine similar_set (by rw [getKey_setField, if_pos rfl]) (.inr ⟨_, t, rfl, e1, ?_, bare_hash _, e2⟩)
      rw [List.length_replicate, e3, hspan]
    have hl1 : ser.length = raw.length := hka _ _ _ _ (similar_filled hw hd hn hss hl hp hbd hbg hf hdg) c4 c6
    have hrd := readback hw hd hn hss hl ho hp hbd (by rw [hbk, p2]) hbg hf hdg
    obtain ⟨r1, r2⟩ := rest hbg hf
    have hgv : getKey sad3 ['v'] = some vs := by
      rw [hf.2.2]; unfold fill; rw [digCode_not hvs]; simp only; rw [getKey_setField, if_pos rfl]
    refine ⟨by rw [hf.1, hbk, p2], hf.2.1, by omega, c6, ⟨setField sad1 ['v'] vs, ser, hrd, ?_, c4, ?_⟩, ⟨vs, hgv, e5, c2⟩, r1, r2⟩
    · rw [compute_other hk]
      have hsame : setField (setField sad1 ['v'] vs) ['v'] vs = setField sad1 ['v'] vs := setField_same hbd (by rw [getKey_setField, if_pos rfl])
      refine ⟨ser, vs, ser, c4, by rw [← hl0]; exact c2, hl0, by rw [hsame]; exact c4, by rw [hsame]; exact c5, c6⟩
    · intro p hps hpd
      refine ⟨digs lib ser p.2, hdg p hps hpd, ?_⟩
      rw [hf.2.2]
      unfold fill digCode
      rw [getKey_of_mem hsn (show (p.1, p.2) ∈ s from hps)]
      simp [hpd]

end Verif.Ser
