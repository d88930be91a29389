import Verif.Ser.VerifyLemmas

/-! # Lemmas about messages that are as they should be -/

namespace Verif.Ser

open Verif.B64 Verif.Matter
open Verif.Mad hiding Kind verify makify Digested Collision
open Verif.Prs (Proto Kind Smellage asc chars versify deversify smell sniff)

theorem dummied_keys (ls : List (List Char)) (sad : Flds) : (dummied ls sad).map (·.1) = sad.map (·.1) := by
  unfold dummied; rw [List.map_map]; rfl

theorem dummied_get (ls : List (List Char)) (sad : Flds) (k : List Char) :
    getKey (dummied ls sad) k = (getKey sad k).map fun v => if k ∈ ls then dummyVal v else v :=
  getKey_map sad (fun l v => if l ∈ ls then dummyVal v else v) k

theorem codeAt_text {v : Option Val} {c t : List Char} (h : codeAt v = some (c, t)) : v = some (.text t) := by
  unfold codeAt at h
  split at h
  · split at h
    · simp only [Option.some.injEq, Prod.mk.injEq] at h; rw [h.2]
    · exact absurd h (by simp)
  · exact absurd h (by simp)

/-- What `_validate` gives is the fields with dummies. -/
theorem readSaids_dummied {ss s : Saids} {sad base : Flds} (hd : Dict sad) (hn : (ss.map (·.1)).Nodup) (hss : ∀ p ∈ ss, p.2 ∈ digDex)
    (h : readSaids ss sad = .ok (base, s)) : base = dummied (ss.map (·.1)) sad := by
  obtain ⟨r1, r2, r3, r4, r5⟩ := readSaids_facts ss sad base s hd hn hss h
  apply flds_ext r3 (by rw [r2, dummied_keys])
  intro l
  rw [dummied_get]
  by_cases hl : l ∈ ss.map (·.1)
  · obtain ⟨c, t, a1, a2, a3⟩ := r4 l hl
    rw [a3, codeAt_text a1]
    simp only [Option.map_some, if_pos hl]
    have := codeAt_text a1
    rw [this] at a1
    unfold dummyVal
    rw [a1]
    simp only
    split <;> rfl
  · rw [r5 l hl]
    cases getKey sad l <;> simp [hl]

theorem plain_hash (n : Nat) : Plain (List.replicate n '#') := by
  intro c hc
  rw [List.mem_replicate] at hc
  rw [hc.2]; decide

theorem plain_b64 {t : List Char} (h : reb64 t = true) : Plain t := by
  intro c hc
  unfold reb64 at h
  rw [List.all_eq_true] at h
  have key : ∀ c ∈ alphabet, 33 ≤ c.toNat ∧ c.toNat < 127 := by decide +kernel
  exact key c (mem_alphabet (h c hc))

theorem plain_version {a : Attrs} {n : Nat} {v : Val} (h : versifyText a n = .ok v) : ∃ t, v = .text t ∧ Plain t := by
  unfold versifyText at h
  split at h
  · exact absurd h (by simp)
  next b hb =>
  injection h with h
  refine ⟨chars b, h.symm, ?_⟩
  intro c hc
  unfold chars at hc
  rw [List.mem_map] at hc
  obtain ⟨n, hn, rfl⟩ := hc
  have h1 := versify_plain hb n hn
  have hl : n < 128 := by
    rcases h1 with h | h
    · exact Prs.isB64_lt h
    · omega
  have key : ∀ n < 128, (Prs.isB64 n = true ∨ n = 46) → 33 ≤ (Char.ofNat n).toNat ∧ (Char.ofNat n).toNat < 127 := by decide +kernel
  exact key n hl h1

theorem held_fill {lib : Lib} {a : Attrs} {Held : Flds → Prop} (R : Reader lib a Held) (hw : DigestsOk lib) (ser : List Char) :
    ∀ (s : Saids) (sad sad' : Flds), Held sad → (∀ l ∈ s.map (·.1), l ∈ sad.map (·.1)) → putDigests lib ser s sad = .ok sad' → Held sad' := by
  intro s
  induction s with
  | nil => intro sad sad' h _ e; simp only [putDigests, Except.ok.injEq] at e; rw [← e]; exact h
  | cons p r ih =>
    obtain ⟨l, c⟩ := p
    intro sad sad' h hl e
    simp only [putDigests] at e
    have hm : l ∈ sad.map (·.1) := hl l (by simp)
    split at e
    · split at e
      · exact absurd e (by simp)
      next said hs =>
      refine ih _ _ (R.set _ _ _ h hm (plain_b64 (digest_b64 hw hs))) (fun k hk => ?_) e
      rw [keys_setField _ hm]
      exact hl k (by simp at hk ⊢; exact .inr hk)
    · exact ih _ _ h (fun k hk => hl k (by simp at hk ⊢; exact .inr hk)) e

theorem held_read {lib : Lib} {a : Attrs} {Held : Flds → Prop} (R : Reader lib a Held) :
    ∀ (ss : Saids) (sad sad' : Flds) (s : Saids), Held sad → readSaids ss sad = .ok (sad', s) → Held sad' := by
  intro ss
  induction ss with
  | nil => intro sad sad' s h e; simp only [readSaids, Except.ok.injEq, Prod.mk.injEq] at e; rw [← e.1]; exact h
  | cons p r ih =>
    obtain ⟨l, d⟩ := p
    intro sad sad' s h e
    simp only [readSaids] at e
    split at e
    · split at e
      · exact absurd e (by simp)
      split at e
      · exact absurd e (by simp)
      next sad2 s2 h2 =>
      simp only [Except.ok.injEq, Prod.mk.injEq] at e
      rw [← e.1]
      exact ih _ _ _ h h2
    · next c t hc =>
      split at e
      · exact absurd e (by simp)
      next sad2 s2 h2 =>
      simp only [Except.ok.injEq, Prod.mk.injEq] at e
      rw [← e.1]
      refine ih _ _ _ ?_ h2
      split
      · exact R.set _ _ _ h (List.mem_map.2 ⟨_, getKey_mem (codeAt_text hc), rfl⟩) (plain_hash _)
      · exact h

/-- A message that verifies is as it should be, if its fields are what its bytes are read as. -/
theorem right_of {lib : Lib} (hw : DigestsOk lib) {cls : Option Proto} {s : Serder} {Held : Flds → Prop} {n : Nat} (R : Reader lib s.attrs Held)
    (hk : KindOk lib s.attrs) (hv : verify lib cls s = .ok ()) (hh : Held s.sad)
    (hl : lib.loads ⟨s.attrs.proto, s.attrs.pvrsn, s.attrs.kind, n, s.attrs.gvrsn⟩ s.raw = .ok s.sad) (hn : s.attrs.kind = .cesr → n = s.raw.length)
    (hfit : Prs.Fits s.attrs.pvrsn s.raw.length s.attrs.gvrsn)
    (hsz : s.size = s.raw.length ∨ ∃ v sm, getKey s.sad ['v'] = some v ∧ deversifyVal v = .ok sm ∧ sm.size = s.size) : Right lib s := by
  have hd := R.dict _ hh
  obtain ⟨base, saids, sad, n', v, sm, h1, h2, h3, h4, h5⟩ := verify_facts hv
  obtain ⟨v1, v2, v3, doms, ilk, fd, v4, v5, v6, v7, v8⟩ := (validate_iff hd).1 h1
  have hwf := wf_dom v4 v6
  have hss : ∀ p ∈ fd.saids, p.2 ∈ digDex := fun p hp => (hwf.saids p hp).2.2.1
  obtain ⟨r1, r2, r3, r4, r5⟩ := readSaids_facts _ _ _ _ hd hwf.dict hss v8
  have hdum := readSaids_dummied hd hwf.dict hss v8
  have hbh : Held base := held_read R _ _ _ _ hh v8
  have hsn : (saids.map (·.1)).Nodup := by rw [r1]; exact hwf.dict
  have hvl : ['v'] ∉ fd.saids.map (·.1) := by
    intro h
    obtain ⟨p, hp, e⟩ := List.mem_map.1 h
    exact (hwf.saids p hp).2.2.2.1 e
  have hvb : ['v'] ∈ base.map (·.1) := by rw [r2]; exact v_of_shape hwf v7
  have hls : ∀ l ∈ saids.map (·.1), l ∈ base.map (·.1) := by
    intro l hl; rw [r1] at hl; rw [r2]; exact labels_of_shape hwf v7 hl
  have hsl : saidLabels s = fd.saids.map (·.1) := by
    unfold saidLabels domain; rw [v5, v4]; simp only [Option.bind_some, v6]
  -- the fields computed are those of the message
  obtain ⟨ser, hser, hsad, hf, hdg, hvs, hnl, hraw⟩ : ∃ ser, dumps lib s.attrs base = .ok ser ∧ sad = s.sad ∧ Filled (digs lib ser) saids (setField base ['v'] v) sad ∧
      (∀ p ∈ saids, p.2 ∈ digDex → digestOf lib.world p.2 ser = .ok (digs lib ser p.2)) ∧ versifyText s.attrs n' = .ok v ∧
      (if s.attrs.kind = .cesr then n' = s.raw.length else n' = ser.length) ∧ dumps lib s.attrs sad = .ok s.raw := by
    by_cases hc : s.attrs.kind = .cesr
    · obtain ⟨ser, sad3, vs, c1, c2, c3, c4, c5, c6⟩ := (compute_cesr hc).1 h2
      obtain ⟨hf, hdg⟩ := putDigests_filled lib ser (digs lib ser) (digs_eq lib ser) saids base sad3 r3 hsn hls c2
      have hv3 : ['v'] ∈ sad3.map (·.1) := by rw [hf.1]; exact hvb
      have hh3 := held_fill R hw ser _ _ _ hbh hls c2
      obtain ⟨t, rfl, ht⟩ := plain_version c4
      have hh4 : Held sad := by rw [c5]; exact R.set _ _ _ hh3 hv3 ht
      have hgv : getKey sad ['v'] = some (.text t) := by rw [c5, getKey_setField, if_pos rfl]
      rw [hgv] at h3
      injection h3 with h3
      subst h3
      have hu : Unversioned (dumps lib s.attrs) := by unfold KindOk at hk; rwa [if_pos hc] at hk
      obtain ⟨v3, hg3⟩ := getKey_of_key hv3
      have hds : dumps lib s.attrs sad = .ok s.raw := by
        rw [c5, hu sad3 _ v3, setField_same hf.2.1 hg3, c3]
      have hb := R.back sad s.raw n hh4 hds (fun _ => ⟨_, by rw [hn hc]; exact c4, hgv⟩)
      rw [hl] at hb
      injection hb with hb
      refine ⟨ser, c1, hb.symm, ?_, hdg, by rw [c6]; exact c4, by rw [if_pos hc]; exact c6, hds⟩
      rw [c5]
      have hvs : ['v'] ∉ saids.map (·.1) := by rw [r1]; exact hvl
      refine ⟨by rw [keys_setField _ hv3, keys_setField _ hvb, hf.1], dict_setField hf.2.1 _ _, ?_⟩
      intro k
      rw [getKey_setField]
      by_cases hkv : k = ['v']
      · subst hkv
        rw [if_pos rfl]
        unfold fill
        rw [digCode_not hvs]
        simp only
        rw [getKey_setField, if_pos rfl]
      · rw [if_neg hkv, hf.2.2]
        unfold fill
        rw [getKey_setField, if_neg hkv]
    · obtain ⟨raw0, vs, ser, c1, c2, c3, c4, c5, c6⟩ := (compute_other hc).1 h2
      obtain ⟨t, rfl, ht⟩ := plain_version c2
      have hb2 : Held (setField base ['v'] (.text t)) := R.set _ _ _ hbh hvb ht
      have hls2 : ∀ l ∈ saids.map (·.1), l ∈ (setField base ['v'] (.text t)).map (·.1) := by
        intro l h; rw [keys_setField _ hvb]; exact hls l h
      obtain ⟨hf, hdg⟩ := putDigests_filled lib ser (digs lib ser) (digs_eq lib ser) saids _ sad (dict_setField r3 _ _) hsn hls2 c5
      have hh4 := held_fill R hw ser _ _ _ hb2 hls2 c5
      have hb := R.back sad s.raw n hh4 c6 (fun h => absurd h hc)
      rw [hl] at hb
      injection hb with hb
      have hgv : getKey sad ['v'] = some (.text t) := by
        rw [hf.2.2]; unfold fill; rw [digCode_not (by rw [r1]; exact hvl)]; simp only; rw [getKey_setField, if_pos rfl]
      rw [hgv] at h3
      injection h3 with h3
      subst h3
      have hbv : getKey base ['v'] = some (.text t) := by rw [r5 _ hvl, hb, hgv]
      rw [setField_same r3 hbv] at c4
      rw [c1] at c4
      injection c4 with c4
      subst c4
      exact ⟨raw0, c1, hb.symm, hf, hdg, by rw [c3]; exact c2, by rw [if_neg hc]; exact c3, c6⟩
  subst hsad
  have hbv : getKey base ['v'] = some v := by rw [r5 _ hvl, h3]
  rw [setField_same r3 hbv] at hf
  -- each said field
  have hfield : ∀ l ∈ fd.saids.map (·.1), ∃ c t, codeAt (getKey s.sad l) = some (c, t) ∧ getKey saids l = some c ∧
      (c ∈ digDex → digestOf lib.world c ser = .ok t ∧ getKey base l = some (.text (List.replicate t.length '#'))) ∧ (c ∉ digDex → getKey base l = getKey s.sad l) := by
    intro l hl
    obtain ⟨c, t, a1, a2, a3⟩ := r4 l hl
    refine ⟨c, t, a1, a2, fun hc => ?_, fun hc => by rw [a3, if_neg hc]⟩
    have hg := hf.2.2 l
    unfold fill digCode at hg
    rw [a2] at hg
    simp only [if_pos hc] at hg
    rw [codeAt_text a1] at hg
    simp only [Option.some.injEq, Val.text.injEq] at hg
    refine ⟨?_, by rw [a3, if_pos hc]⟩
    rw [hg]
    exact hdg _ (getKey_mem a2) hc
  have hsz2 : n' = s.raw.length := by
    by_cases hc : s.attrs.kind = .cesr
    · rwa [if_pos hc] at hnl
    · rw [if_neg hc] at hnl
      rw [hnl]
      have hst : Steady (dumps lib s.attrs) := by unfold KindOk at hk; rwa [if_neg hc] at hk
      refine hst base s.sad ser s.raw ?_ hser hraw
      apply similar_get r3 hf.1.symm
      intro l x y hx hy
      by_cases hls : l ∈ fd.saids.map (·.1)
      · obtain ⟨c, t, a1, a2, a3, a4⟩ := hfield l hls
        by_cases hcd : c ∈ digDex
        · obtain ⟨b1, b2⟩ := a3 hcd
          rw [b2] at hx
          rw [codeAt_text a1] at hy
          injection hx with hx
          injection hy with hy
          exact .inr ⟨_, _, hx.symm, hy.symm, by simp, bare_hash _, bare_b64 (digest_b64 hw b1)⟩
        · rw [a4 hcd, hy] at hx
          injection hx with hx
          exact .inl hx.symm
      · rw [r5 l hls, hy] at hx
        injection hx with hx
        exact .inl hx.symm
  rw [hsz2] at hvs
  have hgen : GenOk s.attrs := by
    unfold versifyText at hvs
    split at hvs
    · exact absurd hvs (by simp)
    next b hb =>
    injection hvs with hvs
    obtain ⟨q1, q2⟩ := Prs.c84_roundtrip _ _ _ _ _ _ hb hfit []
    rw [List.append_nil] at q2
    have p1 := (chars_plain (versify_plain hb)).1
    rw [← hvs] at h4
    simp only [deversifyVal, p1, q2] at h4
    injection h4 with h4
    have hgv : s.attrs.gvrsn = Prs.foundGenus s.attrs.pvrsn s.attrs.gvrsn := by
      unfold consistent at h5
      simp only [Bool.and_eq_true, decide_eq_true_eq] at h5
      have := h5.2
      rw [← h4] at this
      exact this
    unfold GenOk
    unfold Prs.foundGenus at hgv
    split
    · next h2 => rw [if_pos h2] at hgv; exact hgv
    · next h2 => rw [if_neg h2] at hgv; rw [hgv]; rfl
  obtain ⟨t, e1, e2, e3, e4, e5⟩ := versifyText_facts hvs hfit hgen
  have hsize : s.size = s.raw.length := by
    rcases hsz with h | ⟨v', sm', g1, g2, g3⟩
    · exact h
    · rw [h3] at g1
      injection g1 with g1
      subst g1
      rw [e5] at g2
      injection g2 with g2
      rw [← g3, ← g2]
  refine ⟨hd, ⟨ilk, fd, v5, by unfold domain; rw [v4]; exact v6, v7⟩, hraw, hsize, ⟨v, h3, by rw [hsize]; exact e5⟩, ?_⟩
  intro l hl
  rw [hsl] at hl
  obtain ⟨c, t, a1, _, a3, _⟩ := hfield l hl
  refine ⟨c, t, a1, fun hc => ⟨ser, ?_, (a3 hc).1⟩⟩
  unfold Digested
  rw [hsl, ← hdum]
  exact hser

end Verif.Ser
