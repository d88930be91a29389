import Verif.Ser.RightLemmas

/-! # C125: a message that is made verifies -/

namespace Verif.Ser

open Verif.B64 Verif.Matter
open Verif.Mad hiding Kind verify makify Digested Collision
open Verif.Prs (Proto Kind Smellage asc chars versify deversify smell sniff)

/-- The default of a said field is the empty text. -/
theorem empty_tables : (∀ p ∈ keri1, ∀ q ∈ p.2.saids, getKey p.2.alls q.1 = some (.text [])) ∧ (∀ p ∈ keri2, ∀ q ∈ p.2.saids, getKey p.2.alls q.1 = some (.text [])) ∧
    (∀ p ∈ acdc1, ∀ q ∈ p.2.saids, getKey p.2.alls q.1 = some (.text [])) ∧ (∀ p ∈ acdc2, ∀ q ∈ p.2.saids, getKey p.2.alls q.1 = some (.text [])) := by
  have hb : ∀ (fd : FieldDom), fd.saids.all (fun q => match getKey fd.alls q.1 with | some (.text []) => true | _ => false) = true →
      ∀ q ∈ fd.saids, getKey fd.alls q.1 = some (.text []) := by
    intro fd h q hq
    have := List.all_eq_true.1 h q hq
    split at this
    · next e => exact e
    · exact absurd this (by simp)
  refine ⟨fun p hp => hb _ ?_, fun p hp => hb _ ?_, fun p hp => hb _ ?_, fun p hp => hb _ ?_⟩ <;> revert p <;> decide +kernel

theorem hempty {proto : Proto} {pvrsn : Nat × Nat} {doms : List (Option (List Char) × FieldDom)} {ilk : Option (List Char)} {fd : FieldDom}
    (h : domains proto pvrsn = some doms) (hf : domOf doms ilk = some fd) {l d : List Char} (hl : (l, d) ∈ fd.saids) (c t : List Char) :
    codeAt (getKey fd.alls l) ≠ some (c, t) := by
  have hm := domOf_mem hf
  obtain ⟨w1, w2, w3, w4⟩ := empty_tables
  have key : getKey fd.alls l = some (.text []) := by
    rcases domains_cases h with ⟨_, _, rfl⟩ | ⟨_, _, rfl⟩ | ⟨_, _, rfl⟩ | ⟨_, _, rfl⟩
    · exact w1 _ hm _ hl
    · exact w2 _ hm _ hl
    · exact w3 _ hm _ hl
    · exact w4 _ hm _ hl
  rw [key]
  have : codeAt (some (.text [])) = none := by decide +kernel
  rw [this]; simp

/-- The protocol a class requires. -/
def Cls.proto : Cls → Option Proto
  | .base => none
  | .keri => some .keri

/-- The value a message should have in a field, by what was given: what was given, else the default of a required field. -/
def Given (fd : FieldDom) (sad : Flds) (k : List Char) : Option Val :=
  match getKey sad k with
  | some v => some v
  | none => if k ∈ fd.opts then none else getKey fd.alls k

/-- The code of a said field, by what was given: the one asked for, else that of the value given, else the default of the type. -/
def Chosen (o : Opts) (sad : Flds) (l d : List Char) : List Char :=
  match getKey o.saids l with
  | some c => c
  | none => match codeAt (getKey sad l) with
    | some (c, _) => c
    | none => d

/-- **C125.** A message that is made from any fields verifies, and it is as it should be: its fields are those of its type in order, its SAIDs are the
digests of its serialization with the said fields dummied, its version string says its protocol, versions, kind and size, and its size is the number of its
bytes.  The other fields are those that were given, or the defaults of its type. -/
theorem c125_made_verifies {lib : Lib} (hw : DigestsOk lib) {cls : Cls} {o : Opts} {sad : Flds} {s : Serder} (hd : Dict sad) (ho : ∀ p ∈ o.saids, p.2 ∈ digDex)
    (h : makify lib cls o sad = .ok s) (hk : KindOk lib s.attrs) (hs : Prs.Fits s.attrs.pvrsn s.size s.attrs.gvrsn) :
    verify lib cls.proto s = .ok () ∧ Right lib s ∧
    ∃ ilk fd, domain s.attrs.proto s.attrs.pvrsn ilk = some fd ∧ Shape fd (s.sad.map (·.1)) ∧
      (∀ k, k ∉ fd.saids.map (·.1) → k ≠ ['v'] → k ≠ ['t'] → getKey s.sad k = Given fd sad k) ∧
      (['t'] ∈ s.sad.map (·.1) → ilkOf s.sad = .ok ilk) ∧
      (∀ l d, (l, d) ∈ fd.saids → ∃ c t, codeAt (getKey s.sad l) = some (c, t) ∧ c = Chosen o sad l d ∧ (c ∉ digDex → getKey s.sad l = getKey sad l)) := by
  obtain ⟨hcls, ⟨m⟩⟩ := makify_facts h
  obtain ⟨doms, ilk, fd, sad1, saids, hdoms, hdom, hgen, hgen2, hshape, hv, hpick, hcomp⟩ := m
  have hwf := wf_dom hdoms hdom
  obtain ⟨a1, a2, a3, a4⟩ := arranged_facts ilk hwf hd
  have hsh := (fieldsOk_iff hwf a1).1 hshape
  obtain ⟨vv, hvv⟩ := compute_versify hcomp
  obtain ⟨hg, hkc⟩ := genOk_of hvv hgen hgen2
  obtain ⟨b1, b2, b3, b4, ⟨base, ser, b5, b6, b7, b8⟩, ⟨v, b9, b10, b11⟩, b12, b13⟩ := again hw hk a1 hwf.dict
    (fun p hp => ⟨(hwf.saids p hp).2.2.1, (hwf.saids p hp).2.2.2.1⟩) (fun l hl => labels_of_shape hwf hsh hl) hv ho hpick hcomp hs hg (span_len hdoms)
  have hts : ['t'] ∉ fd.saids.map (·.1) := by
    intro hc
    obtain ⟨p, hp, e⟩ := List.mem_map.1 hc
    exact (hwf.saids p hp).2.2.2.2 e
  have hilk : ilkOf s.sad = ilkOf (arranged ilk fd sad) := by
    unfold ilkOf
    rw [b12 ['t'] hts (by decide)]
  obtain ⟨ilk', fd', i1, i2, i3, i4⟩ : ∃ ilk' fd', ilkOf s.sad = .ok ilk' ∧ domOf doms ilk' = some fd' ∧ fd'.saids = fd.saids ∧ Shape fd' (s.sad.map (·.1)) := by
    rw [hilk, b1]
    by_cases ht : ['t'] ∈ (arranged ilk fd sad).map (·.1)
    · exact ⟨ilk, fd, a3 ht, hdom, rfl, hsh⟩
    · obtain ⟨fd', e1, e2, e3⟩ := untyped hdoms hdom a1 hsh ht
      exact ⟨none, fd', a4 ht, e1, e2, e3⟩
  have hsl : saidLabels s = fd.saids.map (·.1) := by
    unfold saidLabels domain; rw [i1, hdoms]; simp only [Option.bind_some, i2, i3]
  have hss : ∀ p ∈ fd.saids, p.2 ∈ digDex := fun p hp => (hwf.saids p hp).2.2.1
  obtain ⟨r1, r2, r3, r4, r5⟩ := readSaids_facts _ _ _ _ b2 hwf.dict hss b5
  have hdum := readSaids_dummied b2 hwf.dict hss b5
  have hright : Right lib s := by
    refine ⟨b2, ⟨ilk', fd', i1, by unfold domain; rw [hdoms]; exact i2, i4⟩, b4, b3, ⟨v, b9, b10⟩, ?_⟩
    intro l hl
    rw [hsl] at hl
    obtain ⟨c, t, c1, c2, c3⟩ := r4 l hl
    refine ⟨c, t, c1, fun hc => ⟨ser, by unfold Digested; rw [hsl, ← hdum]; exact b7, ?_⟩⟩
    obtain ⟨t', d1, d2⟩ := b8 _ (getKey_mem c2) hc
    simp only at d1 d2
    rw [codeAt_text c1] at d2
    simp only [Option.some.injEq, Val.text.injEq] at d2
    rw [d2]
    exact d1
  refine ⟨?_, hright, ilk, fd, ?_, by rw [b1]; exact hsh, ?_, ?_, ?_⟩
  · have hval : validate cls.proto s.attrs s.sad = .ok (base, saids) := by
      rw [validate_iff b2]
      refine ⟨?_, hgen, hkc, doms, ilk', fd', hdoms, i1, i2, i4, by rw [i3]; exact b5⟩
      cases cls with
      | base => exact .inl rfl
      | keri => exact .inr (by rw [hcls rfl]; rfl)
    unfold verify
    rw [hval]
    simp only
    rw [b6]
    simp only
    rw [if_neg (by simp), b9]
    simp only
    rw [b10]
    simp only
    rw [if_pos]
    unfold consistent
    by_cases hc : s.attrs.kind = .cesr
    · simp [b3]
    · simp [hc]
  · unfold domain; rw [hdoms]; exact hdom
  · intro k k1 k2 k3
    rw [b12 k k1 k2, a2 k k3]
    rfl
  · intro ht
    rw [hilk]
    rw [b1] at ht
    exact a3 ht
  · intro l d hld
    have hl : l ∈ fd.saids.map (·.1) := List.mem_map.2 ⟨_, hld, rfl⟩
    obtain ⟨c, t, c1, c2, c3⟩ := r4 l hl
    obtain ⟨q1, q2⟩ := b13 (l, d) hld
    simp only at q1 q2
    obtain ⟨w1, w2, w3, w4, w5⟩ := hwf.saids _ hld
    have hga : getKey (arranged ilk fd sad) l = Given fd sad l := by rw [a2 l w5]; rfl
    rw [c2] at q1
    injection q1 with q1
    -- a default is no primitive
    have hdef : ∀ c t, codeAt (getKey fd.alls l) ≠ some (c, t) := hempty hdoms hdom hld
    have hch : pickOf o.saids (getKey (arranged ilk fd sad) l) l d = Chosen o sad l d := by
      unfold pickOf Chosen
      cases getKey o.saids l with
      | some c => rfl
      | none =>
        simp only
        rw [hga]
        unfold Given
        cases hg : getKey sad l with
        | some v => rfl
        | none =>
          simp only [if_neg w2]
          cases hc' : codeAt (getKey fd.alls l) with
          | some ct => exact absurd hc' (hdef _ _)
          | none => rfl
    refine ⟨c, t, c1, by rw [q1, hch], fun hnd => ?_⟩
    have := q2 (by rw [← q1]; exact hnd)
    rw [this, hga]
    unfold Given
    cases hg : getKey sad l with
    | some v => rfl
    | none =>
      exfalso
      rw [this, hga] at c1
      unfold Given at c1
      rw [hg] at c1
      simp only [if_neg w2] at c1
      exact hdef _ _ c1

/-- **C125.** For the kind JSON nothing is asked of the serialization. -/
theorem c125_made_json {lib : Lib} (hw : DigestsOk lib) {cls : Cls} {o : Opts} {sad : Flds} {s : Serder} (hd : Dict sad) (ho : ∀ p ∈ o.saids, p.2 ∈ digDex)
    (h : makify lib cls o sad = .ok s) (hk : s.attrs.kind = .json) (hs : Prs.Fits s.attrs.pvrsn s.size s.attrs.gvrsn) :
    verify lib cls.proto s = .ok () ∧ Right lib s ∧ s.raw = json s.sad := by
  have hd' : ∀ f, dumps lib s.attrs f = .ok (json f) := by intro f; unfold dumps; rw [hk]
  have hko : KindOk lib s.attrs := by
    unfold KindOk
    rw [if_neg (by rw [hk]; decide)]
    exact json_steady lib s.attrs hk
  obtain ⟨h1, hr, _⟩ := c125_made_verifies hw hd ho h hko hs
  have h3 := hr.dumped
  rw [hd'] at h3
  injection h3 with h3
  exact ⟨h1, hr, h3.symm⟩

/-- **C125.** So the class without checks of its own accepts whatever it makes, and `SerderKERI` what has exactly the fields of its type and a right prefix and
delegator. -/
theorem c125_made_accepted {lib : Lib} (hw : DigestsOk lib) {cls : Cls} {o : Opts} {sad : Flds} {s : Serder} (hd : Dict sad) (ho : ∀ p ∈ o.saids, p.2 ∈ digDex)
    (h : makify lib cls o sad = .ok s) (hk : KindOk lib s.attrs) (hs : Prs.Fits s.attrs.pvrsn s.size s.attrs.gvrsn) :
    made lib cls o sad = .ok s ↔ (cls = .keri → ∃ ilk fd, ilkOf s.sad = .ok ilk ∧ domain s.attrs.proto s.attrs.pvrsn ilk = some fd ∧ s.sad.map (·.1) = fd.labels ∧
      (unprefixed s.attrs.pvrsn ilk = true ∨ prefixOk lib s.sad ilk = true) ∧ delegatorOk s.sad ilk = true) := by
  obtain ⟨hv, _⟩ := c125_made_verifies hw hd ho h hk hs
  unfold made
  rw [h]
  simp only
  unfold check
  cases cls with
  | base =>
    simp only [Cls.proto] at hv
    simp only [hv]
    simp
  | keri =>
    simp only [Cls.proto] at hv
    simp only [forall_const]
    unfold verifyKeri
    rw [hv]
    simp only
    constructor
    · intro h
      split at h
      · exact absurd h (by simp)
      next hc =>
      split at hc
      · next hc2 =>
        split at hc2
        · next doms ilk hdoms hilk =>
          split at hc2
          · exact absurd hc2 (by simp)
          next fd hfd =>
          split at hc2
          · exact absurd hc2 (by simp)
          next h1 =>
          split at hc2
          · exact absurd hc2 (by simp)
          next h2 =>
          split at hc2
          · exact absurd hc2 (by simp)
          next h3 =>
          refine ⟨ilk, fd, hilk, by unfold domain; rw [hdoms]; exact hfd, (Decidable.not_not.1 h1).symm, ?_, by simpa using h3⟩
          cases hu : unprefixed s.attrs.pvrsn ilk
          · rw [hu] at h2; exact .inr (by simpa using h2)
          · exact .inl rfl
        · exact absurd hc2 (by simp)
      · exact absurd hc (by simp)
    · rintro ⟨ilk, fd, e1, e2, e3, e4, e5⟩
      unfold domain at e2
      cases hdoms : domains s.attrs.proto s.attrs.pvrsn with
      | none => rw [hdoms] at e2; simp at e2
      | some doms =>
        rw [hdoms] at e2
        simp only [Option.bind_some] at e2
        rw [e1]
        simp only
        rw [e2]
        simp only
        rw [if_neg (by rw [e3]; simp [FieldDom.labels]), if_neg (by rcases e4 with e | e <;> simp [e]), if_neg (by simp [e5])]

end Verif.Ser
