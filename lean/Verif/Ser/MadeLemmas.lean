import Verif.Ser.ArrangeLemmas

/-! # Lemmas about what `makify` makes -/

namespace Verif.Ser

open Verif.B64 Verif.Matter
open Verif.Mad hiding Kind verify makify Digested Collision
open Verif.Prs (Proto Kind Smellage asc chars versify deversify smell sniff)

theorem domOf_unique {doms : List (Option (List Char) × FieldDom)} (hn : (doms.map (·.1)).Nodup) {ilk : Option (List Char)} {fd : FieldDom} (h : (ilk, fd) ∈ doms) :
    domOf doms ilk = some fd := by
  induction doms with
  | nil => simp at h
  | cons p r ih =>
    obtain ⟨k, f⟩ := p
    simp only [List.map_cons, List.nodup_cons] at hn
    simp only [domOf]
    rcases List.mem_cons.1 h with e | hm
    · injection e with e1 e2; rw [if_pos e1.symm, e2]
    · rw [if_neg, ih hn.2 hm]
      intro e
      exact hn.1 (List.mem_map.2 ⟨_, hm, e.symm⟩)

/-- The fields of a message type other than that of an ACDC without type include the type, which is optional for one type only. -/
theorem typed_tables : (∀ p ∈ keri1, p.1 ≠ none ∧ ['t'] ∈ p.2.labels ∧ ['t'] ∉ p.2.opts) ∧ (∀ p ∈ keri2, p.1 ≠ none ∧ ['t'] ∈ p.2.labels ∧ ['t'] ∉ p.2.opts) ∧
    (∀ p ∈ acdc1, p.1 ≠ none → ['t'] ∈ p.2.labels ∧ ['t'] ∉ p.2.opts) ∧
    (∀ p ∈ acdc2, p.1 ≠ none → p.1 ≠ some ['a', 'c', 'm'] → ['t'] ∈ p.2.labels ∧ ['t'] ∉ p.2.opts) := by
  refine ⟨by decide +kernel, by decide +kernel, by decide +kernel, by decide +kernel⟩

/-- Without its optional type an ACDC has the fields of an ACDC without type. -/
theorem acm_labels : ∃ fd fd', domOf acdc2 (some ['a', 'c', 'm']) = some fd ∧ domOf acdc2 none = some fd' ∧ fd'.saids = fd.saids ∧
    fd.labels.filter (· ≠ ['t']) = fd'.labels ∧ (∀ l ∈ fd'.labels, l ∉ fd'.opts → l ∉ fd.opts) ∧ fd'.alts = fd.alts ∧ fd.strict = true := by
  refine ⟨_, _, rfl, rfl, rfl, rfl, ?_, rfl, rfl⟩
  decide +kernel

theorem untyped {proto : Proto} {pvrsn : Nat × Nat} {doms : List (Option (List Char) × FieldDom)} (h : domains proto pvrsn = some doms)
    {ilk : Option (List Char)} {fd : FieldDom} (hf : domOf doms ilk = some fd) {keys : List (List Char)} (hn : keys.Nodup) (hs : Shape fd keys) (ht : ['t'] ∉ keys) :
    ∃ fd', domOf doms none = some fd' ∧ fd'.saids = fd.saids ∧ Shape fd' keys := by
  have req : ['t'] ∈ fd.labels → ['t'] ∉ fd.opts → False := by
    intro h1 h2
    obtain ⟨own, ext, rfl, _, hr, _⟩ := hs
    exact ht (List.mem_append_left _ (hr _ h1 h2))
  have hm := domOf_mem hf
  obtain ⟨t1, t2, t3, t4⟩ := typed_tables
  by_cases hi : ilk = none
  · subst hi; exact ⟨fd, hf, rfl, hs⟩
  rcases domains_cases h with ⟨_, _, rfl⟩ | ⟨_, _, rfl⟩ | ⟨_, _, rfl⟩ | ⟨_, _, rfl⟩
  · obtain ⟨_, q1, q2⟩ := t1 _ hm; exact absurd (req q1 q2) id
  · obtain ⟨_, q1, q2⟩ := t2 _ hm; exact absurd (req q1 q2) id
  · obtain ⟨q1, q2⟩ := t3 _ hm hi; exact absurd (req q1 q2) id
  · by_cases ha : ilk = some ['a', 'c', 'm']
    · subst ha
      obtain ⟨f, f', e1, e2, e3, e4, e5, e6, e7⟩ := acm_labels
      rw [e1] at hf
      injection hf with hf
      subst hf
      refine ⟨f', e2, e3, ?_⟩
      obtain ⟨own, ext, rfl, s1, s2, s3, s4, s5⟩ := hs
      rw [s4 e7] at ht ⊢
      simp only [List.append_nil] at ht ⊢
      refine ⟨own, [], by simp, ?_, ?_, by simp, by simp, ?_⟩
      · rw [← e4]
        have := s1.filter (· ≠ ['t'])
        rwa [List.filter_eq_self.2 (fun x hx => by simpa using fun (e : x = ['t']) => ht (e ▸ hx))] at this
      · intro l hl ho
        refine s2 l ?_ (e5 l hl ho)
        rw [← e4] at hl
        exact (List.mem_filter.1 hl).1
      · rw [e6]; exact s5
    · obtain ⟨q1, q2⟩ := t4 _ hm hi ha
      exact absurd (req q1 q2) id

theorem compute_versify {lib : Lib} {a : Attrs} {sad sad' : Flds} {s : Saids} {raw : List Char} {size : Nat} (h : compute lib a sad s = .ok (sad', raw, size)) :
    ∃ v, versifyText a size = .ok v := by
  by_cases hk : a.kind = .cesr
  · obtain ⟨_, _, vs, _, _, _, c4, _, e⟩ := (compute_cesr hk).1 h
    exact ⟨vs, by rw [e]; exact c4⟩
  · obtain ⟨raw0, vs, ser, _, c2, e, _, _, _⟩ := (compute_other hk).1 h
    exact ⟨vs, by rw [e]; exact c2⟩

/-- What `makify` has done when it has made a message. -/
structure Making (lib : Lib) (o : Opts) (sad : Flds) (s : Serder) where
  doms : List (Option (List Char) × FieldDom)
  ilk : Option (List Char)
  fd : FieldDom
  sad1 : Flds
  saids : Saids
  hdoms : domains s.attrs.proto s.attrs.pvrsn = some doms
  hdom : domOf doms ilk = some fd
  hgen : ∀ g, s.attrs.gvrsn = some g → 2 ≤ g.1
  hgen2 : 2 ≤ s.attrs.pvrsn.1 → s.attrs.gvrsn.isSome = true
  hshape : fieldsOk fd ((arranged ilk fd sad).map (·.1)) = true
  hv : ['v'] ∈ (arranged ilk fd sad).map (·.1)
  hpick : pickSaids o.saids fd.saids (arranged ilk fd sad) = (sad1, saids)
  hcomp : compute lib s.attrs (if s.attrs.kind = .cesr then sad1 else setField sad1 ['v'] (.text (List.replicate (span s.attrs.pvrsn) '#'))) saids =
    .ok (s.sad, s.raw, s.size)

theorem arrange_facts {o : Opts} {a : Attrs} {ilk : Option (List Char)} {fd : FieldDom} {sad sadB : Flds} {s : Saids} (h : arrange o a ilk fd sad = .ok (sadB, s)) :
    ∃ sad1, fieldsOk fd ((arranged ilk fd sad).map (·.1)) = true ∧ ['v'] ∈ (arranged ilk fd sad).map (·.1) ∧
      pickSaids o.saids fd.saids (arranged ilk fd sad) = (sad1, s) ∧
      sadB = if a.kind = .cesr then sad1 else setField sad1 ['v'] (.text (List.replicate (span a.pvrsn) '#')) := by
  unfold arrange at h
  dsimp only at h
  change (if fieldsOk fd ((arranged ilk fd sad).map (·.1)) = false then _ else if ['v'] ∉ (arranged ilk fd sad).map (·.1) then _ else if _ then _ else
    Except.ok (_, (pickSaids o.saids fd.saids (arranged ilk fd sad)).2)) = _ at h
  split at h
  · exact absurd h (by simp)
  next h1 =>
  split at h
  · exact absurd h (by simp)
  next h2 =>
  split at h
  · exact absurd h (by simp)
  injection h with h
  injection h with e1 e2
  refine ⟨_, by simpa using h1, Decidable.not_not.1 h2, ?_, e1.symm⟩
  rw [← e2]
  rfl

theorem makify_facts {lib : Lib} {cls : Cls} {o : Opts} {sad : Flds} {s : Serder} (h : makify lib cls o sad = .ok s) :
    (cls = .keri → s.attrs.proto = .keri) ∧ Nonempty (Making lib o sad s) := by
  unfold makify at h
  split at h
  · exact absurd h (by simp)
  next a sadB saids hm =>
  split at h
  · exact absurd h (by simp)
  next sad3 raw size hc =>
  injection h with h
  subst h
  unfold makifySad at hm
  split at hm
  · exact absurd hm (by simp)
  next sm silk hh =>
  dsimp only at hm
  split at hm
  · exact absurd hm (by simp)
  next hcls =>
  split at hm
  · exact absurd hm (by simp)
  next doms hdoms =>
  generalize hg : pickGenus o sm _ = gvrsn at hm
  split at hm
  · exact absurd hm (by simp)
  next hgv =>
  split at hm
  · exact absurd hm (by simp)
  next ilk hilk =>
  split at hm
  · exact absurd hm (by simp)
  next fd hfd =>
  split at hm
  · exact absurd hm (by simp)
  next sadB' saids' ha =>
  injection hm with hm
  injection hm with e1 hm
  injection hm with e2 e3
  subst e1 e2 e3
  obtain ⟨sad1, a1, a2, a3, a4⟩ := arrange_facts ha
  refine ⟨fun hk => ?_, ⟨⟨doms, ilk, fd, sad1, saids', hdoms, hfd, ?_, ?_, a1, a2, a3, ?_⟩⟩⟩
  · by_cases hp : o.proto.getD ((sm.map (·.proto)).getD .keri) = .keri
    · exact hp
    · exact absurd ⟨hk, hp⟩ hcls
  · intro g e
    simp only at e
    rw [e] at hgv
    simpa [oldGenus] using hgv
  · intro h2
    simp only at h2 ⊢
    rw [← hg]
    unfold pickGenus
    split
    · rfl
    · split
      · rfl
      · rw [if_pos h2]; rfl
  · rw [a4] at hc
    exact hc

theorem genOk_of {a : Attrs} {n : Nat} {v : Val} (h : versifyText a n = .ok v) (hg : ∀ g, a.gvrsn = some g → 2 ≤ g.1) (h2 : 2 ≤ a.pvrsn.1 → a.gvrsn.isSome = true) :
    GenOk a ∧ ¬ (a.kind = .cesr ∧ a.pvrsn.1 < 2) := by
  unfold versifyText at h
  split at h
  · exact absurd h (by simp)
  next b hb =>
  unfold GenOk
  unfold versify at hb
  split at hb
  · next hp =>
    rw [if_pos hp]
    split at hb
    · exact absurd hb (by simp)
    next hgv =>
    split at hb
    · exact absurd hb (by simp)
    next hk =>
    refine ⟨?_, fun hc => hk hc.1⟩
    cases hga : a.gvrsn with
    | none => rfl
    | some g =>
      exfalso
      apply hgv
      refine ⟨by rw [hga]; simp, fun e => ?_⟩
      rw [e] at hg
      have := hg _ rfl
      omega
  · next hp =>
    rw [if_neg hp]
    exact ⟨h2 (by omega), fun hc => hp hc.2⟩

end Verif.Ser
