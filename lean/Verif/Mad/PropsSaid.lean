import Verif.Mad.SaidMore
import Verif.Mad.PropsMap

/-!
# SAIDs of field maps (C117, C118)

`makify` is `Mapper(mad=…, makify=True, saidive=True)`, `verify` the check that `Mapper(mad=…, saidive=True)` and `Mapper(raw=…, saidive=True)` make.
-/

namespace Verif.Mad

open Verif.B64 Verif.Matter

theorem getKey_some_of_keys {α β : Type} {d : List (List Char × α)} {e : List (List Char × β)} (h : d.map (·.1) = e.map (·.1)) {l : List Char} {v : α}
    (hv : getKey d l = some v) : ∃ u, getKey e l = some u := by
  cases hg : getKey e l with
  | some u => exact ⟨u, rfl⟩
  | none =>
    have := getKey_none.1 hg
    rw [← h] at this
    exact absurd (List.mem_map.2 ⟨_, getKey_mem hv, rfl⟩) this

/-- C117: a map made with SAIDs verifies, for every kind of serialization. -/
theorem c117_made_verifies (w : World) (kind : Kind) (strict : Bool) (saids s : Saids) (mad mad' : Flds) (raw : List Char) (hw : HashOk w)
    (hm : Dict mad) (hs : Dict saids) (h : makify w kind strict saids mad = .ok (raw, mad', s)) :
    verify w kind strict saids mad' = .ok () ∧ fromMad w kind strict saids mad' = .ok raw := by
  obtain ⟨ser, f, h1, h2, h3, h4, ⟨m3, h5, h6⟩, h7⟩ := makify_facts hw hm hs h
  have hv : verify w kind strict saids mad' = .ok () := by
    unfold verify
    rw [h5]
    simp only
    rw [checkSaids_ok]
    rintro ⟨l, c⟩ hl v hg
    have hs1 : (s.map (·.1)).Nodup := by rw [h1, finalCodes_keys]; exact hs
    have hk := getKey_of_mem hs1 hl
    rw [h2, filled_get, hk] at hg
    cases hgm : getKey mad l with
    | none => rw [hgm] at hg; simp at hg
    | some u =>
      rw [hgm] at hg
      simp only [Option.map_some, fillVal, Option.some.injEq] at hg
      exact ⟨f c, hg.symm, h4 l c hl (by rw [hgm]; rfl)⟩
  refine ⟨hv, ?_⟩
  unfold fromMad
  simp only [h7, hv]

/-- C117: the serialization is that of the map made, in the kind asked for. -/
theorem c117_serialized (w : World) (kind : Kind) (strict : Bool) (saids s : Saids) (mad mad' : Flds) (raw : List Char)
    (h : makify w kind strict saids mad = .ok (raw, mad', s)) :
    (kind = .cesr → exhale strict mad' = .ok raw) ∧ (kind = .other → w.dumps mad' = .ok raw) := by
  unfold makify at h
  split at h
  · exact absurd h (by simp)
  split at h
  · exact absurd h (by simp)
  split at h
  · exact absurd h (by simp)
  next hr =>
  simp only [Except.ok.injEq, Prod.mk.injEq] at h
  obtain ⟨rfl, rfl, _⟩ := h
  constructor <;> rintro rfl <;> simpa [exhaleKind] using hr

/-- C117: making SAIDs changes no label, no order and no other field. -/
theorem c117_others_kept (w : World) (kind : Kind) (strict : Bool) (saids s : Saids) (mad mad' : Flds) (raw : List Char) (hw : HashOk w)
    (hm : Dict mad) (hs : Dict saids) (h : makify w kind strict saids mad = .ok (raw, mad', s)) :
    masked (saids.map (·.1)) mad' = masked (saids.map (·.1)) mad := by
  obtain ⟨ser, f, h1, h2, _⟩ := makify_facts hw hm hs h
  rw [h2]
  unfold masked filled
  rw [List.map_map]
  apply List.map_congr_left
  rintro ⟨l, v⟩ _
  simp only [Function.comp]
  split
  · rfl
  · next hl =>
    have : getKey s l = none := by
      rw [h1, finalCodes_get, getKey_none.2 hl]; rfl
    rw [this]; rfl

/-- C117: each SAID is a digest primitive; its code is that of the value that was in the field, if that was a primitive, and otherwise the default. -/
theorem c117_code (w : World) (kind : Kind) (strict : Bool) (saids s : Saids) (mad mad' : Flds) (raw : List Char) (hw : HashOk w)
    (hm : Dict mad) (hs : Dict saids) (h : makify w kind strict saids mad = .ok (raw, mad', s)) (l d : List Char) (v : Val)
    (hd : (l, d) ∈ saids) (hv : (l, v) ∈ mad) :
    ∃ t m, (l, Val.text t) ∈ mad' ∧ exfil t = .ok m ∧ fullSize m = .ok t.length ∧ m.code ∈ digDex ∧
      (∀ x m0, v = .text x → exfil x = .ok m0 → m.code = m0.code) ∧ ((∀ x m0, v = .text x → exfil x ≠ .ok m0) → m.code = d) := by
  obtain ⟨ser, f, h1, h2, h3, h4, _, _⟩ := makify_facts hw hm hs h
  have hgd := getKey_of_mem hs hd
  have hgv := getKey_of_mem hm hv
  have hc : getKey s l = some (codeOf d v) := by rw [h1, finalCodes_get, hgd, hgv]; rfl
  have hdig := h4 l _ (getKey_mem hc) (by rw [hgv]; rfl)
  obtain ⟨m, m1, m2, m3, m4, m5⟩ := digest_facts hw hdig
  refine ⟨f (codeOf d v), m, ?_, m5, ?_, by rw [m2]; exact m4, ?_, ?_⟩
  · apply getKey_mem
    rw [h2, filled_get, hgv, hc]; rfl
  · have := m1.take []
    rw [List.append_nil] at this
    unfold takeMat at this
    rw [m5] at this
    simp only at this
    obtain ⟨n, sz, mat, r, c⟩ := (exfil_ok_iff _ m).1 m5
    have hfs := fullSize_valid c.size c.framed
    rw [hfs] at this ⊢
    simp only [Except.ok.injEq, Prod.mk.injEq, true_and] at this
    have hbl := both_length (wf_of_sizes c.size) c.softLen
    have hcl := c.len
    have e1 : (f (codeOf d v)).length = n + r.length := by rw [c.text]; simp; omega
    have e2 := congrArg List.length this
    simp only [List.length_drop, List.length_nil] at e2
    congr 1
    omega
  · intro x m0 hx he
    rw [m2, hx]
    simp only [codeOf, he]
  · intro hno
    rw [m2]
    unfold codeOf
    split
    · split
      · next x m0 he => exact absurd he (hno _ _ rfl)
      · rfl
    · rfl

/-- C117: making SAIDs again changes nothing. -/
theorem c117_idempotent (w : World) (kind : Kind) (strict : Bool) (saids s : Saids) (mad mad' : Flds) (raw : List Char) (hw : HashOk w)
    (hm : Dict mad) (hs : Dict saids) (h : makify w kind strict saids mad = .ok (raw, mad', s)) :
    makify w kind strict saids mad' = .ok (raw, mad', s) := by
  obtain ⟨ser, f, h1, h2, h3, h4, ⟨m3, h5, h6⟩, h7⟩ := makify_facts hw hm hs h
  unfold makify
  simp only [h5, h6, h7]

/-- C117: the native serialization of a map made with SAIDs is read back and verifies, whatever follows on the stream. -/
theorem c117_received_partial (env : Env) (w : World) (strict : Bool) (saids s : Saids) (mad mad' : Flds) (raw : List Char) (hw : HashOk w)
    (hs : Dict saids) (hm : Dict mad) (hg : Good env (.map mad')) (h : makify w .cesr strict saids mad = .ok (raw, mad', s)) :
    ∀ rest, fromRaw env w strict saids (raw ++ rest) = .ok (mad', rest) := by
  obtain ⟨v1, v2⟩ := c117_made_verifies w .cesr strict saids s mad mad' raw hw hm hs h
  obtain ⟨ser, f, _, _, _, _, _, h7⟩ := makify_facts hw hm hs h
  intro rest
  unfold fromRaw
  rw [c116_text_partial env strict mad' raw hg h7 rest]
  simp only [v1]

theorem verify_facts {w : World} {kind : Kind} {strict : Bool} {saids : Saids} {mad : Flds} (hm : Dict mad) (hs : Dict saids)
    (h : verify w kind strict saids mad = .ok ()) :
    ∃ ser m1, exhaleDummy w kind strict saids mad = .ok (ser, m1, finalCodes saids mad) ∧
      ∀ l v d, getKey saids l = some d → getKey mad l = some v → ∃ t, v = .text t ∧ digestOf w (codeOf d v) ser = .ok t := by
  unfold verify at h
  split at h
  · exact absurd h (by simp)
  next ser m1 s he =>
  have hrefl : AllAlike saids mad mad := by
    clear hm he h
    induction mad with
    | nil => exact .nil
    | cons p r ih => exact .cons ⟨rfl, fun _ _ => rfl, fun _ => rfl⟩ ih
  obtain ⟨_, _, a1, _⟩ := exhaleDummy_alike w kind strict hm hs hrefl he
  subst a1
  refine ⟨ser, m1, he, ?_⟩
  rw [checkSaids_ok] at h
  intro l v d hd hv
  refine h (l, codeOf d v) ?_ v hv
  apply getKey_mem
  rw [finalCodes_get, hd, hv]; rfl

/-- C117: a map that is accepted has in each SAID field the digest of its serialization with the SAIDs filled with `#`. -/
theorem c117_checked (w : World) (kind : Kind) (strict : Bool) (saids : Saids) (mad : Flds) (raw : List Char) (hm : Dict mad) (hs : Dict saids)
    (h : fromMad w kind strict saids mad = .ok raw) :
    ∃ ser, Digested w kind strict saids mad ser ∧
      ∀ l d v, (l, d) ∈ saids → (l, v) ∈ mad → ∃ t code, v = .text t ∧ code ∈ digDex ∧ qb64Of (make code [] (w.hash code ser) none) = .ok t := by
  unfold fromMad at h
  split at h
  · exact absurd h (by simp)
  split at h
  · exact absurd h (by simp)
  next hv =>
  obtain ⟨ser, m1, h1, h2⟩ := verify_facts hm hs hv
  refine ⟨ser, ⟨_, _, h1⟩, ?_⟩
  intro l d v hl hv
  obtain ⟨t, e, hd⟩ := h2 l v d (getKey_of_mem hs hl) (getKey_of_mem hm hv)
  unfold digestOf at hd
  split at hd
  · exact absurd hd (by simp)
  split at hd
  · exact absurd hd (by simp)
  next hc => exact ⟨t, codeOf d v, e, by simpa using hc, hd⟩

theorem same_ser {w : World} {kind : Kind} {strict : Bool} {saids : Saids} {mad1 mad2 : Flds} (hw : HashOk w) (hs : Dict saids)
    (hm1 : Dict mad1) (hm2 : Dict mad2) (h1 : verify w kind strict saids mad1 = .ok ()) (h2 : verify w kind strict saids mad2 = .ok ())
    {l d : List Char} {v : Val} (hl : (l, d) ∈ saids) (e1 : (l, v) ∈ mad1) (e2 : (l, v) ∈ mad2) :
    (∃ ser a b, exhaleDummy w kind strict saids mad1 = .ok (ser, a, finalCodes saids mad1) ∧
      exhaleDummy w kind strict saids mad2 = .ok (ser, b, finalCodes saids mad2)) ∨ Collision w kind strict saids mad1 mad2 := by
  obtain ⟨s1, a, x1, y1⟩ := verify_facts hm1 hs h1
  obtain ⟨s2, b, x2, y2⟩ := verify_facts hm2 hs h2
  obtain ⟨t1, z1, u1⟩ := y1 l v d (getKey_of_mem hs hl) (getKey_of_mem hm1 e1)
  obtain ⟨t2, z2, u2⟩ := y2 l v d (getKey_of_mem hs hl) (getKey_of_mem hm2 e2)
  rw [z1] at z2
  injection z2 with z2
  subst z2
  obtain ⟨m, _, _, p3, _, p5⟩ := digest_facts hw u1
  obtain ⟨m', _, _, q3, _, q5⟩ := digest_facts hw u2
  rw [p5] at q5
  injection q5 with q5
  subst q5
  by_cases e : s1 = s2
  · subst e; exact .inl ⟨s1, a, b, x1, x2⟩
  · exact .inr ⟨_, s1, s2, ⟨_, _, x1⟩, ⟨_, _, x2⟩, e, p3.symm.trans q3⟩

/-- C118: a SAID commits to the map: two maps that verify and have the same SAID have the same labels in the same order and the same values in all fields
but the SAIDs, or the two are a collision of a digest function.  Native serialization. -/
theorem c118_commits_partial (env : Env) (w : World) (strict : Bool) (saids : Saids) (mad1 mad2 : Flds) (hw : HashOk w) (hs : Dict saids)
    (g1 : Good env (.map mad1)) (g2 : Good env (.map mad2))
    (h1 : verify w .cesr strict saids mad1 = .ok ()) (h2 : verify w .cesr strict saids mad2 = .ok ())
    (l d : List Char) (v : Val) (hl : (l, d) ∈ saids) (e1 : (l, v) ∈ mad1) (e2 : (l, v) ∈ mad2) :
    masked (saids.map (·.1)) mad1 = masked (saids.map (·.1)) mad2 ∨ Collision w .cesr strict saids mad1 mad2 := by
  simp only [Good] at g1 g2
  rcases same_ser hw hs g1.1 g2.1 h1 h2 hl e1 e2 with ⟨ser, a, b, x1, x2⟩ | h
  · left
    simp only [exhaleDummy] at x1 x2
    split at x1
    · exact absurd x1 (by simp)
    next b1 s1 hd1 =>
    split at x1
    · exact absurd x1 (by simp)
    next r1 hr1 =>
    split at x2
    · exact absurd x2 (by simp)
    next b2 s2 hd2 =>
    split at x2
    · exact absurd x2 (by simp)
    next r2 hr2 =>
    simp only [Except.ok.injEq, Prod.mk.injEq] at x1 x2
    rw [x1.1] at hr1
    rw [x2.1] at hr2
    have := enclose_inj hr1 hr2
    subst this
    exact dummyFlds_inj mad1 mad2 saids saids s1 s2 b1 rfl g1.2 g2.2 hd1 hd2
  · exact .inr h

/-- C118 for the other kinds, when their serialization is unambiguous. -/
theorem c118_commits_other (w : World) (strict : Bool) (saids : Saids) (mad1 mad2 : Flds) (hw : HashOk w) (hs : Dict saids)
    (hd : ∀ a b s, w.dumps a = .ok s → w.dumps b = .ok s → a = b) (hm1 : Dict mad1) (hm2 : Dict mad2)
    (h1 : verify w .other strict saids mad1 = .ok ()) (h2 : verify w .other strict saids mad2 = .ok ())
    (l d : List Char) (v : Val) (hl : (l, d) ∈ saids) (e1 : (l, v) ∈ mad1) (e2 : (l, v) ∈ mad2) :
    masked (saids.map (·.1)) mad1 = masked (saids.map (·.1)) mad2 ∨ Collision w .other strict saids mad1 mad2 := by
  rcases same_ser hw hs hm1 hm2 h1 h2 hl e1 e2 with ⟨ser, a, b, x1, x2⟩ | h
  · left
    simp only [exhaleDummy] at x1 x2
    split at x1
    · exact absurd x1 (by simp)
    next m1 s1 hd1 =>
    split at x1
    · exact absurd x1 (by simp)
    next r1 hr1 =>
    split at x2
    · exact absurd x2 (by simp)
    next m2 s2 hd2 =>
    split at x2
    · exact absurd x2 (by simp)
    next r2 hr2 =>
    simp only [Except.ok.injEq, Prod.mk.injEq] at x1 x2
    rw [x1.1] at hr1
    rw [x2.1] at hr2
    have := hd _ _ _ hr1 hr2
    subst this
    have f1 := (dummyMad_full hm1 hs hd1).1
    have f2 := (dummyMad_full hm2 hs hd2).1
    rw [f1] at f2
    clear f1 hd1 hd2 x1 x2 h1 h2 e1 e2 hm1 hm2 hr1 hr2
    induction mad1 generalizing mad2 with
    | nil =>
      cases mad2 with
      | nil => rfl
      | cons _ _ => simp at f2
    | cons p r ih =>
      cases mad2 with
      | nil => simp at f2
      | cons q t =>
        simp only [List.map_cons, List.cons.injEq, Prod.mk.injEq] at f2
        have := ih t f2.2
        simp only [masked, List.map_cons] at this ⊢
        rw [this, f2.1.1]
        congr 2
        by_cases hin : q.1 ∈ saids.map (·.1)
        · rw [if_pos hin, if_pos hin]
        · rw [if_neg hin, if_neg hin]
          have hk := f2.1.2
          rw [f2.1.1, getKey_none.2 hin] at hk
          simp only [dummyVal] at hk
          rw [hk]
  · exact .inr h

theorem masked_single {l : List Char} {v : Val} : ∀ {mad1 mad2 : Flds}, Dict mad1 → Dict mad2 → (l, v) ∈ mad1 → (l, v) ∈ mad2 →
    masked [l] mad1 = masked [l] mad2 → mad1 = mad2 := by
  intro mad1 mad2 hm1 hm2 e1 e2 h
  have g1 : ∀ p ∈ mad1, p.1 = l → p.2 = v := by
    rintro ⟨k, u⟩ hp rfl
    have := (getKey_of_mem hm1 hp).symm.trans (getKey_of_mem hm1 e1)
    simpa using this
  have g2 : ∀ p ∈ mad2, p.1 = l → p.2 = v := by
    rintro ⟨k, u⟩ hp rfl
    have := (getKey_of_mem hm2 hp).symm.trans (getKey_of_mem hm2 e2)
    simpa using this
  clear hm1 hm2 e1 e2
  induction mad1 generalizing mad2 with
  | nil =>
    cases mad2 with
    | nil => rfl
    | cons _ _ => simp [masked] at h
  | cons p r ih =>
    cases mad2 with
    | nil => simp [masked] at h
    | cons q t =>
      simp only [masked, List.map_cons, List.cons.injEq, Prod.mk.injEq, List.mem_singleton] at h
      rw [ih (mad2 := t) (by simpa [masked] using h.2) (fun x hx => g1 x (by simp [hx])) (fun x hx => g2 x (by simp [hx]))]
      congr 1
      obtain ⟨k, u⟩ := p
      obtain ⟨k', u'⟩ := q
      dsimp only at h
      obtain ⟨⟨rfl, h2⟩, _⟩ := h
      by_cases e : k = l
      · have a1 : u = v := g1 (k, u) (by simp) e
        have a2 : u' = v := g2 (k, u') (by simp) e
        rw [a1, a2]
      · simp only [e, if_false, Option.some.injEq] at h2
        rw [h2]

/-- C118: with one SAID, the SAID determines the whole map. -/
theorem c118_determines_partial (env : Env) (w : World) (strict : Bool) (mad1 mad2 : Flds) (hw : HashOk w)
    (g1 : Good env (.map mad1)) (g2 : Good env (.map mad2)) (l d : List Char) (v : Val)
    (h1 : verify w .cesr strict [(l, d)] mad1 = .ok ()) (h2 : verify w .cesr strict [(l, d)] mad2 = .ok ())
    (e1 : (l, v) ∈ mad1) (e2 : (l, v) ∈ mad2) : mad1 = mad2 ∨ Collision w .cesr strict [(l, d)] mad1 mad2 := by
  rcases c118_commits_partial env w strict [(l, d)] mad1 mad2 hw (by simp [Dict]) g1 g2 h1 h2 l d v (by simp) e1 e2 with h | h
  · simp only [Good] at g1 g2
    exact .inl (masked_single g1.1 g2.1 e1 e2 h)
  · exact .inr h

end Verif.Mad
