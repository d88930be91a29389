import Verif.Prs.Chunks

/-!
# Messages
-/

namespace Verif.Prs

open Verif.Matter (Mat)
open Verif.Idr (Ixr)
open Verif.Ctr (Ver Counter)
open Verif.B64

/-- The version a counter announces. -/
def announces (c : Counter) : Except Err Ver :=
  match Verif.Ctr.b64ToVer (Verif.B64.intToB64 c.count 3) with
  | .error e => .error e
  | .ok p => Verif.Ctr.tables p.1 p.2

/-- An optional version counter, and the version after it. -/
inductive Genus (v : Ver) (bin : Bool) : Bytes → Ver → Prop where
  | same : Genus v bin [] v
  | change {c : Counter} {t : Bytes} {w : Ver} : Front v bin c t → c.code = gvcCode → announces c = .ok w → Genus v bin t w

theorem setVer_ok {c : Counter} {w : Ver} {s : St} (h : announces c = .ok w) : setVer c s = .ok () { s with ver := w } := by
  unfold announces at h
  unfold setVer
  cases hb : Verif.Ctr.b64ToVer (Verif.B64.intToB64 c.count 3) with
  | error e => rw [hb] at h; exact absurd h (by simp)
  | ok p =>
    rw [hb] at h
    obtain ⟨a, b⟩ := p
    simp only at h ⊢
    rw [h]

/-- The front of some items: a counter that is neither a version nor a group of attachments. -/
theorem Items.first {β : Type} {v : Ver} {bin : Bool} {sub : P (Exts β)} {enc : Bytes} {as : List (Slot × Elem)} {ns : List (Exts β)}
    (h : Items v bin sub enc as ns) (h0 : enc ≠ []) : ∃ c t r, Front v bin c t ∧ enc = t ++ r ∧ AllLt 256 r ∧ c.code ≠ gvcCode ∧ isAttGroup v c.code = false ∧
      isGeneric v c.code = false := by
  have key : ∀ {c : Counter}, (classify v c.code = .att ∨ classify v c.code = .nest) → c.code ≠ gvcCode ∧ isAttGroup v c.code = false ∧
      isGeneric v c.code = false := by
    intro c hc
    unfold classify at hc
    split at hc
    · exact absurd hc (by simp)
    next h1 =>
    split at hc
    · exact absurd hc (by simp)
    next h2 =>
    exact ⟨fun h => h1 (Or.inl h), by simpa using h2, by simpa using fun h => h1 (Or.inr (Or.inl h))⟩
  cases h with
  | nil => exact absurd rfl h0
  | cons h1 h2 =>
    have hl := h2.front.1.lt
    cases h1 with
    | att g1 g2 g3 g4 _ => exact ⟨_, _, _, ⟨g1, g2⟩, List.append_assoc _ _ _, (allLt_append _ _ _).2 ⟨g4.lt, hl⟩, key (Or.inl g3)⟩
    | nest g1 g2 g3 g4 _ => exact ⟨_, _, _, ⟨g1, g2⟩, List.append_assoc _ _ _, (allLt_append _ _ _).2 ⟨g4.lt, hl⟩, key (Or.inr g3)⟩

/-- Inside of a group of attachments. -/
theorem inAttGroup_ok {β : Type} {v w : Ver} {bin : Bool} {sub : P (Exts β)} {framed : Bool} {pre enc : Bytes} {as : List (Slot × Elem)}
    {ns : List (Exts β)} (hg : Genus v bin pre w) (h : Items w bin sub enc as ns) (h0 : enc ≠ []) :
    inAttGroup sub framed (coldOf bin) ⟨pre ++ enc, [], v⟩ = .ok ⟨as, ns⟩ ⟨[], [], v⟩ := by
  have hnil : AllLt 256 ([] : Bytes) := by intro b hb; simp at hb
  cases hg with
  | same =>
    obtain ⟨c, t, r, f1, f2, f3, f4, f5, f6⟩ := h.first h0
    have hp := peek_ok (v := v) (cold := coldOf bin) (c := c) (buf := enc) [] true (by rw [f2]; exact f1.facts.1 r f3)
    unfold inAttGroup
    rw [List.nil_append, bind_ok hp, if_neg f4]
    have := loopAll_items (framed := framed) (enclosed := true) hnil (fun _ => rfl) (by simp) h (by simp) h0
    rw [List.append_nil] at this
    exact this
  | @change c t w f1 f2 f3 =>
    have hp := peek_ok (v := v) (cold := coldOf bin) (c := c) (buf := pre ++ enc) [] true (f1.facts.1 enc h.front.1.lt)
    unfold inAttGroup
    rw [bind_ok hp, if_pos f2]
    have hd : delCtr (coldOf bin) c ⟨pre ++ enc, [], v⟩ = .ok () ⟨enc, [], v⟩ := by simp [delCtr, del, f1.facts.2.1]
    rw [bind_ok hd]
    have hv : getVer ⟨enc, [], v⟩ = .ok v ⟨enc, [], v⟩ := rfl
    rw [bind_ok hv]
    have hl := loopAll_items (framed := framed) (enclosed := true) hnil (fun _ => rfl) (by simp) h (by simp) h0
    rw [List.append_nil] at hl
    have hs : (do setVer c; loopAll sub framed true (coldOf bin) : P (Atts β)) ⟨enc, [], v⟩ = .ok ⟨as, ns⟩ ⟨[], [], w⟩ := by
      rw [bind_ok (setVer_ok f3)]
      exact hl
    exact restoring_ok hs

/-- A group of attachments: its counter, an optional version, the attachments. -/
structure AttGroup {β : Type} (v : Ver) (bin : Bool) (sub : P (Exts β)) (enc : Bytes) (as : List (Slot × Elem)) (ns : List (Exts β)) : Prop where
  parts : ∃ c t w pre items, Front v bin c t ∧ isAttGroup v c.code = true ∧ Genus v bin pre w ∧ Items w bin sub items as ns ∧ items ≠ [] ∧
    ctrCount (coldOf bin) c = (pre ++ items).length ∧ enc = t ++ (pre ++ items)

theorem Genus.lt {v w : Ver} {bin : Bool} {pre : Bytes} (h : Genus v bin pre w) : AllLt 256 pre := by
  cases h with
  | same => intro b hb; simp at hb
  | change f1 _ _ => exact f1.facts.2.2.1.lt

theorem AttGroup.lt {β : Type} {v : Ver} {bin : Bool} {sub : P (Exts β)} {enc : Bytes} {as : List (Slot × Elem)} {ns : List (Exts β)}
    (h : AttGroup v bin sub enc as ns) : AllLt 256 enc := by
  obtain ⟨c, t, w, pre, items, f1, f2, f3, f4, f5, f6, rfl⟩ := h.parts
  exact (allLt_append _ _ _).2 ⟨f1.facts.2.2.1.lt, (allLt_append _ _ _).2 ⟨f3.lt, f4.front.1.lt⟩⟩

/-- A group of attachments is taken whole, however it arrives. -/
theorem attsOf_group {β : Type} {v : Ver} {bin : Bool} {sub : P (Exts β)} {framed enclosed : Bool} {enc rest : Bytes} {as : List (Slot × Elem)}
    {ns : List (Exts β)} {s : St} (h : AttGroup v bin sub enc as ns) (hv : s.ver = v) (ha : s.all = enc ++ rest) (hr : AllLt 256 rest)
    (hf : framed = true → s.fut = []) : Goes (attsOf sub framed enclosed) s ⟨as, ns⟩ rest v 0 := by
  obtain ⟨c, t, w, pre, items, f1, f2, f3, f4, f5, f6, rfl⟩ := h.parts
  obtain ⟨k1, k2, k3, k4, k5, k6⟩ := f1.facts
  have hcont : AllLt 256 (pre ++ items) := (allLt_append _ _ _).2 ⟨f3.lt, f4.front.1.lt⟩
  have hcr : AllLt 256 (pre ++ items ++ rest) := (allLt_append _ _ _).2 ⟨hcont, hr⟩
  have htl : 0 < t.length := List.length_pos_iff.2 k4
  have ha' : s.all = t ++ (pre ++ items ++ rest) := by rw [ha, List.append_assoc]
  suffices hG : Goes (do
      fill 1 framed
      let cold ← sniffP
      if cold = .msg then pure ⟨[], []⟩
      else do
        let c ← peek cold framed
        let v ← getVer
        if isAttGroup v c.code then do
          delCtr cold c
          fill (ctrCount cold c) framed
          let b ← takeBuf (ctrCount cold c)
          onCopy b (sizedWhen true (inAttGroup sub framed cold))
        else loopAll sub framed enclosed cold) s ⟨as, ns⟩ rest v 0 by
    obtain ⟨s', g1, g2⟩ := hG
    exact ⟨s', sizedWhen_ok g1, g2⟩
  refine Goes.bind (fill_goes hf (by rw [ha', List.length_append]; omega)) ?_
  intro s1 a1 v1 u1 b1
  have hs1 : sniff s1.all = .ok (coldOf bin) := by rw [a1, ha']; exact k5 _
  refine Goes.bind (sniffP_goes b1 hs1) ?_
  intro s2 a2 v2 u2 b2
  rw [if_neg (coldOf_ne bin)]
  have hf2 : framed = true → s2.fut = [] := fun h => fut_nil (u2.trans u1) (hf h)
  have e2 : s2.all = t ++ (pre ++ items ++ rest) := by rw [a2, a1, ha']
  have ev2 : s2.ver = v := by rw [v2, v1, hv]
  refine Goes.bind (peek_goes f1 framed ev2 e2 hcr hf2) ?_
  intro s3 a3 v3 u3 b3
  have hgv : Goes getVer s3 v s3.all s3.ver s3.buf.length := by rw [← v3]; exact ⟨s3, rfl, rfl, rfl, List.suffix_refl _, Nat.le_refl _⟩
  refine Goes.bind hgv ?_
  intro s4 a4 v4 u4 b4
  rw [if_pos f2]
  refine Goes.bind (delCtr_goes f1 (v4.trans v3) (a4.trans a3) (by omega)) ?_
  intro s5 a5 v5 u5 b5
  have hf5 : framed = true → s5.fut = [] := fun h => fut_nil (u5.trans (u4.trans u3)) (hf2 h)
  rw [f6]
  refine Goes.bind (fill_goes hf5 (by rw [a5]; simp)) ?_
  intro s6 a6 v6 u6 b6
  refine Goes.bind (takeBuf_goes (a6.trans a5) b6) ?_
  intro s7 a7 v7 u7 b7
  have ev7 : s7.ver = v := by rw [v7, v6, v5]
  have hc := inAttGroup_ok (framed := framed) f3 f4 f5
  have := onCopy_goes (s := s7) (b := pre ++ items) (act := sizedWhen true (inAttGroup sub framed (coldOf bin))) (by rw [ev7]; exact sizedWhen_ok hc)
  rw [a7] at this
  exact this

/-- Attachments that are not in a group, all there. -/
theorem attsOf_flat {β : Type} {v : Ver} {bin : Bool} {sub : P (Exts β)} {framed enclosed : Bool} {enc rest : Bytes} {as : List (Slot × Elem)}
    {ns : List (Exts β)} (h : Items v bin sub enc as ns) (h0 : enc ≠ []) (hr : AllLt 256 rest) (he : enclosed = true → rest = [])
    (hs : enclosed = false → Stop v rest) (hns : enclosed = false → ns = []) :
    attsOf sub framed enclosed ⟨enc ++ rest, [], v⟩ = .ok ⟨as, ns⟩ ⟨rest, [], v⟩ := by
  obtain ⟨c, t, r, f1, f2, f3, f4, f5, f6⟩ := h.first h0
  obtain ⟨k1, k2, k3, k4, k5, k6⟩ := f1.facts
  refine sizedWhen_ok ?_
  have htl : 0 < enc.length := List.length_pos_iff.2 h0
  have hfill : fill 1 framed ⟨enc ++ rest, [], v⟩ = .ok () ⟨enc ++ rest, [], v⟩ := by
    unfold fill
    cases framed
    · simp only [Bool.false_eq_true, if_false]
      rw [waitGo.eq_def]
      simp only
      rw [if_pos (by rw [List.length_append]; omega)]
    · rfl
  rw [bind_ok hfill]
  have hsn : sniffP ⟨enc ++ rest, [], v⟩ = .ok (coldOf bin) ⟨enc ++ rest, [], v⟩ := by simp [sniffP, h.front.2 h0 rest]
  rw [bind_ok hsn, if_neg (coldOf_ne bin)]
  have hp := peek_ok (v := v) (cold := coldOf bin) (c := c) (buf := enc ++ rest) [] framed
    (by rw [f2, List.append_assoc]; exact k1 _ ((allLt_append _ _ _).2 ⟨f3, hr⟩))
  rw [bind_ok hp]
  have hv : getVer ⟨enc ++ rest, [], v⟩ = .ok v ⟨enc ++ rest, [], v⟩ := rfl
  rw [bind_ok hv, if_neg (by rw [f5]; simp)]
  exact loopAll_items hr he hs h hns h0

end Verif.Prs
