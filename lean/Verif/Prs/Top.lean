import Verif.Prs.Messages

/-!
# Whole messages
-/

namespace Verif.Prs

open Verif.Matter (Mat)
open Verif.Idr (Ixr)
open Verif.Ctr (Ver Counter)
open Verif.B64

/-- A body announced by a counter. -/
inductive CtrBody {β : Type} (L : Loader β) (v : Ver) (bin : Bool) : Counter → Bytes → β → Prop where
  | nonnative {c : Counter} {t e : Bytes} {tx : Mat} {x : β} : Front v bin c t → isNonNative v c.code = true → GoodPrim .texter tx →
      writeMat bin tx = .ok e → (reap L v tx.raw).val = .ok x → CtrBody L v bin c (t ++ e) x
  | native {c : Counter} {t b : Bytes} {x : β} : v = .v2 → Front v bin c t → letter c.code 'F' = true → ctrCount (coldOf bin) c = b.length → AllLt 256 b →
      L.native v (toText (coldOf bin) (t ++ b)) = .ok x → CtrBody L v bin c (t ++ b) x

theorem letter_iff {code : List Char} {x : Char} : letter code x = true ↔ code = ['-', x] ∨ code = ['-', '-', x] := by simp [letter]

theorem letter_ne {code : List Char} {x y : Char} (h : letter code x = true) (hxy : x ≠ y) : letter code y = false := by
  cases hy : letter code y with
  | false => rfl
  | true =>
    exfalso
    rw [letter_iff] at h hy
    rcases h with h | h <;> rw [h] at hy <;> simp at hy
    · exact hxy hy
    · exact hxy hy

theorem gvc_letter (x : Char) (hx : x ≠ '_') : letter gvcCode x = false := by simp [letter, gvcCode]

theorem CtrBody.front {β : Type} {L : Loader β} {v : Ver} {bin : Bool} {c : Counter} {enc : Bytes} {x : β} (h : CtrBody L v bin c enc x) :
    ∃ t b, Front v bin c t ∧ enc = t ++ b ∧ AllLt 256 b ∧ c.code ≠ gvcCode ∧ isGeneric v c.code = false ∧ isBodyWith v c.code = false := by
  cases h with
  | nonnative h1 h2 h3 h4 h5 =>
    obtain ⟨e', e1, _, e3, _⟩ := mat_frames h3.1 bin
    rw [h4] at e1
    injection e1 with e1
    refine ⟨_, _, h1, rfl, by rw [e1]; exact e3.lt, ?_, ?_, ?_⟩
    · intro h0
      rw [h0] at h2
      exact absurd h2 (by cases v <;> decide)
    · unfold isNonNative at h2; unfold isGeneric
      exact letter_ne h2 (by cases v <;> decide)
    · unfold isNonNative at h2; unfold isBodyWith
      exact letter_ne h2 (by cases v <;> decide)
  | native h1 h2 h3 h4 h5 h6 =>
    refine ⟨_, _, h2, rfl, h5, ?_, ?_, ?_⟩
    · intro h0
      rw [h0] at h3
      exact absurd h3 (by decide)
    · subst h1; exact letter_ne h3 (by decide)
    · subst h1; exact letter_ne h3 (by decide)

theorem bodyOf_ok {β : Type} {L : Loader β} {v : Ver} {bin : Bool} {c : Counter} {enc rest : Bytes} {x : β} (h : CtrBody L v bin c enc x)
    (hr : AllLt 256 rest) (framed : Bool) : bodyOf L c (coldOf bin) framed ⟨enc ++ rest, [], v⟩ = .ok x ⟨rest, [], v⟩ := by
  unfold bodyOf
  have hv : getVer ⟨enc ++ rest, [], v⟩ = .ok v ⟨enc ++ rest, [], v⟩ := rfl
  rw [bind_ok hv]
  cases h with
  | @nonnative t e tx _ h1 h2 h3 h4 h5 =>
    obtain ⟨e', e1, e2, e3, _⟩ := prim_frames h3.1 h3.2 bin
    rw [h4] at e1
    injection e1 with e1
    subst e1
    rw [if_pos h2]
    have hd : delCtr (coldOf bin) c ⟨t ++ e ++ rest, [], v⟩ = .ok () ⟨e ++ rest, [], v⟩ := by
      simp [delCtr, del, h1.facts.2.1]
    rw [bind_ok hd, bind_ok (Eats.extractor (rd := fun _ => readPrim .texter (coldOf bin)) e2 framed rest hr)]
    simp only [lift, h5]
  | @native t b _ h1 h2 h3 h4 h5 h6 =>
    subst h1
    rw [if_neg (by have := letter_ne h3 (show 'F' ≠ 'H' by decide); simp [isNonNative, this]), if_neg (by simp), if_pos h3]
    have hn : ctrSize .v2 (coldOf bin) c + ctrCount (coldOf bin) c = (t ++ b).length := by rw [h2.facts.2.1, h4, List.length_append]
    simp only [hn]
    have hfill : fill (t ++ b).length framed ⟨t ++ b ++ rest, [], .v2⟩ = .ok () ⟨t ++ b ++ rest, [], .v2⟩ := by
      unfold fill
      cases framed
      · simp only [Bool.false_eq_true, if_false]
        rw [waitGo.eq_def]
        simp only
        rw [if_pos (by simp)]
      · rfl
    rw [bind_ok hfill]
    have ht : takeBuf (t ++ b).length ⟨t ++ b ++ rest, [], .v2⟩ = .ok (t ++ b) ⟨rest, [], .v2⟩ := by
      simp only [takeBuf, List.take_left, List.drop_left]
    rw [bind_ok ht]
    simp only [lift, h6]

/-- The attachments after a body inside of a group: in a group of their own or not. -/
inductive AttPart {β : Type} (v : Ver) (bin : Bool) (sub : P (Exts β)) : Bytes → List (Slot × Elem) → List (Exts β) → Prop where
  | flat {enc : Bytes} {as : List (Slot × Elem)} {ns : List (Exts β)} : Items v bin sub enc as ns → enc ≠ [] → AttPart v bin sub enc as ns
  | group {enc : Bytes} {as : List (Slot × Elem)} {ns : List (Exts β)} : AttGroup v bin sub enc as ns → AttPart v bin sub enc as ns

theorem AttPart.lt {β : Type} {v : Ver} {bin : Bool} {sub : P (Exts β)} {enc : Bytes} {as : List (Slot × Elem)} {ns : List (Exts β)}
    (h : AttPart v bin sub enc as ns) : AllLt 256 enc := by
  cases h with
  | flat h _ => exact h.front.1.lt
  | group h => exact h.lt

theorem attsOf_part {β : Type} {v : Ver} {bin : Bool} {sub : P (Exts β)} {enc : Bytes} {as : List (Slot × Elem)} {ns : List (Exts β)}
    (h : AttPart v bin sub enc as ns) : attsOf sub true true ⟨enc, [], v⟩ = .ok ⟨as, ns⟩ ⟨[], [], v⟩ := by
  have hnil : AllLt 256 ([] : Bytes) := by intro b hb; simp at hb
  cases h with
  | flat h h0 =>
    have := attsOf_flat (framed := true) (enclosed := true) h h0 hnil (fun _ => rfl) (by simp) (by simp)
    rwa [List.append_nil] at this
  | group h =>
    obtain ⟨s', g1, g2, g3, g4, _⟩ := attsOf_group (framed := true) (enclosed := true) (s := ⟨enc, [], v⟩) (rest := []) h rfl (by simp [St.all]) hnil
      (fun _ => rfl)
    have hf := fut_nil g4 rfl
    rw [all_nil hf] at g2
    obtain ⟨b, f, w⟩ := s'
    simp only at g2 g3 hf
    subst g2 g3 hf
    exact g1

theorem inBodyWith_ok {β : Type} {L : Loader β} {v w : Ver} {bin bin2 : Bool} {sub : P (Exts β)} {pre body att : Bytes} {c : Counter} {x : β}
    {as : List (Slot × Elem)} {ns : List (Exts β)} (hg : Genus v bin pre w) (hb : CtrBody L w bin c body x) (ha : AttPart w bin2 sub att as ns) :
    inBodyWith L sub (coldOf bin) ⟨pre ++ (body ++ att), [], v⟩ = .ok (.mk x as ns) ⟨[], [], v⟩ := by
  obtain ⟨t, b, f1, f2, f3, f4, f5, f6⟩ := hb.front
  have hpk : ∀ abort, peek (coldOf bin) abort ⟨body ++ att, [], w⟩ = .ok c ⟨body ++ att, [], w⟩ := fun abort => by
    refine peek_ok [] abort ?_
    rw [f2, List.append_assoc]
    exact f1.facts.1 _ ((allLt_append _ _ _).2 ⟨f3, ha.lt⟩)
  have hat := attsOf_part ha
  unfold inBodyWith
  cases hg with
  | same =>
    have hgb : groupBody L (coldOf bin) ⟨body ++ att, [], v⟩ = .ok (x, none) ⟨att, [], v⟩ := by
      refine sizedWhen_ok ?_
      rw [bind_ok (hpk true), if_neg f4, bind_ok (bodyOf_ok hb ha.lt true)]
      rfl
    rw [List.nil_append, bind_ok hgb]
    simp only
    rw [bind_ok hat]
    rfl
  | @change g t' _ h1 h2 h3 =>
    have hlt : AllLt 256 (body ++ att) := by
      rw [f2]; exact (allLt_append _ _ _).2 ⟨(allLt_append _ _ _).2 ⟨f1.facts.2.2.1.lt, f3⟩, ha.lt⟩
    have hpg := peek_ok (v := v) (cold := coldOf bin) (c := g) (buf := pre ++ (body ++ att)) [] true (h1.facts.1 _ hlt)
    have hd : delCtr (coldOf bin) g ⟨pre ++ (body ++ att), [], v⟩ = .ok () ⟨body ++ att, [], v⟩ := by
      simp [delCtr, del, h1.facts.2.1]
    have hgv : getVer ⟨body ++ att, [], v⟩ = .ok v ⟨body ++ att, [], v⟩ := rfl
    have hgb : groupBody L (coldOf bin) ⟨pre ++ (body ++ att), [], v⟩ = .ok (x, some v) ⟨att, [], w⟩ := by
      refine sizedWhen_ok ?_
      rw [bind_ok hpg, if_pos h2, bind_ok hd, bind_ok hgv, bind_ok (setVer_ok h3), bind_ok (hpk true), bind_ok (bodyOf_ok hb ha.lt true)]
      rfl
    rw [bind_ok hgb]
    simp only
    rw [bind_ok (restoring_ok hat)]
    rfl

/-- A body and its attachments in one group. -/
structure BodyWith {β : Type} (L : Loader β) (v : Ver) (bin : Bool) (sub : P (Exts β)) (enc : Bytes) (e : Exts β) : Prop where
  parts : ∃ c t w pre cb body bin2 att, Front v bin c t ∧ isBodyWith v c.code = true ∧ Genus v bin pre w ∧ CtrBody L w bin cb body e.body ∧
    AttPart w bin2 sub att e.atts e.nests ∧ ctrCount (coldOf bin) c = (pre ++ (body ++ att)).length ∧ enc = t ++ (pre ++ (body ++ att))

/-- The front of a message: a body, or a counter that announces no version. -/
inductive Head (v : Ver) (enc : Bytes) : Prop where
  | msg : enc ≠ [] → sniff enc = .ok .msg → Head v enc
  | ctr {bin : Bool} {c : Counter} {t r : Bytes} : Front v bin c t → enc = t ++ r → AllLt 256 r → c.code ≠ gvcCode → isGeneric v c.code = false → Head v enc

theorem Head.ne {v : Ver} {enc : Bytes} (h : Head v enc) : enc ≠ [] := by
  cases h with
  | msg h _ => exact h
  | ctr h1 h2 _ _ _ => rw [h2]; simp [h1.facts.2.2.2.1]

/-- A version at the front, if there is one, is taken. -/
theorem front_goes {u v : Ver} {bin framed : Bool} {pre enc rest : Bytes} {s : St} (hg : Genus u bin pre v) (hh : Head v enc) (hr : AllLt 256 rest)
    (hl : AllLt 256 enc) (hv : s.ver = u) (ha : s.all = pre ++ (enc ++ rest)) (hb : 1 ≤ s.buf.length) (hf : framed = true → s.fut = [])
    (hp : pre = [] ∨ s.fut = []) : Goes (frontVersion framed) s () (enc ++ rest) v 1 := by
  unfold frontVersion
  cases hg with
  | same =>
    rw [List.nil_append] at ha
    cases hh with
    | msg h1 h2 =>
      refine Goes.bind (sniffP_goes hb (by rw [ha, sniff_head h1]; exact h2)) ?_
      intro s1 a1 v1 u1 b1
      rw [if_pos rfl]
      exact ⟨s1, rfl, by rw [a1, ha], by rw [v1, hv], List.suffix_refl _, by omega⟩
    | @ctr bin' c t r h1 h2 h3 h4 _ =>
      subst h2
      rw [List.append_assoc] at ha ⊢
      refine Goes.bind (sniffP_goes hb (by rw [ha]; exact h1.facts.2.2.2.2.1 _)) ?_
      intro s1 a1 v1 u1 b1
      rw [if_neg (coldOf_ne bin')]
      refine Goes.bind (peek_goes h1 framed (v1.trans hv) (a1.trans ha) ((allLt_append _ _ _).2 ⟨h3, hr⟩) (fun h => fut_nil u1 (hf h))) ?_
      intro s2 a2 v2 u2 b2
      rw [if_neg h4]
      have := List.length_pos_iff.2 h1.facts.2.2.2.1
      exact ⟨s2, rfl, a2, v2, List.suffix_refl _, by omega⟩
  | @change c t _ h1 h2 h3 =>
    have hf0 : s.fut = [] := by
      rcases hp with h | h
      · exact absurd h h1.facts.2.2.2.1
      · exact h
    refine Goes.bind (sniffP_goes hb (by rw [ha]; exact h1.facts.2.2.2.2.1 _)) ?_
    intro s1 a1 v1 u1 b1
    rw [if_neg (coldOf_ne bin)]
    refine Goes.bind (peek_goes h1 framed (v1.trans hv) (a1.trans ha) ((allLt_append _ _ _).2 ⟨hl, hr⟩) (fun h => fut_nil u1 (hf h))) ?_
    intro s2 a2 v2 u2 b2
    rw [if_pos h2]
    refine Goes.bind (delCtr_goes h1 v2 a2 b2) ?_
    intro s3 a3 v3 u3 b3
    refine ⟨{ s3 with ver := v }, setVer_ok h3, a3, rfl, List.suffix_refl _, ?_⟩
    have hf3 : s3.fut = [] := fut_nil (u3.trans (u2.trans u1)) hf0
    have : s3.buf = enc ++ rest := by rw [← all_nil hf3]; exact a3
    have := List.length_pos_iff.2 hh.ne
    simp [*]
    omega

/-- A message, and the conditions on what comes after it: none if it tells where it ends, otherwise all must be there and end there. -/
inductive Message {β : Type} (L : Loader β) (sub : Bool → P (Exts β)) (v : Ver) : Bool → Bytes → Exts β → Prop where
  | grouped {bin : Bool} {b g : Bytes} {x : β} {as : List (Slot × Elem)} {ns : List (Exts β)} : GoodBody L v b x →
      (∀ framed, AttGroup v bin (sub framed) g as ns) → Message L sub v true (b ++ g) (.mk x as ns)
  | bodyWith {bin : Bool} {enc : Bytes} {e : Exts β} : BodyWith L v bin (sub true) enc e → Message L sub v true enc e
  | native {bin bin2 : Bool} {c : Counter} {t b g : Bytes} {x : β} {as : List (Slot × Elem)} {ns : List (Exts β)} : v = .v2 → Front v bin c t →
      letter c.code 'F' = true → ctrCount (coldOf bin) c = b.length → AllLt 256 b → L.native v (toText (coldOf bin) (t ++ b)) = .ok x →
      (∀ framed, AttGroup v bin2 (sub framed) g as ns) → Message L sub v true ((t ++ b) ++ g) (.mk x as ns)
  | flat {bin : Bool} {b g : Bytes} {x : β} {as : List (Slot × Elem)} : GoodBody L v b x → (∀ framed, Items v bin (sub framed) g as []) → g ≠ [] →
      Message L sub v false (b ++ g) (.mk x as [])
  | ctrGrouped {bin bin2 : Bool} {c : Counter} {b g : Bytes} {x : β} {as : List (Slot × Elem)} {ns : List (Exts β)} : CtrBody L v bin c b x →
      (∀ framed, AttGroup v bin2 (sub framed) g as ns) → Message L sub v false (b ++ g) (.mk x as ns)
  | ctrFlat {bin bin2 : Bool} {c : Counter} {b g : Bytes} {x : β} {as : List (Slot × Elem)} : CtrBody L v bin c b x →
      (∀ framed, Items v bin2 (sub framed) g as []) → g ≠ [] → Message L sub v false (b ++ g) (.mk x as [])

theorem Message.head {β : Type} {L : Loader β} {sub : Bool → P (Exts β)} {v : Ver} {self : Bool} {enc : Bytes} {e : Exts β}
    (h : Message L sub v self enc e) : Head v enc ∧ AllLt 256 enc := by
  have ctr : ∀ {bin : Bool} {c : Counter} {b g : Bytes} {x : β}, CtrBody L v bin c b x → AllLt 256 g → Head v (b ++ g) ∧ AllLt 256 (b ++ g) := by
    intro bin c b g x h hg
    obtain ⟨t, r, f1, f2, f3, f4, f5, f6⟩ := h.front
    have := (allLt_append 256 r g).2 ⟨f3, hg⟩
    refine ⟨.ctr f1 (by rw [f2, List.append_assoc]) this f4 f5, ?_⟩
    rw [f2, List.append_assoc]
    exact (allLt_append _ _ _).2 ⟨f1.facts.2.2.1.lt, this⟩
  cases h with
  | grouped h1 h2 => exact ⟨.msg (by simp [h1.ne]) (by rw [sniff_head h1.ne]; exact h1.msg), (allLt_append _ _ _).2 ⟨h1.lt, (h2 true).lt⟩⟩
  | flat h1 h2 h3 => exact ⟨.msg (by simp [h1.ne]) (by rw [sniff_head h1.ne]; exact h1.msg), (allLt_append _ _ _).2 ⟨h1.lt, (h2 true).front.1.lt⟩⟩
  | bodyWith h1 =>
    obtain ⟨c, t, w, pre, cb, body, bin2, att, f1, f2, f3, f4, f5, f6, rfl⟩ := h1.parts
    obtain ⟨t', r, k1, k2, k3, _⟩ := f4.front
    have : AllLt 256 (pre ++ (body ++ att)) := by
      rw [k2]
      exact (allLt_append _ _ _).2 ⟨f3.lt, (allLt_append _ _ _).2 ⟨(allLt_append _ _ _).2 ⟨k1.facts.2.2.1.lt, k3⟩, f5.lt⟩⟩
    refine ⟨.ctr f1 rfl this ?_ ?_, (allLt_append _ _ _).2 ⟨f1.facts.2.2.1.lt, this⟩⟩
    · intro h0
      rw [h0] at f2
      exact absurd f2 (by cases v <;> decide)
    · unfold isBodyWith at f2; unfold isGeneric
      exact letter_ne f2 (by cases v <;> decide)
  | native h1 h2 h3 h4 h5 h6 h7 => exact ctr (.native h1 h2 h3 h4 h5 h6) (h7 true).lt
  | ctrGrouped h1 h2 => exact ctr h1 (h2 true).lt
  | ctrFlat h1 h2 h3 => exact ctr h1 (h2 true).front.1.lt

theorem eq_of_goes {α : Type} {m : P α} {s : St} {a : α} {r : Bytes} {v : Ver} {k : Nat} (h : Goes m s a r v k) (h0 : s.fut = []) :
    m s = .ok a ⟨r, [], v⟩ := by
  obtain ⟨s', h1, h2, h3, h4, _⟩ := h
  have hf := fut_nil h4 h0
  rw [all_nil hf] at h2
  obtain ⟨b, f, w⟩ := s'
  simp only at h2 h3 hf
  subst h2 h3 hf
  exact h1

theorem goes_of_eq {α : Type} {m : P α} {s : St} {a : α} {r : Bytes} {v : Ver} (h0 : s.fut = []) (h : m s = .ok a ⟨r, [], v⟩) : Goes m s a r v 0 :=
  ⟨_, h, by simp [St.all], rfl, by rw [h0]; exact List.suffix_refl _, Nat.zero_le _⟩

theorem st_eq {s : St} {b : Bytes} {v : Ver} (h0 : s.fut = []) (ha : s.all = b) (hv : s.ver = v) : s = ⟨b, [], v⟩ := by
  obtain ⟨x, f, w⟩ := s
  simp only at h0 hv
  subst h0 hv
  simp only [St.all, List.flatten_nil, List.append_nil] at ha
  rw [ha]

/-- A native body is taken, however it arrives. -/
theorem native_goes {β : Type} {L : Loader β} {bin framed : Bool} {c : Counter} {t b rest : Bytes} {x : β} {s : St} (h2 : Front .v2 bin c t)
    (h3 : letter c.code 'F' = true) (h4 : ctrCount (coldOf bin) c = b.length) (h6 : L.native .v2 (toText (coldOf bin) (t ++ b)) = .ok x)
    (hv : s.ver = .v2) (ha : s.all = t ++ b ++ rest) (hf : framed = true → s.fut = []) : Goes (bodyOf L c (coldOf bin) framed) s x rest .v2 0 := by
  unfold bodyOf
  have hgv : Goes getVer s .v2 s.all s.ver s.buf.length := by rw [← hv]; exact ⟨s, rfl, rfl, rfl, List.suffix_refl _, Nat.le_refl _⟩
  refine Goes.bind hgv ?_
  intro s1 a1 v1 u1 b1
  rw [if_neg (by have := letter_ne h3 (show 'F' ≠ 'H' by decide); simp [isNonNative, this]), if_neg (by simp), if_pos h3]
  have hn : ctrSize .v2 (coldOf bin) c + ctrCount (coldOf bin) c = (t ++ b).length := by rw [h2.facts.2.1, h4, List.length_append]
  simp only [hn]
  refine Goes.bind (fill_goes (fun h => fut_nil u1 (hf h)) (by rw [a1, ha]; simp)) ?_
  intro s2 a2 v2 u2 b2
  refine Goes.bind (takeBuf_goes (a2.trans (a1.trans ha)) b2) ?_
  intro s3 a3 v3 u3 b3
  exact ⟨s3, by simp only [lift, h6], a3, by rw [v3, v2, v1, hv], List.suffix_refl _, Nat.zero_le _⟩

/-- The rest of `msgParsator` after the version. -/
theorem rest_goes {β : Type} {L : Loader β} {d : Nat} {v : Ver} {self framed : Bool} {enc rest : Bytes} {e : Exts β} {s : St}
    (h : Message L (msg L d) v self enc e) (hr : AllLt 256 rest) (hv : s.ver = v) (ha : s.all = enc ++ rest) (hb : 1 ≤ s.buf.length)
    (hf : framed = true → s.fut = []) (hs : self = false → s.fut = [] ∧ Stop v rest) :
    Goes (do
      let cold ← sniffP
      if cold = .msg then do
        let b ← extractor (reap L) framed
        let a ← attsOf (msg L d framed) framed false
        pure (.mk b a.atts a.nests)
      else do
        let c ← peek cold framed
        let v ← getVer
        if isBodyWith v c.code then do
          delCtr cold c
          fill (ctrCount cold c) framed
          let b ← takeBuf (ctrCount cold c)
          onCopy b (inBodyWith L (msg L d true) cold)
        else do
          let b ← bodyOf L c cold framed
          let a ← attsOf (msg L d framed) framed false
          pure (.mk b a.atts a.nests)) s e rest v 0 := by
  have ctr : ∀ {bin : Bool} {c : Counter} {b g : Bytes} {x : β} {as : List (Slot × Elem)} {ns : List (Exts β)}, CtrBody L v bin c b x → AllLt 256 g →
      (∀ s', s'.fut <:+ s.fut → s'.all = b ++ (g ++ rest) → s'.ver = v → Goes (bodyOf L c (coldOf bin) framed) s' x (g ++ rest) v 0) →
      s.all = b ++ (g ++ rest) → (∀ s', s'.fut <:+ s.fut → s'.all = g ++ rest → s'.ver = v → Goes (attsOf (msg L d framed) framed false) s' ⟨as, ns⟩ rest v 0) →
      Goes (do
        let cold ← sniffP
        if cold = .msg then do
          let b ← extractor (reap L) framed
          let a ← attsOf (msg L d framed) framed false
          pure (.mk b a.atts a.nests)
        else do
          let c ← peek cold framed
          let v ← getVer
          if isBodyWith v c.code then do
            delCtr cold c
            fill (ctrCount cold c) framed
            let b ← takeBuf (ctrCount cold c)
            onCopy b (inBodyWith L (msg L d true) cold)
          else do
            let b ← bodyOf L c cold framed
            let a ← attsOf (msg L d framed) framed false
            pure (.mk b a.atts a.nests)) s (.mk x as ns) rest v 0 := by
    intro bin c b g x as ns hbody hg hbo ha hatt
    obtain ⟨t, r, f1, f2, f3, f4, f5, f6⟩ := hbody.front
    have hgr : AllLt 256 (g ++ rest) := (allLt_append _ _ _).2 ⟨hg, hr⟩
    have ha' : s.all = t ++ (r ++ (g ++ rest)) := by rw [ha, f2, List.append_assoc]
    refine Goes.bind (sniffP_goes hb (by rw [ha']; exact f1.facts.2.2.2.2.1 _)) ?_
    intro s1 a1 v1 u1 b1
    rw [if_neg (coldOf_ne bin)]
    refine Goes.bind (peek_goes f1 framed (v1.trans hv) (a1.trans ha') ((allLt_append _ _ _).2 ⟨f3, hgr⟩) (fun h => fut_nil u1 (hf h))) ?_
    intro s2 a2 v2 u2 b2
    have hgv : Goes getVer s2 v s2.all s2.ver s2.buf.length := by rw [← v2]; exact ⟨s2, rfl, rfl, rfl, List.suffix_refl _, Nat.le_refl _⟩
    refine Goes.bind hgv ?_
    intro s3 a3 v3 u3 b3
    rw [if_neg (by rw [f6]; simp)]
    have u3' := u3.trans (u2.trans u1)
    refine Goes.bind (hbo s3 u3' (by rw [a3, a2, f2, List.append_assoc]) (v3.trans v2)) ?_
    intro s4 a4 v4 u4 b4
    refine Goes.bind (hatt s4 (u4.trans u3') a4 v4) ?_
    intro s5 a5 v5 u5 b5
    exact ⟨s5, rfl, a5, v5, List.suffix_refl _, Nat.zero_le _⟩
  have allBody : ∀ {bin : Bool} {c : Counter} {b g : Bytes} {x : β}, CtrBody L v bin c b x → AllLt 256 g → s.fut = [] → ∀ s', s'.fut <:+ s.fut →
      s'.all = b ++ (g ++ rest) → s'.ver = v → Goes (bodyOf L c (coldOf bin) framed) s' x (g ++ rest) v 0 := by
    intro bin c b g x hbody hg hf0 s' u a v'
    have hf3 := fut_nil u hf0
    refine goes_of_eq hf3 ?_
    rw [st_eq hf3 a v']
    exact bodyOf_ok hbody ((allLt_append _ _ _).2 ⟨hg, hr⟩) framed
  have flat : ∀ {bin : Bool} {g : Bytes} {as : List (Slot × Elem)} {s' : St}, Items v bin (msg L d framed) g as [] → g ≠ [] → Stop v rest → s'.fut = [] →
      s'.all = g ++ rest → s'.ver = v → Goes (attsOf (msg L d framed) framed false) s' ⟨as, []⟩ rest v 0 := by
    intro bin g as s' h1 h2 h3 h4 h5 h6
    refine goes_of_eq h4 ?_
    rw [st_eq h4 h5 h6]
    exact attsOf_flat h1 h2 hr (by simp) (fun _ => h3) (fun _ => rfl)
  have plain : ∀ {b g : Bytes} {x : β} {as : List (Slot × Elem)} {ns : List (Exts β)}, GoodBody L v b x → AllLt 256 g →
      s.all = b ++ (g ++ rest) → (∀ s', s'.fut <:+ s.fut → s'.all = g ++ rest → s'.ver = v → Goes (attsOf (msg L d framed) framed false) s' ⟨as, ns⟩ rest v 0) →
      Goes (do
        let cold ← sniffP
        if cold = .msg then do
          let b ← extractor (reap L) framed
          let a ← attsOf (msg L d framed) framed false
          pure (.mk b a.atts a.nests)
        else do
          let c ← peek cold framed
          let v ← getVer
          if isBodyWith v c.code then do
            delCtr cold c
            fill (ctrCount cold c) framed
            let b ← takeBuf (ctrCount cold c)
            onCopy b (inBodyWith L (msg L d true) cold)
          else do
            let b ← bodyOf L c cold framed
            let a ← attsOf (msg L d framed) framed false
            pure (.mk b a.atts a.nests)) s (.mk x as ns) rest v 0 := by
    intro b g x as ns hbody hg ha hatt
    refine Goes.bind (sniffP_goes hb (by rw [ha, sniff_head hbody.ne]; exact hbody.msg)) ?_
    intro s1 a1 v1 u1 b1
    rw [if_pos rfl]
    refine Goes.bind (reap_goes hbody framed (v1.trans hv) (a1.trans ha) ((allLt_append _ _ _).2 ⟨hg, hr⟩) (fun h => fut_nil u1 (hf h))) ?_
    intro s2 a2 v2 u2 b2
    refine Goes.bind (hatt s2 (u2.trans u1) a2 v2) ?_
    intro s5 a5 v5 u5 b5
    exact ⟨s5, rfl, a5, v5, List.suffix_refl _, Nat.zero_le _⟩
  cases h with
  | grouped h1 h2 =>
    refine plain h1 (h2 true).lt (by rw [ha, List.append_assoc]) ?_
    intro s' u a v'
    exact attsOf_group (h2 framed) v' a hr (fun h => fut_nil u (hf h))
  | flat h1 h2 h3 =>
    obtain ⟨hf0, hst⟩ := hs rfl
    refine plain h1 (h2 true).front.1.lt (by rw [ha, List.append_assoc]) ?_
    intro s' u a v'
    exact flat (h2 framed) h3 hst (fut_nil u hf0) a v'
  | ctrGrouped h1 h2 =>
    obtain ⟨hf0, hst⟩ := hs rfl
    refine ctr h1 (h2 true).lt (allBody h1 (h2 true).lt hf0) (by rw [ha, List.append_assoc]) ?_
    intro s' u a v'
    exact attsOf_group (h2 framed) v' a hr (fun _ => fut_nil u hf0)
  | @native bin bin2 c t b g x as ns h1 h2 h3 h4 h5 h6 h7 =>
    subst h1
    refine ctr (.native rfl h2 h3 h4 h5 h6) (h7 true).lt ?_ (by rw [ha, List.append_assoc]) ?_
    · intro s' u a v'
      exact native_goes h2 h3 h4 h6 v' a (fun h => fut_nil u (hf h))
    · intro s' u a v'
      exact attsOf_group (h7 framed) v' a hr (fun h => fut_nil u (hf h))
  | ctrFlat h1 h2 h3 =>
    obtain ⟨hf0, hst⟩ := hs rfl
    refine ctr h1 (h2 true).front.1.lt (allBody h1 (h2 true).front.1.lt hf0) (by rw [ha, List.append_assoc]) ?_
    intro s' u a v'
    exact flat (h2 framed) h3 hst (fut_nil u hf0) a v'
  | @bodyWith bin _ _ h1 =>
    obtain ⟨c, t, w, pre, cb, body, bin2, att, f1, f2, f3, f4, f5, f6, rfl⟩ := h1.parts
    obtain ⟨t', r, k1, k2, k3, _⟩ := f4.front
    have hcont : AllLt 256 (pre ++ (body ++ att)) := by
      rw [k2]
      exact (allLt_append _ _ _).2 ⟨f3.lt, (allLt_append _ _ _).2 ⟨(allLt_append _ _ _).2 ⟨k1.facts.2.2.1.lt, k3⟩, f5.lt⟩⟩
    have hcr : AllLt 256 (pre ++ (body ++ att) ++ rest) := (allLt_append _ _ _).2 ⟨hcont, hr⟩
    have ha' : s.all = t ++ (pre ++ (body ++ att) ++ rest) := by rw [ha, List.append_assoc]
    refine Goes.bind (sniffP_goes hb (by rw [ha']; exact f1.facts.2.2.2.2.1 _)) ?_
    intro s1 a1 v1 u1 b1
    rw [if_neg (coldOf_ne bin)]
    have hf1 : framed = true → s1.fut = [] := fun h => fut_nil u1 (hf h)
    refine Goes.bind (peek_goes f1 framed (v1.trans hv) (a1.trans ha') hcr hf1) ?_
    intro s2 a2 v2 u2 b2
    have hgv : Goes getVer s2 v s2.all s2.ver s2.buf.length := by rw [← v2]; exact ⟨s2, rfl, rfl, rfl, List.suffix_refl _, Nat.le_refl _⟩
    refine Goes.bind hgv ?_
    intro s3 a3 v3 u3 b3
    rw [if_pos f2]
    refine Goes.bind (delCtr_goes f1 (v3.trans v2) (a3.trans a2) (by omega)) ?_
    intro s5 a5 v5 u5 b5
    have hf5 : framed = true → s5.fut = [] := fun h => fut_nil (u5.trans (u3.trans u2)) (hf1 h)
    rw [f6]
    refine Goes.bind (fill_goes hf5 (by rw [a5]; simp)) ?_
    intro s6 a6 v6 u6 b6
    refine Goes.bind (takeBuf_goes (a6.trans a5) b6) ?_
    intro s7 a7 v7 u7 b7
    have ev7 : s7.ver = v := by rw [v7, v6, v5]
    have hc := inBodyWith_ok f3 f4 f5
    have := onCopy_goes (s := s7) (b := pre ++ (body ++ att)) (act := inBodyWith L (msg L d true) (coldOf bin)) (by rw [ev7]; exact hc)
    rw [a7] at this
    cases e
    exact this

/-- A message is extracted, from its bytes, however they arrive. -/
theorem msg_goes {β : Type} {L : Loader β} {d : Nat} {u v : Ver} {bin self framed : Bool} {pre enc rest : Bytes} {e : Exts β} {s : St}
    (hg : Genus u bin pre v) (h : Message L (msg L d) v self enc e) (hr : AllLt 256 rest) (hv : s.ver = u) (ha : s.all = pre ++ (enc ++ rest))
    (hf : framed = true → s.fut = []) (hs : self = false → s.fut = [] ∧ Stop v rest) (hp : pre = [] ∨ s.fut = []) :
    Goes (msg L (d + 1) framed) s e rest v 0 := by
  obtain ⟨hh, hl⟩ := h.head
  have := List.length_pos_iff.2 hh.ne
  unfold msg
  refine Goes.bind (fill_goes hf (by rw [ha]; simp only [List.length_append]; omega)) ?_
  intro s1 a1 v1 u1 b1
  refine Goes.bind (front_goes hg hh hr hl (v1.trans hv) (a1.trans ha) b1 (fun h => fut_nil u1 (hf h)) ?_) ?_
  · rcases hp with h | h
    · exact Or.inl h
    · exact Or.inr (fut_nil u1 h)
  intro s2 a2 v2 u2 b2
  exact rest_goes h hr v2 a2 b2 (fun h => fut_nil (u2.trans u1) (hf h)) (fun h => ⟨fut_nil (u2.trans u1) (hs h).1, (hs h).2⟩)

end Verif.Prs
