import Verif.Prs.Top

/-!
# Streams of messages
-/

namespace Verif.Prs

open Verif.Matter (Mat)
open Verif.Idr (Ixr)
open Verif.Ctr (Ver Counter)
open Verif.B64

/-- A version at the front, if there is one, is taken; bytes after it may not have arrived. -/
theorem front_change {u v : Ver} {bin framed : Bool} {c : Counter} {pre enc : Bytes} {s : St} (h1 : Front u bin c pre) (h2 : c.code = gvcCode)
    (h3 : announces c = .ok v) (hl : AllLt 256 enc) (hv : s.ver = u) (ha : s.all = pre ++ enc) (hb : 1 ≤ s.buf.length) (hf : framed = true → s.fut = []) :
    Goes (frontVersion framed) s () enc v 0 := by
  unfold frontVersion
  refine Goes.bind (sniffP_goes hb (by rw [ha]; exact h1.facts.2.2.2.2.1 _)) ?_
  intro s1 a1 v1 u1 b1
  rw [if_neg (coldOf_ne bin)]
  refine Goes.bind (peek_goes h1 framed (v1.trans hv) (a1.trans ha) hl (fun h => fut_nil u1 (hf h))) ?_
  intro s2 a2 v2 u2 b2
  rw [if_pos h2]
  refine Goes.bind (delCtr_goes h1 v2 a2 b2) ?_
  intro s3 a3 v3 u3 b3
  exact ⟨{ s3 with ver := v }, setVer_ok h3, a3, rfl, List.suffix_refl _, Nat.zero_le _⟩

/-- Either the message is extracted, or only the version at its front, because nothing more is there. -/
theorem msg_step {β : Type} {L : Loader β} {d : Nat} {u v : Ver} {bin self framed : Bool} {pre enc rest : Bytes} {e : Exts β} {s : St}
    (hg : Genus u bin pre v) (h : Message L (msg L d) v self enc e) (hr : AllLt 256 rest) (hv : s.ver = u) (ha : s.all = pre ++ (enc ++ rest))
    (hf : framed = true → s.fut = []) (hs : self = false → s.fut = [] ∧ Stop v rest) :
    Goes (msg L (d + 1) framed) s e rest v 0 ∨
      ∃ s', msg L (d + 1) framed s = .err .shortage s' ∧ s'.buf = [] ∧ s'.all = enc ++ rest ∧ s'.ver = v ∧ s'.fut <:+ s.fut := by
  cases hg with
  | same => exact Or.inl (msg_goes (bin := bin) .same h hr hv ha hf hs (Or.inl rfl))
  | @change c _ _ h1 h2 h3 =>
    obtain ⟨hh, hl⟩ := h.head
    have hlen := List.length_pos_iff.2 hh.ne
    have hlr : AllLt 256 (enc ++ rest) := (allLt_append _ _ _).2 ⟨hl, hr⟩
    obtain ⟨s1, e1, a1, v1, u1, b1⟩ := fill_goes (s := s) (n := 1) hf (by rw [ha]; simp only [List.length_append]; omega)
    obtain ⟨s2, e2, a2, v2, u2, b2⟩ := front_change (framed := framed) h1 h2 h3 hlr (v1.trans hv) (a1.trans ha) b1 (fun h => fut_nil u1 (hf h))
    by_cases h0 : s2.buf = []
    · right
      refine ⟨s2, ?_, h0, a2, v2, u2.trans u1⟩
      unfold msg
      rw [bind_ok e1, bind_ok e2]
      have : sniffP s2 = .err .shortage s2 := by simp [sniffP, h0, sniff]
      rw [bind_err this]
    · left
      have hb2 : 1 ≤ s2.buf.length := List.length_pos_iff.2 h0
      obtain ⟨s3, e3, a3, v3, u3, b3⟩ := rest_goes (framed := framed) h hr v2 a2 hb2 (fun h => fut_nil (u2.trans u1) (hf h))
        (fun h => ⟨fut_nil (u2.trans u1) (hs h).1, (hs h).2⟩)
      refine ⟨s3, ?_, a3, v3, u3.trans (u2.trans u1), b3⟩
      unfold msg
      rw [bind_ok e1, bind_ok e2]
      exact e3

/-! ## A message that has not arrived completely -/

theorem waitGo_waits (n : Nat) (v : Ver) : ∀ (fut : List Bytes) (buf : Bytes), (buf ++ fut.flatten).length < n → waitGo n v fut buf = .wait
  | fut, buf, h => by
    have : ¬n ≤ buf.length := by simp at h; omega
    rw [waitGo.eq_def]
    simp only
    rw [if_neg this]
    cases fut with
    | nil => rfl
    | cons p fut => exact waitGo_waits n v fut (buf ++ p) (by simpa using h)

theorem fill_waits {s : St} {n : Nat} (h : s.all.length < n) : fill n false s = .wait := waitGo_waits n s.ver s.fut s.buf h

theorem extractGo_waits {α : Type} {rd : Bytes → Got α} {t : Bytes} (hpre : ∀ k < t.length, rd (t.take k) = ⟨.error .shortage, 0⟩) (v : Ver) :
    ∀ (fut : List Bytes) (buf : Bytes), buf ++ fut.flatten <+: t → buf ++ fut.flatten ≠ t → extractGo rd false v fut buf = .wait
  | fut, buf, h, hne => by
    obtain ⟨z, hz⟩ := h
    have hlt : buf.length < t.length := by
      have h1 := congrArg List.length hz
      have h2 : z ≠ [] := by intro h0; rw [h0, List.append_nil] at hz; exact hne hz
      have := List.length_pos_iff.2 h2
      simp only [List.length_append] at h1
      omega
    have hb : buf = t.take buf.length := by rw [← hz, List.append_assoc, List.take_left]
    have hrd : rd buf = ⟨.error .shortage, 0⟩ := by rw [hb]; exact hpre _ hlt
    rw [extractGo.eq_def]
    simp only [hrd, and_self, if_true, List.drop_zero]
    cases fut with
    | nil => rfl
    | cons p fut => exact extractGo_waits hpre v fut (buf ++ p) ⟨z, by simpa using hz⟩ (by simpa using hne)

theorem peek_waits {v : Ver} {bin : Bool} {c : Counter} {t : Bytes} {s : St} (h : Front v bin c t) (hv : s.ver = v) (hp : s.all <+: t) (hne : s.all ≠ t) :
    peek (coldOf bin) false s = .wait := by
  show extractGo (peekCtr s.ver (coldOf bin)) false s.ver s.fut s.buf = _
  rw [hv]
  exact extractGo_waits h.facts.2.2.2.2.2 v s.fut s.buf hp hne

theorem reap_pre {β : Type} {L : Loader β} {v : Ver} {b : Bytes} {x : β} (h : GoodBody L v b x) :
    ∀ k < b.length, reap L v (b.take k) = ⟨.error .shortage, 0⟩ := by
  obtain ⟨m, m1, m2, m3, m4⟩ := h.smells
  intro k hk
  by_cases h27 : k < 27
  · have : smell (b.take k) = .error .shortage := smell_short (by rw [List.length_take]; omega)
    simp only [reap, this]
  · have hsm : smell (b.take k) = .ok m := by
      have := smell_append (b.take k) (b.drop k) (by rw [List.length_take]; omega)
      rw [List.take_append_drop] at this
      rw [← this]; exact m1
    simp only [reap, hsm, m3]
    rw [if_pos (by rw [List.length_take]; omega)]

theorem reap_waits {β : Type} {L : Loader β} {v : Ver} {b : Bytes} {x : β} {s : St} (h : GoodBody L v b x) (hv : s.ver = v) (hp : s.all <+: b)
    (hne : s.all ≠ b) : extractor (reap L) false s = .wait := by
  show extractGo (reap L s.ver) false s.ver s.fut s.buf = _
  rw [hv]
  exact extractGo_waits (reap_pre h) v s.fut s.buf hp hne

/-- A proper prefix of two pieces ends inside of the first or inside of the second. -/
theorem prefix_split {p a b : Bytes} (h : p <+: a ++ b) (hne : p ≠ a ++ b) : (p <+: a ∧ p ≠ a) ∨ ∃ q, p = a ++ q ∧ q <+: b ∧ q ≠ b := by
  obtain ⟨z, hz⟩ := h
  by_cases hk : a.length ≤ p.length
  · right
    obtain ⟨r, h1, h2⟩ := split_prefix (buf := p) (tl := z) (t := a) (rest := b) hz hk
    refine ⟨r, h1, ⟨z, h2.symm⟩, ?_⟩
    intro h0; apply hne; rw [h1, h0]
  · left
    have := take_prefix (buf := p) (tl := z) (t := a) (rest := b) hz (by omega)
    refine ⟨⟨a.drop p.length, ?_⟩, ?_⟩
    · conv => lhs; lhs; rw [this]
      rw [List.take_append_drop]
    · intro h0; rw [h0] at hk; omega

theorem allLt_prefix {p a : Bytes} (h : AllLt 256 a) (hp : p <+: a) : AllLt 256 p := by
  obtain ⟨z, rfl⟩ := hp
  exact ((allLt_append _ _ _).1 h).1

theorem prefix_short {p a : Bytes} (hp : p <+: a) (hne : p ≠ a) : p.length < a.length := by
  obtain ⟨z, hz⟩ := hp
  have h2 : z ≠ [] := by intro h0; rw [h0, List.append_nil] at hz; exact hne hz
  have := List.length_pos_iff.2 h2
  rw [← hz, List.length_append]
  omega

theorem attsOf_waits {β : Type} {v : Ver} {bin : Bool} {sub sub' : P (Exts β)} {enc : Bytes} {as : List (Slot × Elem)} {ns : List (Exts β)} {s : St}
    (h : AttGroup v bin sub' enc as ns) (hv : s.ver = v) (hp : s.all <+: enc) (hne : s.all ≠ enc) : attsOf sub false false s = .wait := by
  obtain ⟨c, t, w, pre, items, f1, f2, f3, f4, f5, f6, rfl⟩ := h.parts
  have hcont : AllLt 256 (pre ++ items) := (allLt_append _ _ _).2 ⟨f3.lt, f4.front.1.lt⟩
  have hw : ∀ {α : Type} {m : P α}, m s = .wait → sizedWhen false m s = .wait := fun h => by simp [sizedWhen, h]
  refine hw ?_
  by_cases h0 : s.all = []
  · rw [bind_wait (fill_waits (by rw [h0]; simp))]
  obtain ⟨s1, e1, a1, v1, u1, b1⟩ := fill_goes (s := s) (n := 1) (framed := false) (by simp) (List.length_pos_iff.2 h0)
  rw [bind_ok e1]
  have hsn : sniff s1.all = .ok (coldOf bin) := by
    obtain ⟨z, hz⟩ := hp
    have h1 := f1.facts.2.2.2.2.1 (pre ++ items)
    rw [← hz, sniff_head h0] at h1
    rw [a1]; exact h1
  obtain ⟨s2, e2, a2, v2, u2, b2⟩ := sniffP_goes b1 hsn
  rw [bind_ok e2, if_neg (coldOf_ne bin)]
  rcases prefix_split hp hne with ⟨p1, p2⟩ | ⟨q, q1, q2, q3⟩
  · rw [bind_wait (peek_waits f1 (by rw [v2, v1, hv]) (by rw [a2, a1]; exact p1) (by rw [a2, a1]; exact p2))]
  · obtain ⟨s3, e3, a3, v3, u3, b3⟩ := peek_goes (s := s2) (rest := q) f1 false (by rw [v2, v1, hv]) (by rw [a2, a1, q1]) (allLt_prefix hcont q2) (by simp)
    rw [bind_ok e3]
    have hgv : getVer s3 = .ok v s3 := by rw [← v3]; rfl
    rw [bind_ok hgv, if_pos f2]
    obtain ⟨s4, e4, a4, v4, u4, b4⟩ := delCtr_goes f1 v3 a3 b3
    rw [bind_ok e4, bind_wait (fill_waits (by rw [a4, f6]; exact prefix_short q2 q3))]

theorem head_prefix {v : Ver} {enc : Bytes} {s : St} (hh : Head v enc) (hp : s.all <+: enc) (h0 : s.all ≠ []) : sniff s.all = sniff enc := by
  obtain ⟨z, hz⟩ := hp
  rw [← hz, sniff_head h0]

/-- At the front of a message without a version, of which a part is there. -/
theorem front_part {v : Ver} {enc : Bytes} {s : St} (hh : Head v enc) (hv : s.ver = v) (hp : s.all <+: enc) (hb : 1 ≤ s.buf.length) :
    frontVersion false s = .wait ∨ Goes (frontVersion false) s () s.all v 1 := by
  have h0 : s.all ≠ [] := by
    intro h; rw [St.all] at h; rw [(List.append_eq_nil_iff.1 h).1] at hb; simp at hb
  have hsn := head_prefix hh hp h0
  unfold frontVersion
  cases hh with
  | msg h1 h2 =>
    right
    refine Goes.bind (sniffP_goes hb (hsn.trans h2)) ?_
    intro s1 a1 v1 u1 b1
    rw [if_pos rfl]
    exact ⟨s1, rfl, a1, by rw [v1, hv], List.suffix_refl _, by omega⟩
  | @ctr bin c t r h1 h2 h3 h4 _ =>
    have hsn' : sniff s.all = .ok (coldOf bin) := by rw [hsn, h2]; exact h1.facts.2.2.2.2.1 _
    obtain ⟨s2, e2, a2, v2, u2, b2⟩ := sniffP_goes hb hsn'
    by_cases hne : s.all = enc
    · right
      refine Goes.bind (sniffP_goes hb hsn') ?_
      intro s1 a1 v1 u1 b1
      rw [if_neg (coldOf_ne bin)]
      refine Goes.bind (peek_goes h1 false (v1.trans hv) (by rw [a1, hne, h2]) h3 (by simp)) ?_
      intro s2 a2 v2 u2 b2
      rw [if_neg h4]
      have := List.length_pos_iff.2 h1.facts.2.2.2.1
      exact ⟨s2, rfl, by rw [a2, hne, h2], v2, List.suffix_refl _, by omega⟩
    rw [h2] at hp hne
    rcases prefix_split hp hne with ⟨p1, p2⟩ | ⟨q, q1, q2, q3⟩
    · left
      rw [bind_ok e2, if_neg (coldOf_ne bin), bind_wait (peek_waits h1 (by rw [v2, hv]) (by rw [a2]; exact p1) (by rw [a2]; exact p2))]
    · right
      refine Goes.bind (sniffP_goes hb hsn') ?_
      intro s1 a1 v1 u1 b1
      rw [if_neg (coldOf_ne bin)]
      refine Goes.bind (peek_goes h1 false (v1.trans hv) (by rw [a1, q1]) (allLt_prefix h3 q2) (by simp)) ?_
      intro s2 a2 v2 u2 b2
      rw [if_neg h4]
      have := List.length_pos_iff.2 h1.facts.2.2.2.1
      exact ⟨s2, rfl, by rw [a2, q1], v2, List.suffix_refl _, by omega⟩

/-- After the version. -/
theorem rest_waits {β : Type} {L : Loader β} {d d' : Nat} {v : Ver} {enc : Bytes} {e : Exts β} {s : St} (h : Message L (msg L d') v true enc e)
    (hv : s.ver = v) (hp : s.all <+: enc) (hne : s.all ≠ enc) (hb : 1 ≤ s.buf.length) :
    ((do
      let cold ← sniffP
      if cold = Cold.msg then do
        let b ← extractor (reap L) false
        let a ← attsOf (msg L d false) false false
        pure (Exts.mk b a.atts a.nests)
      else do
        let c ← peek cold false
        let v ← getVer
        if isBodyWith v c.code then do
          delCtr cold c
          fill (ctrCount cold c) false
          let b ← takeBuf (ctrCount cold c)
          onCopy b (inBodyWith L (msg L d true) cold)
        else do
          let b ← bodyOf L c cold false
          let a ← attsOf (msg L d false) false false
          pure (.mk b a.atts a.nests) : P (Exts β)) s) = .wait := by
  have h0 : s.all ≠ [] := by
    intro h; rw [St.all] at h; rw [(List.append_eq_nil_iff.1 h).1] at hb; simp at hb
  obtain ⟨z, hz⟩ := hp
  cases h with
  | @grouped bin b g x as ns h1 h2 =>
    have hsn : sniff s.all = .ok .msg := by
      rw [← sniff_head (b := z) h0, hz, sniff_head h1.ne]; exact h1.msg
    obtain ⟨s2, e2, a2, v2, u2, b2⟩ := sniffP_goes hb hsn
    rw [bind_ok e2, if_pos rfl]
    rcases prefix_split ⟨z, hz⟩ hne with ⟨p1, p2⟩ | ⟨q, q1, q2, q3⟩
    · rw [bind_wait (reap_waits h1 (by rw [v2, hv]) (by rw [a2]; exact p1) (by rw [a2]; exact p2))]
    · obtain ⟨s4, e4, a4, v4, u4, b4⟩ := reap_goes (s := s2) (rest := q) h1 false (by rw [v2, hv]) (by rw [a2, q1])
        (allLt_prefix (h2 true).lt q2) (by simp)
      rw [bind_ok e4, bind_wait (attsOf_waits (h2 false) v4 (by rw [a4]; exact q2) (by rw [a4]; exact q3))]
  | @native bin bin2 c t b g x as ns h1 h2 h3 h4 h5 h6 h7 =>
    subst h1
    have hsn : sniff s.all = .ok (coldOf bin) := by
      have h1 := h2.facts.2.2.2.2.1 (b ++ g)
      rw [← List.append_assoc, ← hz, sniff_head h0] at h1
      exact h1
    obtain ⟨s2, e2, a2, v2, u2, b2⟩ := sniffP_goes hb hsn
    rw [bind_ok e2, if_neg (coldOf_ne bin)]
    have hz' : s.all <+: t ++ (b ++ g) := ⟨z, by rw [hz, List.append_assoc]⟩
    have hne' : s.all ≠ t ++ (b ++ g) := by rw [← List.append_assoc]; exact hne
    have hbg : AllLt 256 (b ++ g) := (allLt_append _ _ _).2 ⟨h5, (h7 true).lt⟩
    have hnb : isBodyWith .v2 c.code = false := letter_ne h3 (by decide)
    rcases prefix_split hz' hne' with ⟨p1, p2⟩ | ⟨q, q1, q2, q3⟩
    · rw [bind_wait (peek_waits h2 (by rw [v2, hv]) (by rw [a2]; exact p1) (by rw [a2]; exact p2))]
    · obtain ⟨s5, e5, a5, v5, u5, b5⟩ := peek_goes (s := s2) (rest := q) h2 false (by rw [v2, hv]) (by rw [a2, q1]) (allLt_prefix hbg q2) (by simp)
      have hgv : getVer s5 = .ok .v2 s5 := by rw [← v5]; rfl
      rw [bind_ok e5, bind_ok hgv, if_neg (by rw [hnb]; simp)]
      rcases prefix_split q2 q3 with ⟨p1, p2⟩ | ⟨q', k1, k2, k3⟩
      · have : bodyOf L c (coldOf bin) false s5 = .wait := by
          unfold bodyOf
          rw [bind_ok hgv, if_neg (by have := letter_ne h3 (show 'F' ≠ 'H' by decide); simp [isNonNative, this]), if_neg (by simp), if_pos h3]
          have := prefix_short p1 p2
          refine bind_wait (fill_waits (by rw [a5, h2.facts.2.1, h4, List.length_append]; omega))
        rw [bind_wait this]
      · obtain ⟨s6, e6, a6, v6, u6, b6⟩ := native_goes (L := L) (s := s5) (rest := q') (framed := false) h2 h3 h4 h6 v5 (by rw [a5, k1, List.append_assoc]) (by simp)
        rw [bind_ok e6, bind_wait (attsOf_waits (h7 false) v6 (by rw [a6]; exact k2) (by rw [a6]; exact k3))]
  | @bodyWith bin _ _ h1 =>
    obtain ⟨c, t, w, pre, cb, body, bin2, att, f1, f2, f3, f4, f5, f6, rfl⟩ := h1.parts
    obtain ⟨t', r, k1, k2, k3, _⟩ := f4.front
    have hcont : AllLt 256 (pre ++ (body ++ att)) := by
      rw [k2]
      exact (allLt_append _ _ _).2 ⟨f3.lt, (allLt_append _ _ _).2 ⟨(allLt_append _ _ _).2 ⟨k1.facts.2.2.1.lt, k3⟩, f5.lt⟩⟩
    have hsn : sniff s.all = .ok (coldOf bin) := by
      have h1 := f1.facts.2.2.2.2.1 (pre ++ (body ++ att))
      rw [← hz, sniff_head h0] at h1
      exact h1
    obtain ⟨s2, e2, a2, v2, u2, b2⟩ := sniffP_goes hb hsn
    rw [bind_ok e2, if_neg (coldOf_ne bin)]
    rcases prefix_split ⟨z, hz⟩ hne with ⟨p1, p2⟩ | ⟨q, q1, q2, q3⟩
    · rw [bind_wait (peek_waits f1 (by rw [v2, hv]) (by rw [a2]; exact p1) (by rw [a2]; exact p2))]
    · have hql := allLt_prefix hcont q2
      obtain ⟨s5, e5, a5, v5, u5, b5⟩ := peek_goes (s := s2) (rest := q) f1 false (by rw [v2, hv]) (by rw [a2, q1]) hql (by simp)
      have hgv : getVer s5 = .ok v s5 := by rw [← v5]; rfl
      obtain ⟨s6, e6, a6, v6, u6, b6⟩ := delCtr_goes f1 v5 a5 b5
      rw [bind_ok e5, bind_ok hgv, if_pos f2, bind_ok e6,
        bind_wait (fill_waits (by rw [a6, f6]; exact prefix_short q2 q3))]

/-- A message that tells where it ends waits until it is there. -/
theorem msg_waits {β : Type} {L : Loader β} {d d' : Nat} {v : Ver} {enc : Bytes} {e : Exts β} {s : St} (h : Message L (msg L d') v true enc e)
    (hv : s.ver = v) (hp : s.all <+: enc) (hne : s.all ≠ enc) : msg L (d + 1) false s = .wait := by
  unfold msg
  by_cases h0 : s.all = []
  · rw [bind_wait (fill_waits (by rw [h0]; simp))]
  obtain ⟨s1, e1, a1, v1, u1, b1⟩ := fill_goes (s := s) (n := 1) (framed := false) (by simp) (List.length_pos_iff.2 h0)
  rw [bind_ok e1]
  rcases front_part h.head.1 (v1.trans hv) (by rw [a1]; exact hp) b1 with h1 | ⟨s2, e2, a2, v2, u2, b2⟩
  · rw [bind_wait h1]
  · rw [bind_ok e2]
    exact rest_waits h v2 (by rw [a2, a1]; exact hp) (by rw [a2, a1]; exact hne) b2

/-- A version that is there and a message that is not. -/
theorem msg_version_waits {β : Type} {L : Loader β} {d d' : Nat} {u v : Ver} {bin : Bool} {c : Counter} {pre enc q : Bytes} {e : Exts β} {s : St}
    (h1 : Front u bin c pre) (h2 : c.code = gvcCode) (h3 : announces c = .ok v) (h : Message L (msg L d') v true enc e) (hv : s.ver = u)
    (ha : s.all = pre ++ q) (hp : q <+: enc) (hne : q ≠ enc) :
    msg L (d + 1) false s = .wait ∨
      ∃ s', msg L (d + 1) false s = .err .shortage s' ∧ s'.buf = [] ∧ s'.all = q ∧ s'.ver = v ∧ s'.fut <:+ s.fut := by
  obtain ⟨hh, hl⟩ := h.head
  have hpos := List.length_pos_iff.2 h1.facts.2.2.2.1
  obtain ⟨s1, e1, a1, v1, u1, b1⟩ := fill_goes (s := s) (n := 1) (framed := false) (by simp) (by rw [ha]; simp only [List.length_append]; omega)
  obtain ⟨s2, e2, a2, v2, u2, b2⟩ := front_change (framed := false) h1 h2 h3 (allLt_prefix hl hp) (v1.trans hv) (a1.trans ha) b1 (by simp)
  unfold msg
  rw [bind_ok e1, bind_ok e2]
  by_cases h0 : s2.buf = []
  · right
    refine ⟨s2, ?_, h0, a2, v2, u2.trans u1⟩
    have : sniffP s2 = .err .shortage s2 := by simp [sniffP, h0, sniff]
    rw [bind_err this]
  · left
    exact rest_waits h v2 (by rw [a2]; exact hp) (by rw [a2]; exact hne) (List.length_pos_iff.2 h0)

/-! ## Streams -/

/-- A message at every depth of nesting that its length allows. -/
def Sent {β : Type} (L : Loader β) (v : Ver) (self : Bool) (enc : Bytes) (e : Exts β) : Prop := ∀ d ≥ enc.length, Message L (msg L d) v self enc e

/-- Messages one after the other.  In a stream that arrives in pieces (`live`) all tell where they end, and the last may be cut. -/
inductive Stream {β : Type} (L : Loader β) (live : Bool) : Ver → Bytes → List (Exts β) → Prop where
  | nil {v : Ver} : Stream L live v [] []
  | cons {u v : Ver} {bin self : Bool} {pre enc rest : Bytes} {e : Exts β} {es : List (Exts β)} : Genus u bin pre v → Sent L v self enc e →
      (live = true → self = true) → (self = false → Stop v rest) → Stream L live v rest es → Stream L live u (pre ++ (enc ++ rest)) (e :: es)
  | cut {u v : Ver} {bin : Bool} {pre enc p : Bytes} {e : Exts β} : live = true → Genus u bin pre v → Sent L v true enc e → p <+: pre ++ enc → p ≠ pre ++ enc →
      Stream L live u p []

theorem Sent.head {β : Type} {L : Loader β} {v : Ver} {self : Bool} {enc : Bytes} {e : Exts β} (h : Sent L v self enc e) : Head v enc ∧ AllLt 256 enc :=
  (h _ (Nat.le_refl _)).head

theorem Stream.lt {β : Type} {L : Loader β} {live : Bool} {v : Ver} {b : Bytes} {es : List (Exts β)} (h : Stream L live v b es) : AllLt 256 b := by
  induction h with
  | nil => intro b hb; simp at hb
  | cons h1 h2 _ _ _ ih => exact (allLt_append _ _ _).2 ⟨h1.lt, (allLt_append _ _ _).2 ⟨h2.head.2, ih⟩⟩
  | cut _ h1 h2 h3 _ => exact allLt_prefix ((allLt_append _ _ _).2 ⟨h1.lt, h2.head.2⟩) h3

theorem ascend_nil {β : Type} (g : GSt β) (h : g.stack = []) : ascend g g.stack = g := by
  obtain ⟨a, b, c, d, e, f⟩ := g
  simp only at h
  subst h
  rfl

/-- The round of `groupParsator` for a message. -/
def message {β : Type} (L : Loader β) (d n : Nat) (g : GSt β) (s : St) : GOut β :=
  match msg L d g.framed s with
  | .wait => ⟨g.out, .wait, s⟩
  | .err .topLevelStream s => group L d n { g with cur := s }
  | .err _ s => raised g .shortage s
  | .ok e s => group L d n { g with cur := s, out := g.out ++ [e] }

theorem group_msg {β : Type} {L : Loader β} {d n : Nat} {g : GSt β} (hst : ascend g g.stack = g) (hb : g.cur.buf ≠ []) (hs : sniff g.cur.buf = .ok .msg) :
    group L d (n + 1) g = message L d n g g.cur := by
  rw [group]
  simp only [hst, hs, if_neg hb]
  rfl

theorem group_ctr {β : Type} {L : Loader β} {d n : Nat} {g : GSt β} {cold : Cold} {c : Counter} {s : St} (hst : ascend g g.stack = g) (hb : g.cur.buf ≠ [])
    (hs : sniff g.cur.buf = .ok cold) (hc : cold ≠ .msg) (hp : peek cold g.framed g.cur = .ok c s) (hg : isGeneric s.ver c.code = false) :
    group L d (n + 1) g = message L d n g s := by
  rw [group]
  simp only [hst, hs, if_neg hb]
  cases cold with
  | msg => exact absurd rfl hc
  | txt => simp only [hp, hg, Bool.false_eq_true, if_false]; rfl
  | bny => simp only [hp, hg, Bool.false_eq_true, if_false]; rfl
  | ano => simp only [hp, hg, Bool.false_eq_true, if_false]; rfl

theorem group_peek_wait {β : Type} {L : Loader β} {d n : Nat} {g : GSt β} {cold : Cold} (hst : ascend g g.stack = g) (hb : g.cur.buf ≠ [])
    (hs : sniff g.cur.buf = .ok cold) (hc : cold ≠ .msg) (hp : peek cold g.framed g.cur = .wait) :
    group L d (n + 1) g = ⟨g.out, .wait, g.cur⟩ := by
  rw [group]
  simp only [hst, hs, if_neg hb]
  cases cold with
  | msg => exact absurd rfl hc
  | txt => simp only [hp]
  | bny => simp only [hp]
  | ano => simp only [hp]

theorem group_done {β : Type} {L : Loader β} {d n : Nat} {g : GSt β} (hst : g.stack = []) (hb : g.cur.buf = []) :
    group L d (n + 1) g = ⟨g.out, .done, g.cur⟩ := by
  rw [group]
  simp only [ascend_nil g hst, if_pos hb]

/-- `groupParsator` up to the message: it peeks at the counter, if there is one. -/
theorem group_to_message {β : Type} {L : Loader β} {d n : Nat} {g : GSt β} {u v : Ver} {bin : Bool} {pre enc rest : Bytes} (hg : Genus u bin pre v)
    (hh : Head v enc) (hl : AllLt 256 enc) (hr : AllLt 256 rest) (hst : ascend g g.stack = g) (hv : g.cur.ver = u) (ha : g.cur.all = pre ++ (enc ++ rest))
    (hb : g.cur.buf ≠ []) (hf : g.framed = true → g.cur.fut = []) :
    ∃ s, group L d (n + 1) g = message L d n g s ∧ s.all = pre ++ (enc ++ rest) ∧ s.ver = u ∧ s.fut <:+ g.cur.fut := by
  have key : ∀ {bin' : Bool} {c : Counter} {t r : Bytes}, Front u bin' c t → g.cur.all = t ++ r → AllLt 256 r → isGeneric u c.code = false →
      ∃ s, group L d (n + 1) g = message L d n g s ∧ s.all = pre ++ (enc ++ rest) ∧ s.ver = u ∧ s.fut <:+ g.cur.fut := by
    intro bin' c t r h1 h2 h3 h4
    have hs : sniff g.cur.buf = .ok (coldOf bin') := by
      have := h1.facts.2.2.2.2.1 r
      rw [← h2, St.all, sniff_head hb] at this
      exact this
    obtain ⟨s, e1, a1, v1, u1, _⟩ := peek_goes h1 g.framed hv h2 h3 hf
    exact ⟨s, group_ctr hst hb hs (coldOf_ne bin') e1 (by rw [v1]; exact h4), by rw [a1, ← h2, ha], v1, u1⟩
  cases hg with
  | same =>
    cases hh with
    | msg h1 h2 =>
      refine ⟨g.cur, group_msg hst hb ?_, ha, hv, List.suffix_refl _⟩
      have : sniff g.cur.all = .ok .msg := by rw [ha, List.nil_append, sniff_head h1]; exact h2
      rwa [St.all, sniff_head hb] at this
    | @ctr bin' c t r h1 h2 h3 h4 h5 =>
      refine key h1 (r := r ++ rest) (by rw [ha, h2]; simp) ((allLt_append _ _ _).2 ⟨h3, hr⟩) h5
  | @change c _ _ h1 h2 h3 =>
    exact key h1 ha ((allLt_append _ _ _).2 ⟨hl, hr⟩) (by rw [h2]; cases u <;> decide)

/-- `groupParsator` takes complete messages as long as there are bytes, and waits for the rest of a message. -/
theorem group_stream {β : Type} {L : Loader β} {live : Bool} {u : Ver} {b : Bytes} {es : List (Exts β)} (h : Stream L live u b es) {d : Nat}
    (hd : b.length ≤ d) : ∀ (n : Nat) (g : GSt β), b.length < n → g.stack = [] → g.eggs = false → g.cur.all = b → g.cur.ver = u →
    (g.framed = true → g.cur.fut = []) → (live = false → g.cur.fut = []) → (live = true → g.framed = false) →
    (∃ s', group L (d + 1) n g = ⟨g.out ++ es, .wait, s'⟩ ∧ live = true) ∨
    ∃ es1 es2 b2 w ex s', group L (d + 1) n g = ⟨g.out ++ es1, ex, s'⟩ ∧ ex ≠ .wait ∧ es = es1 ++ es2 ∧ Stream L live w b2 es2 ∧ s'.all = b2 ∧ s'.ver = w ∧
      s'.buf = [] ∧ s'.fut <:+ g.cur.fut := by
  induction h with
  | @nil v =>
    intro n g hn hst heg ha hv hf hl hlf
    obtain ⟨n, rfl⟩ : ∃ m, n = m + 1 := ⟨n - 1, by omega⟩
    have hb : g.cur.buf = [] := by
      have := congrArg List.length ha
      simp [St.all] at this
      exact this.1
    exact Or.inr ⟨[], [], _, v, .done, g.cur, by rw [group_done hst hb, List.append_nil], by simp, rfl, .nil, ha, hv, hb, List.suffix_refl _⟩
  | @cons u v bin self pre enc rest e es h1 h2 h3 h4 h5 ih =>
    intro n g hn hst heg ha hv hf hl hlf
    obtain ⟨n, rfl⟩ : ∃ m, n = m + 1 := ⟨n - 1, by omega⟩
    by_cases hb : g.cur.buf = []
    · exact Or.inr ⟨[], e :: es, _, u, .done, g.cur, by rw [group_done hst hb, List.append_nil], by simp, rfl, .cons h1 h2 h3 h4 h5, ha, hv, hb, List.suffix_refl _⟩
    obtain ⟨hh, hlt⟩ := h2.head
    have hpos := List.length_pos_iff.2 hh.ne
    simp only [List.length_append] at hd hn
    obtain ⟨s, e1, a1, v1, u1⟩ := group_to_message (L := L) (d := d + 1) (n := n) h1 hh hlt h5.lt (ascend_nil g hst) hv ha hb hf
    have hs0 : self = false → live = false := by
      intro h0
      cases live with
      | false => rfl
      | true => rw [h3 rfl] at h0; exact absurd h0 (by simp)
    rcases msg_step (framed := g.framed) h1 (h2 d (by omega)) h5.lt v1 a1 (fun h => fut_nil u1 (hf h))
      (fun h => ⟨fut_nil u1 (hl (hs0 h)), h4 h⟩) with ⟨s', g1, g2, g3, g4, _⟩ | ⟨s', g1, g2, g3, g4, g5⟩
    · have em : message L (d + 1) n g s = group L (d + 1) n { g with cur := s', out := g.out ++ [e] } := by
        unfold message; rw [g1]
      rw [e1, em]
      have hsuf := g4.trans u1
      rcases ih (by omega) n { g with cur := s', out := g.out ++ [e] } (by omega) hst heg g2 g3 (fun h => fut_nil hsuf (hf h))
        (fun h => fut_nil hsuf (hl h)) hlf with ⟨s2, k1, k2⟩ | ⟨es1, es2, b2, w, ex, s2, k1, k2, k3, k4, k5, k6, k7, k8⟩
      · exact Or.inl ⟨s2, by rw [k1]; simp, k2⟩
      · exact Or.inr ⟨e :: es1, es2, b2, w, ex, s2, by rw [k1]; simp, k2, by rw [k3]; rfl, k4, k5, k6, k7, k8.trans hsuf⟩
    · have em : message L (d + 1) n g s = ⟨g.out, .extraction, s'⟩ := by
        unfold message; rw [g1]
        simp [raised, hst, heg, extraction]
      refine Or.inr ⟨[], e :: es, enc ++ rest, v, .extraction, s', by rw [e1, em, List.append_nil], by simp, rfl, ?_, g3, g4, g2, g5.trans u1⟩
      exact .cons (pre := []) (bin := true) .same h2 h3 h4 h5
  | @cut u v bin pre enc p e h0 h1 h2 h3 h4 =>
    intro n g hn hst heg ha hv hf hl hlf
    obtain ⟨n, rfl⟩ : ∃ m, n = m + 1 := ⟨n - 1, by omega⟩
    by_cases hb : g.cur.buf = []
    · exact Or.inr ⟨[], [], _, u, .done, g.cur, by rw [group_done hst hb, List.append_nil], by simp, rfl, .cut h0 h1 h2 h3 h4, ha, hv, hb, List.suffix_refl _⟩
    have hfr : g.framed = false := hlf h0
    obtain ⟨hh, hlt⟩ := h2.head
    have hp0 : p ≠ [] := by
      intro h; rw [← ha, St.all] at h; exact hb (List.append_eq_nil_iff.1 h).1
    have hwait : ∀ {s : St}, msg L (d + 1) false s = .wait → message L (d + 1) n g s = ⟨g.out, .wait, s⟩ := by
      intro s h
      unfold message
      rw [hfr, h]
    have key : ∀ {bin' : Bool} {c : Counter} {t q : Bytes}, Front u bin' c t → g.cur.all = t ++ q → AllLt 256 q → isGeneric u c.code = false →
        ∃ s, group L (d + 1) (n + 1) g = message L (d + 1) n g s ∧ s.all = t ++ q ∧ s.ver = u ∧ s.fut <:+ g.cur.fut := by
      intro bin' c t r k1 k2 k3 k4
      have hs : sniff g.cur.buf = .ok (coldOf bin') := by
        have := k1.facts.2.2.2.2.1 r
        rw [← k2, St.all, sniff_head hb] at this
        exact this
      obtain ⟨s, e1, a1, v1, u1, _⟩ := peek_goes k1 g.framed hv k2 k3 hf
      exact ⟨s, group_ctr (ascend_nil g hst) hb hs (coldOf_ne bin') e1 (by rw [v1]; exact k4), a1, v1, u1⟩
    have keyw : ∀ {bin' : Bool} {c : Counter} {t r : Bytes}, Front u bin' c t → p <+: t → p ≠ t → group L (d + 1) (n + 1) g = ⟨g.out, .wait, g.cur⟩ := by
      intro bin' c t r k1 k2 k3
      have hs : sniff g.cur.buf = .ok (coldOf bin') := by
        have h1 := k1.facts.2.2.2.2.1 []
        obtain ⟨z, hz⟩ := k2
        rw [List.append_nil, ← hz, ← ha, St.all, List.append_assoc, sniff_head hb] at h1
        exact h1
      refine group_peek_wait (ascend_nil g hst) hb hs (coldOf_ne bin') ?_
      rw [hfr]
      exact peek_waits k1 hv (by rw [ha]; exact k2) (by rw [ha]; exact k3)
    have hm := h2 _ (Nat.le_refl _)
    cases h1 with
    | same =>
      rw [List.nil_append] at h3 h4
      left
      cases hh with
      | msg k1 k2 =>
        have hs : sniff g.cur.buf = .ok .msg := by
          obtain ⟨z, hz⟩ := h3
          rw [← hz, ← ha, St.all, List.append_assoc, sniff_head hb] at k2
          exact k2
        refine ⟨g.cur, ?_, h0⟩
        rw [group_msg (ascend_nil g hst) hb hs, hwait (msg_waits hm hv (by rw [ha]; exact h3) (by rw [ha]; exact h4)), List.append_nil]
      | @ctr bin' c t r k1 k2 k3 k4 k5 =>
        have h3' := h3
        have h4' := h4
        rw [k2] at h3 h4
        rcases prefix_split h3 h4 with ⟨p1, p2⟩ | ⟨q, q1, q2, q3⟩
        · exact ⟨g.cur, by rw [keyw (r := []) k1 p1 p2, List.append_nil], h0⟩
        · obtain ⟨s, e1, a1, v1, u1⟩ := key k1 (by rw [ha, q1]) (allLt_prefix k3 q2) k5
          refine ⟨s, ?_, h0⟩
          rw [e1, hwait (msg_waits hm v1 (by rw [a1, ← q1]; exact h3') (by rw [a1, ← q1]; exact h4')), List.append_nil]
    | @change c _ _ k1 k2 k3 =>
      rcases prefix_split h3 h4 with ⟨p1, p2⟩ | ⟨q, q1, q2, q3⟩
      · exact Or.inl ⟨g.cur, by rw [keyw (r := []) k1 p1 p2, List.append_nil], h0⟩
      · obtain ⟨s, e1, a1, v1, u1⟩ := key k1 (by rw [ha, q1]) (allLt_prefix hlt q2) (by rw [k2]; cases u <;> decide)
        rcases msg_version_waits (d := d) k1 k2 k3 hm v1 a1 q2 q3 with g1 | ⟨s', g1, g2, g3, g4, g5⟩
        · exact Or.inl ⟨s, by rw [e1, hwait g1, List.append_nil], h0⟩
        · right
          have em : message L (d + 1) n g s = ⟨g.out, .extraction, s'⟩ := by
            unfold message; rw [hfr, g1]
            simp [raised, hst, heg, extraction]
          exact ⟨[], [], q, v, .extraction, s', by rw [e1, em, List.append_nil], by simp, rfl,
            .cut (pre := []) (bin := true) h0 .same h2 (by simpa using q2) (by simpa using q3), g3, g4, g2, g5.trans u1⟩

/-! ## Drivers -/

theorem total_all (s : St) : total s = s.all.length := by simp [total, St.all]

theorem after_nil {β : Type} {o : GOut β} (h : o.st.buf = []) : after o = o.st := by
  unfold after
  split
  · obtain ⟨_, _, b, f, v⟩ := o
    simp only at h
    subst h
    rfl
  · rfl

theorem stream_nil {β : Type} {L : Loader β} {live : Bool} {u : Ver} {b : Bytes} {es : List (Exts β)} (hb : b = []) (h : Stream L live u b es) : es = [] := by
  cases h with
  | nil => rfl
  | cons k1 k2 _ _ _ =>
    have := k2.head.1.ne
    simp at hb
    exact absurd hb.2.1 this
  | cut _ _ _ _ _ => rfl

/-- `parsator` gives the messages of a stream, however it arrives. -/
theorem parsator_stream {β : Type} {L : Loader β} : ∀ (n : Nat) {u : Ver} {b : Bytes} {es : List (Exts β)} {s : St}, Stream L true u b es →
    s.all = b → s.ver = u → s.fut.length < n → parsator L false n s = es
  | 0, _, _, _, _, _, _, _, h => by omega
  | n + 1, u, b, es, s, hs, ha, hv, hn => by
    have hb : b.length < total s + 1 := by rw [total_all, ha]; omega
    rw [parsator]
    rcases group_stream hs (d := total s) (by omega) (total s + 1) { cur := s, framed := false } hb rfl rfl ha hv (by simp) (by simp) (by simp) with
      ⟨s', g1, _⟩ | ⟨es1, es2, b2, w, ex, s', g1, g2, g3, g4, g5, g6, g7, g8⟩
    · simp only [groupAll, g1, List.nil_append, if_true]
    · have hg : groupAll L false s = ⟨es1, ex, s'⟩ := by simp [groupAll, g1]
      simp only [hg, if_neg g2]
      rw [after_nil (o := ⟨es1, ex, s'⟩) g7]
      simp only
      have h8 : s'.fut.length ≤ s.fut.length := g8.length_le
      cases hf : s'.fut with
      | nil =>
        have hb2 : b2 = [] := by rw [← g5, St.all, g7, hf]; rfl
        have : es2 = [] := stream_nil hb2 g4
        simp only [g3, this, List.append_nil]
      | cons p fut =>
        simp only
        rw [parsator_stream n g4 (s := ⟨s'.buf ++ p, fut, s'.ver⟩) ?_ g6 ?_, g3]
        · rw [← g5]; simp [St.all, g7, hf]
        · rw [hf] at h8; simp at h8 ⊢; omega

/-- `parse` gives the messages of a stream that is all there. -/
theorem parse_stream {β : Type} {L : Loader β} {framed : Bool} {u : Ver} {b : Bytes} {es : List (Exts β)} (h : Stream L false u b es) (n : Nat) :
    parse L framed (n + 1) ⟨b, [], u⟩ = (es, true) := by
  rw [parse]
  by_cases hb : b = []
  · subst hb
    rw [stream_nil rfl h]
    simp
  · simp only [if_neg hb]
    have ht : total ⟨b, [], u⟩ = b.length := by simp [total]
    rcases group_stream h (d := total ⟨b, [], u⟩) (by omega) (total ⟨b, [], u⟩ + 1) { cur := ⟨b, [], u⟩, framed := framed } (by omega) rfl rfl
      (by simp [St.all]) rfl (by simp) (by simp) (by simp) with ⟨s', g1, g2⟩ | ⟨es1, es2, b2, w, ex, s', g1, g2, g3, g4, g5, g6, g7, g8⟩
    · exact absurd g2 (by simp)
    · have hg : groupAll L framed ⟨b, [], u⟩ = ⟨es1, ex, s'⟩ := by simp [groupAll, g1]
      simp only [hg, if_neg g2]
      rw [after_nil (o := ⟨es1, ex, s'⟩) g7]
      have hf : s'.fut = [] := List.suffix_nil.1 g8
      have hb2 : b2 = [] := by rw [← g5, St.all, g7, hf]; rfl
      have : es2 = [] := stream_nil hb2 g4
      have hp : parse L framed n s' = ([], true) := by
        cases n with
        | zero => simp [parse, g7]
        | succ n => simp [parse, g7]
      simp only [hp, g3, this, List.append_nil]

end Verif.Prs
