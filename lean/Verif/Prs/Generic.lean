import Verif.Prs.PropsStream
import Verif.Prs.Calm

/-!
# Generic groups

What `groupParsator` does with a generic group on bytes that are all there.
-/

namespace Verif.Prs

open Verif.Matter (Mat)
open Verif.Idr (Ixr)
open Verif.Ctr (Ver Counter)
open Verif.B64

theorem ascend_ne {β : Type} (g : GSt β) (h : g.cur.buf ≠ []) : ascend g g.stack = g := by
  obtain ⟨a, b, c, d, e, f⟩ := g
  cases e with
  | nil => rfl
  | cons p tl =>
    obtain ⟨v, q⟩ := p
    simp only at h
    simp only [ascend, if_neg h]

theorem st_eta {s : St} {b : Bytes} {v : Ver} (h1 : s.fut = []) (h2 : s.all = b) (h3 : s.ver = v) : s = ⟨b, [], v⟩ := by
  obtain ⟨x, f, w⟩ := s
  simp only at h1 h3
  subst h1 h3
  simp [St.all] at h2
  rw [h2]

/-- A message. -/
theorem group_one {β : Type} {L : Loader β} {d n : Nat} {g : GSt β} {u v : Ver} {bin self : Bool} {pre enc rest : Bytes} {e : Exts β}
    (hg : Genus u bin pre v) (h : Sent L v self enc e) (hd : enc.length ≤ d) (hr : AllLt 256 rest) (hs : self = false → Stop v rest)
    (hc : g.cur = ⟨pre ++ (enc ++ rest), [], u⟩) :
    group L (d + 1) (n + 1) g = group L (d + 1) n { g with cur := ⟨rest, [], v⟩, out := g.out ++ [e] } := by
  obtain ⟨hh, hlt⟩ := h.head
  have hb : g.cur.buf ≠ [] := by rw [hc]; simp [hh.ne]
  have hfu : g.cur.fut = [] := by rw [hc]
  have ha : g.cur.all = pre ++ (enc ++ rest) := by rw [hc]; simp [St.all]
  obtain ⟨s, e1, a1, v1, u1⟩ := group_to_message (L := L) (d := d + 1) (n := n) hg hh hlt hr (ascend_ne g hb) (by rw [hc]) ha hb (fun _ => hfu)
  have hfs := fut_nil u1 hfu
  obtain ⟨s', g1, g2, g3, g4, _⟩ := msg_goes (framed := g.framed) hg (h d hd) hr v1 a1 (fun _ => hfs) (fun h => ⟨hfs, hs h⟩) (Or.inr hfs)
  rw [e1]
  unfold message
  rw [g1, st_eta (fut_nil g4 hfs) g2 g3]

/-- Messages one after the other, up to the rest. -/
inductive Upto {β : Type} (L : Loader β) : Ver → Bytes → List (Exts β) → Ver → Bytes → Prop where
  | nil {v : Ver} {b : Bytes} : Upto L v b [] v b
  | cons {u v w : Ver} {bin self : Bool} {pre enc rest tail : Bytes} {e : Exts β} {es : List (Exts β)} : Genus u bin pre v → Sent L v self enc e →
      (self = false → Stop v rest) → Upto L v rest es w tail → Upto L u (pre ++ (enc ++ rest)) (e :: es) w tail

theorem Upto.lt {β : Type} {L : Loader β} {u w : Ver} {b t : Bytes} {es : List (Exts β)} (h : Upto L u b es w t) (ht : AllLt 256 t) : AllLt 256 b := by
  induction h with
  | nil => exact ht
  | cons h1 h2 _ _ ih => exact (allLt_append _ _ _).2 ⟨h1.lt, (allLt_append _ _ _).2 ⟨h2.head.2, ih ht⟩⟩

theorem Upto.le {β : Type} {L : Loader β} {u w : Ver} {b t : Bytes} {es : List (Exts β)} (h : Upto L u b es w t) : t.length ≤ b.length := by
  induction h with
  | nil => exact Nat.le_refl _
  | cons _ _ _ _ ih => simp only [List.length_append]; omega

theorem group_upto {β : Type} {L : Loader β} {u w : Ver} {b t : Bytes} {es : List (Exts β)} (h : Upto L u b es w t) (ht : AllLt 256 t) {d : Nat} :
    b.length ≤ d + t.length → ∀ (n : Nat) (g : GSt β), g.cur = ⟨b, [], u⟩ → b.length < n →
    ∃ n', group L (d + 1) n g = group L (d + 1) n' { g with cur := ⟨t, [], w⟩, out := g.out ++ es } ∧ n + t.length ≤ n' + b.length ∧ t.length < n' ∧
      t.length ≤ b.length := by
  induction h with
  | nil =>
    intro _ n g hc hn
    refine ⟨n, ?_, by omega, hn, Nat.le_refl _⟩
    rw [List.append_nil, ← hc]
  | @cons u v w bin self pre enc rest tail e es h1 h2 h3 h4 ih =>
    intro hd n g hc hn
    obtain ⟨n, rfl⟩ : ∃ m, n = m + 1 := ⟨n - 1, by omega⟩
    have hpos := List.length_pos_iff.2 h2.head.1.ne
    have hle := h4.le
    simp only [List.length_append] at hd hn
    rw [group_one h1 h2 (by omega) (h4.lt ht) h3 hc]
    obtain ⟨n', k1, k2, k3, k4⟩ := ih ht (by omega) n { g with cur := ⟨rest, [], v⟩, out := g.out ++ [e] } rfl (by omega)
    refine ⟨n', ?_, by simp only [List.length_append]; omega, k3, by simp only [List.length_append]; omega⟩
    rw [k1]
    simp

/-- The counter of a generic group, and what is in it. -/
structure Group (v : Ver) (bin : Bool) (t content : Bytes) : Prop where
  front : ∃ c, Front v bin c t ∧ isGeneric v c.code = true ∧ ctrCount (coldOf bin) c = content.length

/-- What happens with the content. -/
def inside {β : Type} (L : Loader β) (d n : Nat) (g : GSt β) (cold : Cold) (v : Ver) (content rest : Bytes) : GOut β :=
  match peek cold g.framed ⟨content, [], v⟩ with
  | .wait => ⟨g.out, .wait, ⟨rest, [], v⟩⟩
  | .err e _ => raised { g with eggs := true } e ⟨rest, [], v⟩
  | .ok c' _ =>
    if c'.code = gvcCode then
      match setVer c' ⟨content.drop (ctrSize v cold c'), [], v⟩ with
      | .ok _ s' => group L d n { g with eggs := true, cur := s', framed := true, svrsn := some s'.ver, stack := (v, rest) :: g.stack }
      | .err e s' => raised { g with eggs := true, stack := (v, rest) :: g.stack } e s'
      | .wait => ⟨g.out, .wait, ⟨rest, [], v⟩⟩
    else group L d n { g with eggs := true, cur := ⟨content, [], g.svrsn.getD v⟩, framed := true, stack := (v, rest) :: g.stack }

theorem enter_eq {β : Type} {L : Loader β} {d n : Nat} {g : GSt β} {c : Counter} {cold : Cold} {s : St} {b rest : Bytes} {v : Ver}
    (h : (do
      delCtr cold c
      fill (ctrCount cold c) g.framed
      takeBuf (ctrCount cold c) : P Bytes) s = .ok b ⟨rest, [], v⟩) :
    (match enter g c cold s with | .inl o => o | .inr g => group L d n g) = inside L d n g cold v b rest := by
  unfold enter inside
  rw [h]
  simp only
  cases hp : peek cold g.framed ⟨b, [], v⟩ with
  | wait => simp only
  | err e s' => simp only
  | ok c' s' =>
    simp only
    by_cases hc : c'.code = gvcCode
    · simp only [if_pos hc]
      cases setVer c' ⟨b.drop (ctrSize v cold c'), [], v⟩ with
      | ok a s2 => simp only
      | err e s2 => simp only
      | wait => simp only
    · simp only [if_neg hc]

theorem group_ctr_generic {β : Type} {L : Loader β} {d n : Nat} {g : GSt β} {cold : Cold} {c : Counter} {s : St} (hst : ascend g g.stack = g)
    (hb : g.cur.buf ≠ []) (hs : sniff g.cur.buf = .ok cold) (hc : cold ≠ .msg) (hp : peek cold g.framed g.cur = .ok c s)
    (hg : isGeneric s.ver c.code = true) :
    group L d (n + 1) g = match enter g c cold s with | .inl o => o | .inr g => group L d n g := by
  rw [group]
  simp only [hst, hs, if_neg hb]
  cases cold with
  | msg => exact absurd rfl hc
  | txt => simp only [hp, hg, if_true]; rfl
  | bny => simp only [hp, hg, if_true]; rfl
  | ano => simp only [hp, hg, if_true]; rfl

theorem group_generic {β : Type} {L : Loader β} {d n : Nat} {g : GSt β} {v : Ver} {bin : Bool} {t content rest : Bytes} (h : Group v bin t content)
    (hcl : AllLt 256 content) (hr : AllLt 256 rest) (hc : g.cur = ⟨t ++ (content ++ rest), [], v⟩) :
    group L d (n + 1) g = inside L d n g (coldOf bin) v content rest := by
  obtain ⟨c, f1, f2, f3⟩ := h.front
  obtain ⟨k1, k2, k3, k4, k5, k6⟩ := f1.facts
  have hb : g.cur.buf ≠ [] := by rw [hc]; simp [k4]
  have hp : peek (coldOf bin) g.framed g.cur = .ok c g.cur := by
    rw [hc]
    exact peek_ok [] _ (k1 _ ((allLt_append _ _ _).2 ⟨hcl, hr⟩))
  rw [group_ctr_generic (ascend_ne g hb) hb (by rw [hc]; exact k5 _) (coldOf_ne bin) hp (by rw [hc]; exact f2)]
  apply enter_eq
  rw [hc]
  have e1 : delCtr (coldOf bin) c ⟨t ++ (content ++ rest), [], v⟩ = .ok () ⟨content ++ rest, [], v⟩ := by
    unfold delCtr del
    simp only [k2, List.drop_left]
  rw [bind_ok e1, f3]
  obtain ⟨s1, a1, a2, a3, a4, _⟩ := fill_goes (s := ⟨content ++ rest, [], v⟩) (n := content.length) (framed := g.framed) (fun _ => rfl)
    (by simp [St.all])
  rw [bind_ok a1, st_eta (fut_nil a4 rfl) a2 a3]
  simp [takeBuf, St.all]

/-! ## A group with anything in it -/

/-- The bytes waiting in enclosing groups. -/
def held (l : List (Ver × Bytes)) : Nat := (l.map (fun p => p.2.length)).sum

theorem ascend_cases {β : Type} (v : Ver) (rest : Bytes) : ∀ (st : List (Ver × Bytes)) (g : GSt β), g.cur.fut = [] →
    (ascend g (st ++ [(v, rest)]) = { g with cur := ⟨rest, [], v⟩, svrsn := some v, stack := [] }) ∨
      ∃ st', (ascend g (st ++ [(v, rest)])).stack = st' ++ [(v, rest)] ∧ (ascend g (st ++ [(v, rest)])).cur.buf ≠ [] ∧
        (ascend g (st ++ [(v, rest)])).cur.fut = [] ∧
        (ascend g (st ++ [(v, rest)])).cur.buf.length + held st' ≤ g.cur.buf.length + held st ∧
        (ascend g (st ++ [(v, rest)])).framed = g.framed ∧ (ascend g (st ++ [(v, rest)])).eggs = g.eggs ∧ (ascend g (st ++ [(v, rest)])).out = g.out
  | [], g, hf => by
    simp only [List.nil_append, ascend]
    by_cases h : g.cur.buf = []
    · left
      simp only [if_pos h, hf]
    · right
      simp only [if_neg h]
      refine ⟨[], rfl, h, hf, Nat.le_refl _, ?_, ?_, ?_⟩ <;> trivial
  | (w, b) :: st, g, hf => by
    simp only [List.cons_append, ascend]
    by_cases h : g.cur.buf = []
    · simp only [if_pos h]
      rcases ascend_cases v rest st { g with cur := ⟨b, g.cur.fut, w⟩, svrsn := some w } hf with h1 | ⟨st', h1, h2, h3, h4, h5, h6, h7⟩
      · left
        rw [h1]
      · right
        refine ⟨st', h1, h2, h3, ?_, h5, h6, h7⟩
        simp only [held, List.map_cons, List.sum_cons] at h4 ⊢
        omega
    · right
      simp only [if_neg h]
      refine ⟨(w, b) :: st, rfl, h, hf, Nat.le_refl _, ?_, ?_, ?_⟩ <;> trivial

theorem ascend_idem {β : Type} : ∀ (l : List (Ver × Bytes)) (g : GSt β), ascend (ascend g l) (ascend g l).stack = ascend g l
  | [], g => rfl
  | (v, b) :: tl, g => by
    simp only [ascend]
    by_cases h : g.cur.buf = []
    · simp only [if_pos h]
      exact ascend_idem tl _
    · simp only [if_neg h, ascend]

theorem group_ascend {β : Type} (L : Loader β) (d n : Nat) (g : GSt β) : group L d (n + 1) g = group L d (n + 1) (ascend g g.stack) := by
  conv => rhs; rw [group]
  simp only [ascend_idem]
  rw [group]

theorem raised_stack {β : Type} {g : GSt β} {e : Err} {s : St} {v : Ver} {rest : Bytes} {st : List (Ver × Bytes)} (h : g.stack = st ++ [(v, rest)])
    (he : g.eggs = true) (hs : s.fut = []) : ∃ ex, raised g e s = ⟨g.out, ex, ⟨rest, [], v⟩⟩ ∧ ex ≠ .wait ∧ ex ≠ .extraction := by
  unfold raised
  rw [h, he]
  simp only [List.getLast?_append, List.getLast?_singleton, Option.some_or, hs]
  refine ⟨_, rfl, ?_, ?_⟩ <;> split <;> simp

/-- How things go on after a generic group with anything in it: an exception, after which the stream is where the group ends, or the next round
there. -/
def Past {β : Type} (L : Loader β) (d : Nat) (v : Ver) (rest : Bytes) (out : List (Exts β)) (o : GOut β) : Prop :=
  (∃ junk ex, o = ⟨out ++ junk, ex, ⟨rest, [], v⟩⟩ ∧ ex ≠ .wait ∧ ex ≠ .extraction) ∨
    ∃ junk n' sv, o = group L d n' { cur := ⟨rest, [], v⟩, framed := true, eggs := true, svrsn := sv, stack := [], out := out ++ junk } ∧ rest.length < n'

theorem past_more {β : Type} {L : Loader β} {d : Nat} {v : Ver} {rest : Bytes} {out es : List (Exts β)} {o : GOut β} (h : Past L d v rest (out ++ es) o) :
    Past L d v rest out o := by
  rcases h with ⟨junk, ex, h1, h2, h3⟩ | ⟨junk, n', sv, h1, h2⟩
  · exact Or.inl ⟨es ++ junk, ex, by rw [h1, List.append_assoc], h2, h3⟩
  · exact Or.inr ⟨es ++ junk, n', sv, by rw [h1, List.append_assoc], h2⟩

theorem group_junk {β : Type} {L : Loader β} (hL : L.Sane) (d : Nat) (v : Ver) (rest : Bytes) : ∀ (n : Nat) (g : GSt β) (st : List (Ver × Bytes)),
    g.stack = st ++ [(v, rest)] → g.framed = true → g.eggs = true → g.cur.fut = [] → g.cur.buf.length + held st + rest.length < n →
    Past L d v rest g.out (group L d n g)
  | 0, _, _, _, _, _, _, h => absurd h (by omega)
  | n + 1, g, st, hst, hfr, heg, hfu, hn => by
    rw [group_ascend, hst]
    rcases ascend_cases v rest st g hfu with h1 | ⟨st', h1, h2, h3, h4, h5, h6, h7⟩
    · rw [h1]
      refine Or.inr ⟨[], n + 1, some v, ?_, by omega⟩
      rw [List.append_nil]
      obtain ⟨a, b, c, d, e, f⟩ := g
      simp only at hfr heg
      rw [hfr, heg]
    · generalize hg : ascend g (st ++ [(v, rest)]) = g1 at h1 h2 h3 h4 h5 h6 h7
      rw [← h7]
      rw [hfr] at h5
      rw [heg] at h6
      have hidem : ascend g1 g1.stack = g1 := ascend_ne g1 h2
      have hlen := List.length_pos_iff.2 h2
      have stuck : ∀ e s, s.fut = [] → Past L d v rest g1.out (raised g1 e s) := by
        intro e s hs
        obtain ⟨ex, r1, r2, r3⟩ := raised_stack h1 h6 hs (e := e)
        exact Or.inl ⟨[], ex, by rw [r1, List.append_nil], r2, r3⟩
      have hmsg : (∀ cold c, sniff g1.cur.buf = .ok cold → peek cold true g1.cur = .ok c g1.cur → isGeneric g1.cur.ver c.code = false) →
          Past L d v rest g1.out (message L d n g1 g1.cur) := by
        intro hgen
        have c1 := calm_msg L d g1.cur h3
        have c2 := msg_less hL (d := d) h3 hgen
        rw [← h5] at c1 c2
        unfold message
        cases hm : msg L d g1.framed g1.cur with
        | wait => rw [hm] at c1; exact absurd c1 (by simp)
        | ok e s =>
          rw [hm] at c1 c2
          simp only
          have c2 : s.buf.length < g1.cur.buf.length := c2
          exact past_more (group_junk hL d v rest n { g1 with cur := s, out := g1.out ++ [e] } st' h1 h5 h6 c1.1 (by simp only; omega))
        | err e s =>
          rw [hm] at c1 c2
          by_cases he : e = .topLevelStream
          · subst he
            simp only
            have c2 : s.buf.length < g1.cur.buf.length := c2
            exact group_junk hL d v rest n { g1 with cur := s } st' h1 h5 h6 c1.1 (by simp only; omega)
          · have := stuck .shortage s c1.1
            cases e <;> first | exact absurd rfl he | exact this
      cases hs : sniff g1.cur.buf with
      | error e =>
        rw [group]
        simp only [hidem, if_neg h2, hs]
        exact stuck e _ h3
      | ok cold =>
        by_cases hc : cold = .msg
        · subst hc
          rw [group_msg hidem h2 hs]
          refine hmsg fun cold c k1 k2 => ?_
          rw [hs] at k1
          injection k1 with k1
          subst k1
          rcases peek_cases (cold := .msg) h3 with ⟨c', e1, e2, e3⟩ | ⟨e, e1, e2⟩
          · unfold peek extractor at e1
            rw [extractGo.eq_def] at e1
            simp [peekCtr] at e1
          · rw [k2] at e1
            exact absurd e1 (by simp)
        · rcases peek_cases (cold := cold) h3 with ⟨c, e1, e2, e3⟩ | ⟨e, e1, e2⟩
          · have e1' : peek cold g1.framed g1.cur = .ok c g1.cur := by rw [h5]; exact e1
            by_cases hgen : isGeneric g1.cur.ver c.code = true
            · rw [group_ctr_generic hidem h2 hs hc e1' hgen]
              rw [enter_eq (b := (g1.cur.buf.drop (ctrSize g1.cur.ver cold c)).take (ctrCount cold c))
                (rest := (g1.cur.buf.drop (ctrSize g1.cur.ver cold c)).drop (ctrCount cold c)) (v := g1.cur.ver)]
              · generalize hB : (g1.cur.buf.drop (ctrSize g1.cur.ver cold c)).take (ctrCount cold c) = B
                generalize hR : (g1.cur.buf.drop (ctrSize g1.cur.ver cold c)).drop (ctrCount cold c) = R
                have hBR : B.length + R.length < g1.cur.buf.length := by
                  rw [← hB, ← hR]
                  simp only [List.length_take, List.length_drop]
                  omega
                unfold inside
                rcases peek_cases (cold := cold) (s := ⟨B, [], g1.cur.ver⟩) rfl with ⟨c', p1, p2, p3⟩ | ⟨e, p1, p2⟩
                · rw [show peek cold g1.framed ⟨B, [], g1.cur.ver⟩ = .ok c' ⟨B, [], g1.cur.ver⟩ by rw [h5]; exact p1]
                  simp only
                  by_cases hgv : c'.code = gvcCode
                  · rw [if_pos hgv]
                    have hset := calm_setVer c' ⟨B.drop (ctrSize g1.cur.ver cold c'), [], g1.cur.ver⟩ rfl
                    cases hsv : setVer c' ⟨B.drop (ctrSize g1.cur.ver cold c'), [], g1.cur.ver⟩ with
                    | wait => rw [hsv] at hset; exact absurd hset (by simp)
                    | ok a s' =>
                      rw [hsv] at hset
                      simp only [List.length_drop] at hset
                      refine group_junk hL d v rest n { g1 with eggs := true, cur := s', framed := true, svrsn := some s'.ver, stack := (g1.cur.ver, R) :: g1.stack }
                        ((g1.cur.ver, R) :: st') ?_ rfl rfl hset.1 ?_
                      · simp only [h1, List.cons_append]
                      · simp only [held, List.map_cons, List.sum_cons]
                        simp only [held] at h4
                        simp only [held] at hn
                        omega
                    | err e s' =>
                      rw [hsv] at hset
                      obtain ⟨ex, r1, r2, r3⟩ := raised_stack (g := { g1 with eggs := true, stack := (g1.cur.ver, R) :: g1.stack })
                        (v := v) (rest := rest) (st := (g1.cur.ver, R) :: st') (by show _ :: g1.stack = _; rw [h1]; rfl) rfl hset.1 (e := e)
                      exact Or.inl ⟨[], ex, by rw [List.append_nil]; exact r1, r2, r3⟩
                  · rw [if_neg hgv]
                    refine group_junk hL d v rest n { g1 with eggs := true, cur := ⟨B, [], g1.svrsn.getD g1.cur.ver⟩, framed := true, stack := (g1.cur.ver, R) :: g1.stack }
                      ((g1.cur.ver, R) :: st') ?_ rfl rfl rfl ?_
                    · simp only [h1, List.cons_append]
                    · simp only [held, List.map_cons, List.sum_cons]
                      simp only [held] at h4
                      simp only [held] at hn
                      omega
                · rw [show peek cold g1.framed ⟨B, [], g1.cur.ver⟩ = .err e ⟨B, [], g1.cur.ver⟩ by rw [h5]; exact p1]
                  simp only
                  obtain ⟨ex, r1, r2, r3⟩ := raised_stack (g := { g1 with eggs := true }) (st := st') h1 rfl
                    (s := ⟨R, [], g1.cur.ver⟩) rfl (e := e)
                  exact Or.inl ⟨[], ex, by rw [List.append_nil]; exact r1, r2, r3⟩
              · rw [h5, bind_ok (show delCtr cold c g1.cur = .ok () { g1.cur with buf := g1.cur.buf.drop (ctrSize g1.cur.ver cold c) } from rfl)]
                rw [bind_ok (show fill _ true _ = .ok () _ from rfl)]
                simp only [takeBuf, h3]
            · have hgen : isGeneric g1.cur.ver c.code = false := by simpa using hgen
              rw [group_ctr hidem h2 hs hc e1' hgen]
              refine hmsg fun cold' c' k1 k2 => ?_
              rw [hs] at k1
              injection k1 with k1
              subst k1
              rw [e1] at k2
              injection k2 with k2
              rw [← k2]
              exact hgen
          · have e1' : peek cold g1.framed g1.cur = .err e g1.cur := by rw [h5]; exact e1
            rw [group]
            simp only [hidem, if_neg h2, hs]
            cases cold with
            | msg => exact absurd rfl hc
            | txt => simp only [e1']; exact stuck e _ h3
            | bny => simp only [e1']; exact stuck e _ h3
            | ano => simp only [e1']; exact stuck e _ h3

end Verif.Prs
