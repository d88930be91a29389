import Verif.Prs.Loop

/-!
# Generators on bytes that arrive in pieces
-/

namespace Verif.Prs

open Verif.Matter (Mat)
open Verif.Idr (Ixr)
open Verif.Ctr (Ver Counter)
open Verif.B64

/-- All bytes there are and will be. -/
def St.all (s : St) : Bytes := s.buf ++ s.fut.flatten

/-- The generator succeeds from `s`, having left these bytes; what arrives is not put back. -/
def Goes {α : Type} (m : P α) (s : St) (a : α) (rest : Bytes) (v : Ver) (k : Nat) : Prop :=
  ∃ s', m s = .ok a s' ∧ s'.all = rest ∧ s'.ver = v ∧ s'.fut <:+ s.fut ∧ k ≤ s'.buf.length

theorem all_nil {s : St} (h : s.fut = []) : s.all = s.buf := by simp [St.all, h]

theorem Goes.bind {α β : Type} {m : P α} {f : α → P β} {s : St} {a : α} {b : β} {r1 r2 : Bytes} {v1 v2 : Ver} {k1 k2 : Nat} (h1 : Goes m s a r1 v1 k1)
    (h2 : ∀ s', s'.all = r1 → s'.ver = v1 → s'.fut <:+ s.fut → k1 ≤ s'.buf.length → Goes (f a) s' b r2 v2 k2) : Goes (m >>= f) s b r2 v2 k2 := by
  obtain ⟨s1, e1, e2, e3, e4, e5⟩ := h1
  obtain ⟨s2, g1, g2, g3, g4, g5⟩ := h2 s1 e2 e3 e4 e5
  exact ⟨s2, by rw [bind_ok e1]; exact g1, g2, g3, g4.trans e4, g5⟩

theorem Goes.pure {α : Type} {s : St} (a : α) : Goes (Pure.pure a) s a s.all s.ver s.buf.length := ⟨s, rfl, rfl, rfl, List.suffix_refl _, Nat.le_refl _⟩

theorem Goes.mono {α : Type} {m : P α} {s : St} {a : α} {r : Bytes} {v : Ver} {k k' : Nat} (h : Goes m s a r v k) (hk : k' ≤ k) : Goes m s a r v k' := by
  obtain ⟨s', h1, h2, h3, h4, h5⟩ := h
  exact ⟨s', h1, h2, h3, h4, by omega⟩

theorem fut_nil {s s' : St} (h : s'.fut <:+ s.fut) (h0 : s.fut = []) : s'.fut = [] := by
  rw [h0] at h; exact List.suffix_nil.1 h

theorem waitGo_goes (n : Nat) (v : Ver) : ∀ (fut : List Bytes) (buf : Bytes), n ≤ (buf ++ fut.flatten).length →
    ∃ s', waitGo n v fut buf = .ok () s' ∧ s'.all = buf ++ fut.flatten ∧ s'.ver = v ∧ s'.fut <:+ fut ∧ n ≤ s'.buf.length
  | fut, buf, h => by
    rw [waitGo.eq_def]
    simp only
    by_cases hn : n ≤ buf.length
    · rw [if_pos hn]
      exact ⟨_, rfl, rfl, rfl, List.suffix_refl _, hn⟩
    · rw [if_neg hn]
      cases fut with
      | nil => simp at h; omega
      | cons p fut =>
        simp only
        obtain ⟨s', h1, h2, h3, h4, h5⟩ := waitGo_goes n v fut (buf ++ p) (by simpa using h)
        exact ⟨s', h1, by simpa using h2, h3, h4.trans (List.suffix_cons p fut), h5⟩

theorem fill_goes {s : St} {n : Nat} {framed : Bool} (hf : framed = true → s.fut = []) (h : n ≤ s.all.length) :
    Goes (fill n framed) s () s.all s.ver n := by
  unfold fill
  cases framed with
  | true =>
    have := all_nil (hf rfl)
    exact ⟨s, rfl, rfl, rfl, List.suffix_refl _, by rw [← this]; exact h⟩
  | false => exact waitGo_goes n s.ver s.fut s.buf h

theorem take_prefix {buf tl t rest : Bytes} (h : buf ++ tl = t ++ rest) (hk : buf.length < t.length) : buf = t.take buf.length := by
  have := congrArg (List.take buf.length) h
  rw [List.take_left, List.take_append_of_le_length (by omega)] at this
  exact this

theorem split_prefix {buf tl t rest : Bytes} (h : buf ++ tl = t ++ rest) (hk : t.length ≤ buf.length) : ∃ r, buf = t ++ r ∧ rest = r ++ tl := by
  have h1 := congrArg (List.take t.length) h
  rw [List.take_left, List.take_append_of_le_length hk] at h1
  have h2 : buf = t ++ buf.drop t.length := by
    conv => lhs; rw [← List.take_append_drop t.length buf, h1]
  refine ⟨_, h2, ?_⟩
  rw [h2, List.append_assoc] at h
  exact (List.append_cancel_left h).symm

/-- A reader that asks for more on every prefix finds what it looks for however the bytes arrive. -/
theorem extractGo_goes {α : Type} {rd : Bytes → Got α} {t : Bytes} {a : α} {used : Nat} (hu : used ≤ t.length)
    (hfull : ∀ r, AllLt 256 r → rd (t ++ r) = ⟨.ok a, used⟩) (hpre : ∀ k < t.length, rd (t.take k) = ⟨.error .shortage, 0⟩) (abort : Bool) (v : Ver)
    (rest : Bytes) (hr : AllLt 256 rest) : ∀ (fut : List Bytes) (buf : Bytes), buf ++ fut.flatten = t ++ rest → (abort = true → fut = []) →
    ∃ s', extractGo rd abort v fut buf = .ok a s' ∧ s'.all = t.drop used ++ rest ∧ s'.ver = v ∧ s'.fut <:+ fut ∧ t.length - used ≤ s'.buf.length
  | fut, buf, h, hab => by
    by_cases hk : t.length ≤ buf.length
    · obtain ⟨r, h1, h2⟩ := split_prefix h hk
      have hr' : AllLt 256 r := by rw [h2] at hr; exact ((allLt_append _ _ _).1 hr).1
      subst h1
      rw [extractGo_ok abort v fut (hfull r hr')]
      refine ⟨_, rfl, ?_, rfl, List.suffix_refl _, ?_⟩
      · simp only [St.all]
        rw [List.drop_append_of_le_length hu, List.append_assoc, ← h2]
      · simp only [List.length_drop, List.length_append]; omega
    · have hlt : buf.length < t.length := by omega
      have hb := take_prefix h hlt
      have hrd : rd buf = ⟨.error .shortage, 0⟩ := by rw [hb]; exact hpre _ hlt
      cases fut with
      | nil =>
        have := congrArg List.length h
        simp at this
        omega
      | cons p fut =>
        have hab' : abort = false := by
          cases abort with
          | false => rfl
          | true => exact absurd (hab rfl) (by simp)
        rw [extractGo.eq_def]
        simp only [hrd, hab', and_self, if_true, List.drop_zero]
        obtain ⟨s', g1, g2, g3, g4, g5⟩ := extractGo_goes hu hfull hpre false v rest hr fut (buf ++ p) (by simpa using h) (by simp)
        exact ⟨s', g1, g2, g3, g4.trans (List.suffix_cons p fut), g5⟩

/-- A counter at the front. -/
structure Front (v : Ver) (bin : Bool) (c : Counter) (t : Bytes) : Prop where
  good : GoodCtr v c
  text : writeCtr v bin c = .ok t

theorem Front.facts {v : Ver} {bin : Bool} {c : Counter} {t : Bytes} (h : Front v bin c t) :
    (∀ rest, AllLt 256 rest → peekCtr v (coldOf bin) (t ++ rest) = ⟨.ok c, 0⟩) ∧ ctrSize v (coldOf bin) c = t.length ∧ Piece bin t ∧ t ≠ [] ∧
      (∀ rest, sniff (t ++ rest) = .ok (coldOf bin)) ∧ (∀ k < t.length, peekCtr v (coldOf bin) (t.take k) = ⟨.error .shortage, 0⟩) := by
  obtain ⟨t', t1, t2, t3, t4, t5, t6, t7⟩ := ctr_frames h.good bin
  rw [h.text] at t1
  injection t1 with t1
  subst t1
  exact ⟨t2, t3, t4, t5, t6, t7⟩

theorem peek_goes {v : Ver} {bin : Bool} {c : Counter} {t rest : Bytes} {s : St} (h : Front v bin c t) (abort : Bool) (hv : s.ver = v)
    (ha : s.all = t ++ rest) (hr : AllLt 256 rest) (hab : abort = true → s.fut = []) : Goes (peek (coldOf bin) abort) s c (t ++ rest) v t.length := by
  obtain ⟨f1, f2, f3, f4, f5, f6⟩ := h.facts
  obtain ⟨s', g1, g2, g3, g4, g5⟩ := extractGo_goes (Nat.zero_le _) f1 f6 abort v rest hr s.fut s.buf ha hab
  refine ⟨s', ?_, by simpa using g2, g3, g4, by simpa using g5⟩
  show extractGo (peekCtr s.ver (coldOf bin)) abort s.ver s.fut s.buf = _
  rw [hv]; exact g1

theorem sniff_head {a b : Bytes} (ha : a ≠ []) : sniff (a ++ b) = sniff a := by
  cases a with
  | nil => exact absurd rfl ha
  | cons x a => rfl

theorem sniffP_goes {s : St} {cold : Cold} (hb : 1 ≤ s.buf.length) (h : sniff s.all = .ok cold) : Goes sniffP s cold s.all s.ver s.buf.length := by
  have h0 : s.buf ≠ [] := by intro h; rw [h] at hb; simp at hb
  rw [St.all, sniff_head h0] at h
  exact ⟨s, by simp [sniffP, h], rfl, rfl, List.suffix_refl _, Nat.le_refl _⟩

theorem del_goes {s : St} {t rest : Bytes} (ha : s.all = t ++ rest) (hb : t.length ≤ s.buf.length) : Goes (del t.length) s () rest s.ver (s.buf.length - t.length) := by
  obtain ⟨r, h1, h2⟩ := split_prefix ha hb
  refine ⟨_, rfl, ?_, rfl, List.suffix_refl _, by simp⟩
  simp only [St.all, h1, List.drop_left, h2]

theorem delCtr_goes {v : Ver} {bin : Bool} {c : Counter} {t rest : Bytes} {s : St} (h : Front v bin c t) (hv : s.ver = v) (ha : s.all = t ++ rest)
    (hb : t.length ≤ s.buf.length) : Goes (delCtr (coldOf bin) c) s () rest v (s.buf.length - t.length) := by
  have : delCtr (coldOf bin) c s = del t.length s := by
    unfold delCtr
    rw [hv, h.facts.2.1]
  obtain ⟨s', g1, g2, g3, g4, g5⟩ := del_goes ha hb
  exact ⟨s', by rw [this]; exact g1, g2, by rw [← hv]; exact g3, g4, g5⟩

theorem takeBuf_goes {s : St} {t rest : Bytes} (ha : s.all = t ++ rest) (hb : t.length ≤ s.buf.length) : Goes (takeBuf t.length) s t rest s.ver 0 := by
  obtain ⟨r, h1, h2⟩ := split_prefix ha hb
  refine ⟨{ s with buf := r }, ?_, ?_, rfl, List.suffix_refl _, Nat.zero_le _⟩
  · simp [takeBuf, h1]
  · simp only [St.all, h2]

theorem onCopy_goes {α : Type} {b : Bytes} {act : P α} {s s' : St} {a : α} (h : act ⟨b, [], s.ver⟩ = .ok a s') :
    Goes (onCopy b act) s a s.all s'.ver 0 := ⟨{ s with ver := s'.ver }, by simp [onCopy, h], rfl, rfl, List.suffix_refl _, Nat.zero_le _⟩

theorem sizedWhen_ok {α : Type} {c : Bool} {act : P α} {s s' : St} {a : α} (h : act s = .ok a s') : sizedWhen c act s = .ok a s' := by
  simp [sizedWhen, h]

theorem restoring_ok {α : Type} {v : Ver} {act : P α} {s s' : St} {a : α} (h : act s = .ok a s') : restoring v act s = .ok a { s' with ver := v } := by
  simp [restoring, h]

/-! ## Bodies with a version string -/

/-- Serialized body whose version string tells its size, of a version the stream supports. -/
structure GoodBody {β : Type} (L : Loader β) (v : Ver) (b : Bytes) (x : β) : Prop where
  lt : AllLt 256 b
  len : 27 ≤ b.length
  msg : sniff b = .ok .msg
  smells : ∃ m, smell b = .ok m ∧ m.size = b.length ∧ compatible v m = .ok () ∧ L.load m b = .ok x

theorem GoodBody.ne {β : Type} {L : Loader β} {v : Ver} {b : Bytes} {x : β} (h : GoodBody L v b x) : b ≠ [] := by
  have := h.len
  intro h0; rw [h0] at this; simp at this

theorem smell_short {b : Bytes} (h : b.length < 27) : smell b = .error .shortage := by
  unfold smell
  rw [if_pos h]

theorem reap_goes {β : Type} {L : Loader β} {v : Ver} {b rest : Bytes} {x : β} {s : St} (h : GoodBody L v b x) (abort : Bool) (hv : s.ver = v)
    (ha : s.all = b ++ rest) (hr : AllLt 256 rest) (hab : abort = true → s.fut = []) : Goes (extractor (reap L) abort) s x rest v 0 := by
  obtain ⟨m, m1, m2, m3, m4⟩ := h.smells
  have hfull : ∀ r, AllLt 256 r → reap L v (b ++ r) = ⟨.ok x, b.length⟩ := by
    intro r _
    have hsm : smell (b ++ r) = .ok m := by rw [smell_append b r h.len]; exact m1
    simp only [reap, hsm, m3]
    rw [if_neg (by rw [List.length_append]; omega), m2, List.take_left, m4]
  have hpre : ∀ k < b.length, reap L v (b.take k) = ⟨.error .shortage, 0⟩ := by
    intro k hk
    by_cases h27 : k < 27
    · have : smell (b.take k) = .error .shortage := smell_short (by rw [List.length_take]; omega)
      simp only [reap, this]
    · have hsm : smell (b.take k) = .ok m := by
        have := smell_append (b.take k) (b.drop k) (by rw [List.length_take]; omega)
        rw [List.take_append_drop] at this
        rw [← this]; exact m1
      simp only [reap, hsm, m3]
      rw [if_pos (by rw [List.length_take]; omega)]
  obtain ⟨s', g1, g2, g3, g4, g5⟩ := extractGo_goes (Nat.le_refl _) hfull hpre abort v rest hr s.fut s.buf ha hab
  refine ⟨s', ?_, by simpa using g2, g3, g4, Nat.zero_le _⟩
  show extractGo (reap L s.ver) abort s.ver s.fut s.buf = _
  rw [hv]; exact g1

end Verif.Prs
