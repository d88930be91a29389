import Verif.Ann.Model
import Verif.Cesr.MsgLemmas
import Verif.Codec.PropsMatter

/-! # What is read is what is written in the lines -/

namespace Verif.Ann

open Verif.B64 Verif.Matter Verif.Mad
open Verif.Thold (ofLimen limen)
open Verif.Cesr (Cast kindOfCode verDex traitDex Is IsPrim)

/-- The primitives and counters of the lines, one after the other. -/
def toks (ls : List Line) : List Char := ls.flatMap (·.tok)

theorem toks_cons (l : Line) (ls : List Line) : toks (l :: ls) = l.tok ++ toks ls := rfl
theorem toks_append (a b : List Line) : toks (a ++ b) = toks a ++ toks b := by simp [toks]
theorem toks_nil : toks [] = [] := rfl

theorem reb_take {s : List Char} (h : reb64 s = true) (k : Nat) : reb64 (s.take k) = true := by
  have : reb64 (s.take k ++ s.drop k) = true := by rw [List.take_append_drop]; exact h
  rw [reb64_append] at this
  simp at this
  exact this.1

theorem reb_drop {s : List Char} (h : reb64 s = true) (k : Nat) : reb64 (s.drop k) = true := by
  have : reb64 (s.take k ++ s.drop k) = true := by rw [List.take_append_drop]; exact h
  rw [reb64_append] at this
  simp at this
  exact this.2

theorem reb_left {a b : List Char} (h : reb64 (a ++ b) = true) : reb64 a = true := by
  rw [reb64_append] at h; simp at h; exact h.1

theorem reb_right {a b : List Char} (h : reb64 (a ++ b) = true) : reb64 b = true := by
  rw [reb64_append] at h; simp at h; exact h.2

/-- In the alphabet of URL-safe Base64 a primitive has one spelling. -/
theorem takeMat_canon {s r : List Char} {m : Mat} (hb : reb64 s = true) (h : takeMat s = .ok (m, r)) : ∃ q, infil m = .ok q ∧ s = q ++ r := by
  unfold takeMat at h
  split at h
  · exact absurd h (by simp)
  next m' hx =>
  split at h
  · exact absurd h (by simp)
  next n hn =>
  simp only [Except.ok.injEq, Prod.mk.injEq] at h
  obtain ⟨rfl, rfl⟩ := h
  obtain ⟨n', sz, mat, r', c⟩ := (exfil_ok_iff s m').1 hx
  have hc := c08_canonical_partial s m' n sz hx hn c.size
  have hcan : ∀ t : List Char, reb64 t = true → t.map canonChar = t := by
    intro t ht
    obtain ⟨ds, d1, rfl⟩ := exists_digits ht
    rw [canon_map (allDec_chrs d1), decVals_chrs d1]
  rw [hcan _ (reb_drop (reb_take hb n) _)] at hc
  have hn' := fullSize_valid c.size c.framed
  rw [hn] at hn'
  injection hn' with hn'
  have hle := (framed_facts (wf_of_sizes c.size) c.framed).2.1
  have hcs : sz.cs = sz.hs + sz.ss := rfl
  have htk : s.take (sz.hs + sz.ss) = (s.take n).take (sz.hs + sz.ss) := by
    rw [List.take_take]; congr 1; omega
  rw [htk, List.take_append_drop] at hc
  exact ⟨_, hc, (List.take_append_drop n s).symm⟩

theorem takeTok_canon {ok : Mat → Bool} {s q r : List Char} (hb : reb64 s = true) (h : takeTok ok s = .ok (q, r)) : s = q ++ r := by
  unfold takeTok at h
  split at h
  · exact absurd h (by simp)
  next m r' hm =>
  obtain ⟨q', hq, hs⟩ := takeMat_canon hb hm
  split at h
  · rw [hq] at h
    simp only [Except.ok.injEq, Prod.mk.injEq] at h
    rw [← h.1, ← h.2]
    exact hs
  · exact absurd h (by simp)

theorem takeCount_eq {s q r : List Char} {c : Ctr.Counter} (h : takeCount s = .ok (c, q, r)) : s = q ++ r := by
  unfold takeCount at h
  split at h
  · exact absurd h (by simp)
  next c' r' hc =>
  split at h
  · exact absurd h (by simp)
  next q' hq =>
  simp only [Except.ok.injEq, Prod.mk.injEq] at h
  obtain ⟨rfl, rfl, rfl⟩ := h
  unfold takeCtr at hc
  split at hc
  · exact absurd hc (by simp)
  next c'' hx =>
  split at hc
  · exact absurd hc (by simp)
  next n hn =>
  simp only [Except.ok.injEq, Prod.mk.injEq] at hc
  obtain ⟨rfl, rfl⟩ := hc
  obtain ⟨sz, rest, v, ht⟩ := (Ctr.exfil_ok_iff .v2 s c'').1 hx
  rw [Ctr.infil_valid v] at hq
  injection hq with hq
  have hl := v.len
  have hf : n = sz.fs := by
    unfold Ctr.fullSize at hn
    rw [v.size] at hn
    injection hn with hn
    exact hn.symm
  rw [← hq, ht, hf, ← hl, List.drop_left]

theorem frame_canon {ok : Mat → Bool} {role : List Char} {ind : Nat} (n : Nat) : ∀ {s : List Char} {ls : List Line}, reb64 s = true →
    frameLines ok role ind n s = .ok ls → toks ls = s := by
  induction n with
  | zero => intro s ls _ h; exact absurd h (by simp [frameLines])
  | succ n ih =>
    intro s ls hb h
    cases s with
    | nil => simp only [frameLines, Except.ok.injEq] at h; rw [← h]; rfl
    | cons c s =>
      rw [frameLines] at h
      split at h
      · exact absurd h (by simp)
      next q r hq =>
      have e := takeTok_canon hb hq
      split at h
      · exact absurd h (by simp)
      next ws hw =>
      injection h with h
      rw [e] at hb
      rw [← h, toks_cons, ih (reb_right hb) hw, e]

theorem seal_canon (cs : List Cast) : ∀ {s q r : List Char}, reb64 s = true → takeSeal cs s = .ok (q, r) → s = q ++ r := by
  induction cs with
  | nil => intro s q r _ h; simp only [takeSeal, Except.ok.injEq, Prod.mk.injEq] at h; rw [← h.1, ← h.2]; rfl
  | cons c cs ih =>
    intro s q r hb h
    unfold takeSeal at h
    split at h
    · exact absurd h (by simp)
    next q1 r1 h1 =>
    have e := takeTok_canon hb h1
    split at h
    · exact absurd h (by simp)
    next q2 r2 h2 =>
    simp only [Except.ok.injEq, Prod.mk.injEq] at h
    rw [e] at hb
    have e2 := ih (reb_right hb) h2
    rw [← h.1, ← h.2, e, e2, List.append_assoc]

theorem labels_toks (ind : Nat) (labels : List (List Char)) : toks (labels.map fun l => (⟨ind, [], true, l⟩ : Line)) = [] := by
  induction labels with
  | nil => rfl
  | cons l ls ih => rw [List.map_cons, toks_cons, ih]; rfl

theorem seals_canon {labels : List (List Char)} {cs : List Cast} {ind : Nat} (n : Nat) : ∀ {s : List Char} {ls : List Line}, reb64 s = true →
    sealLines labels cs ind n s = .ok ls → toks ls = s := by
  induction n with
  | zero => intro s ls _ h; exact absurd h (by simp [sealLines])
  | succ n ih =>
    intro s ls hb h
    cases s with
    | nil => simp only [sealLines, Except.ok.injEq] at h; rw [← h]; rfl
    | cons c s =>
      rw [sealLines] at h
      split at h
      · exact absurd h (by simp)
      next q r hq =>
      have e := seal_canon cs hb hq
      split at h
      · exact absurd h (by simp)
      next ws hw =>
      injection h with h
      rw [e] at hb
      rw [← h, List.cons_append, toks_cons, toks_append, labels_toks, ih (reb_right hb) hw, e]
      rfl

theorem groups_canon {ind : Nat} (n : Nat) : ∀ {s : List Char} {ls : List Line}, reb64 s = true → groupLines ind n s = .ok ls → toks ls = s := by
  induction n with
  | zero => intro s ls _ h; exact absurd h (by simp [groupLines])
  | succ n ih =>
    intro s ls hb h
    cases s with
    | nil => simp only [groupLines, Except.ok.injEq] at h; rw [← h]; rfl
    | cons c s =>
      rw [groupLines] at h
      split at h
      · exact absurd h (by simp)
      next ctr q r hq =>
      have e := takeCount_eq hq
      rw [e] at hb
      have hr := reb_right hb
      split at h
      · exact absurd h (by simp)
      next k hk =>
      split at h
      · exact absurd h (by simp)
      next ls1 h1 =>
      split at h
      · exact absurd h (by simp)
      next ls2 h2 =>
      injection h with h
      have t1 := seals_canon _ (reb_take hr _) h1
      have t2 := ih (reb_drop hr _) h2
      rw [← h, List.cons_append, toks_cons, toks_append, t1, t2, List.take_append_drop, e]

theorem list_canon {role : List Char} {ind : Nat} {f : Nat → List Char → Except Err (List Line)} {s r : List Char} {ls : List Line} (hb : reb64 s = true)
    (hf : ∀ n t ws, reb64 t = true → f n t = .ok ws → toks ws = t) (h : listLines role ind f s = .ok (ls, r)) : s = toks ls ++ r := by
  unfold listLines at h
  split at h
  · exact absurd h (by simp)
  next c q r' hq =>
  have e := takeCount_eq hq
  rw [e] at hb
  have hr := reb_right hb
  split at h
  · exact absurd h (by simp)
  next ws hw =>
  simp only [Except.ok.injEq, Prod.mk.injEq] at h
  have t := hf _ _ _ (reb_take hr _) hw
  rw [← h.1, ← h.2, toks_cons, t, List.append_assoc, List.take_append_drop, e]

/-- Whatever is read, other than a threshold, stands in the lines as it is. -/
theorem step_canon {ind : Nat} {role : List Char} {st : Step} {s r : List Char} {ls : List Line} (hst : st ≠ .thold) (hb : reb64 s = true)
    (h : stepLines ind role st s = .ok (ls, r)) : s = toks ls ++ r := by
  cases st with
  | prim codes =>
    simp only [stepLines] at h
    split at h
    · exact absurd h (by simp)
    next q r' hq =>
    simp only [Except.ok.injEq, Prod.mk.injEq] at h
    rw [← h.1, ← h.2, toks_cons, toks_nil, List.append_nil]
    exact takeTok_canon hb hq
  | thold => exact absurd rfl hst
  | list codes => exact list_canon hb (fun n t ws ht hw => frame_canon n ht hw) h
  | traits => exact list_canon hb (fun n t ws ht hw => frame_canon n ht hw) h
  | seals => exact list_canon hb (fun n t ws ht hw => groups_canon n ht hw) h

theorem steps_canon {ind : Nat} (sts : List (List Char × Step)) (hst : ∀ p ∈ sts, p.2 ≠ .thold) : ∀ {s r : List Char} {ls : List Line}, reb64 s = true →
    stepsLines ind sts s = .ok (ls, r) → s = toks ls ++ r := by
  induction sts with
  | nil => intro s r ls _ h; simp only [stepsLines, Except.ok.injEq, Prod.mk.injEq] at h; rw [← h.1, ← h.2]; rfl
  | cons p sts ih =>
    intro s r ls hb h
    obtain ⟨role, st⟩ := p
    rw [stepsLines] at h
    split at h
    · exact absurd h (by simp)
    next ls1 r1 h1 =>
    have e := step_canon (hst (role, st) (by simp)) hb h1
    split at h
    · exact absurd h (by simp)
    next ls2 r2 h2 =>
    simp only [Except.ok.injEq, Prod.mk.injEq] at h
    rw [e] at hb
    have e2 := ih (fun p hp => hst p (by simp [hp])) (reb_right hb) h2
    rw [← h.1, ← h.2, toks_append, e, e2, List.append_assoc]

/-! ## What the builders write is read -/

theorem mat_text {s r : List Char} {m : Mat} (h : takeMat s = .ok (m, r)) : ∃ q, infil m = .ok q := by
  unfold takeMat at h
  split at h
  · exact absurd h (by simp)
  next m' hx =>
  split at h
  · exact absurd h (by simp)
  simp only [Except.ok.injEq, Prod.mk.injEq] at h
  obtain ⟨rfl, _⟩ := h
  obtain ⟨q, hq, _⟩ := exfil_reads hx
  exact ⟨q, hq⟩

theorem count_text {s r : List Char} {c : Ctr.Counter} (h : takeCtr s = .ok (c, r)) : ∃ q, takeCount s = .ok (c, q, r) := by
  have h0 := h
  unfold takeCtr at h
  split at h
  · exact absurd h (by simp)
  next c' hx =>
  split at h
  · exact absurd h (by simp)
  simp only [Except.ok.injEq, Prod.mk.injEq] at h
  obtain ⟨rfl, _⟩ := h
  obtain ⟨sz, rest, v, ht⟩ := (Ctr.exfil_ok_iff .v2 s c').1 hx
  exact ⟨_, by simp only [takeCount, h0, Ctr.infil_valid v]; rfl⟩

theorem tok_is {codes : List (List Char)} {t : List Char} (h : Is codes t) (rest : List Char) : takeTok (hasCode codes) (t ++ rest) = .ok (t, rest) := by
  obtain ⟨m, r, _, hc, _⟩ := Cesr.is_reads h
  simp only [takeTok, r.take, hasCode, hc, decide_true, if_true, r.text]

theorem is_pos {codes : List (List Char)} {t : List Char} (h : Is codes t) : 0 < t.length := by
  obtain ⟨m, r, _⟩ := Cesr.is_reads h
  exact r.pos

theorem frame_is {codes : List (List Char)} {role : List Char} {ind : Nat} {ts : List (List Char)} (h : ∀ t ∈ ts, Is codes t) (n : Nat)
    (hn : ts.flatten.length < n) : ∃ ls, frameLines (hasCode codes) role ind n ts.flatten = .ok ls := by
  induction ts generalizing n with
  | nil =>
    obtain ⟨n, rfl⟩ : ∃ k, n = k + 1 := ⟨n - 1, by simp at hn; omega⟩
    exact ⟨[], rfl⟩
  | cons t ts ih =>
    obtain ⟨n, rfl⟩ : ∃ k, n = k + 1 := ⟨n - 1, by omega⟩
    have hp := is_pos (h t (by simp))
    have ht := tok_is (h t (by simp)) ts.flatten
    rw [List.flatten_cons, List.length_append] at hn
    obtain ⟨ls, hl⟩ := ih (fun t ht => h t (by simp [ht])) n (by omega)
    rw [List.flatten_cons]
    cases t with
    | nil => simp at hp
    | cons c t =>
      rw [List.cons_append] at ht ⊢
      exact ⟨⟨ind, c :: t, false, role⟩ :: ls, by simp only [frameLines, ht, hl]⟩

theorem frame_traits {role : List Char} {ind : Nat} (n : Nat) : ∀ {s : List Char} {vs : List Val}, Cesr.traitsIn n s = .ok vs →
    ∃ ls, frameLines isTrait role ind n s = .ok ls := by
  induction n with
  | zero => intro s vs h; exact absurd h (by simp [Cesr.traitsIn])
  | succ n ih =>
    intro s vs h
    cases s with
    | nil => exact ⟨[], rfl⟩
    | cons c s =>
      rw [Cesr.traitsIn] at h
      split at h
      · exact absurd h (by simp)
      next m r hm =>
      split at h
      · exact absurd h (by simp)
      next hc =>
      split at h
      · exact absurd h (by simp)
      next hs =>
      split at h
      · exact absurd h (by simp)
      next ws hw =>
      obtain ⟨ls, hl⟩ := ih hw
      obtain ⟨q, hq⟩ := mat_text hm
      have hi : isTrait m = true := by
        simp only [Decidable.not_not] at hc hs
        simp [isTrait, hc, hs]
      exact ⟨⟨ind, q, false, role⟩ :: ls, by simp only [frameLines, takeTok, hm, hi, if_true, hq, hl]⟩

theorem cast_reads {c : Cast} {s r : List Char} {v : Val} (h : Cesr.castTake c s = .ok (v, r)) : ∃ q, takeTok (hasCode (castDex c)) s = .ok (q, r) := by
  unfold Cesr.castTake at h
  split at h
  · exact absurd h (by simp)
  next m r' hm =>
  obtain ⟨q, hq⟩ := mat_text hm
  refine ⟨q, ?_⟩
  have hc : m.code ∈ castDex c ∧ r' = r := by
    cases c <;> simp only [hq] at h <;> split at h
    all_goals first
      | (cases h; done)
      | (next hc => simp only [Decidable.not_not] at hc; simp only [Except.ok.injEq, Prod.mk.injEq] at h; exact ⟨hc, h.2⟩)
  simp only [takeTok, hm, hasCode, hc.1, decide_true, if_true, hq, hc.2]

theorem seal_reads (ls : List (List Char)) (cs : List Cast) (hl : ls.length = cs.length) : ∀ {s r : List Char} {fs : Flds}, Cesr.sealTake ls cs s = .ok (fs, r) →
    ∃ q, takeSeal cs s = .ok (q, r) := by
  induction cs generalizing ls with
  | nil =>
    intro s r fs h
    cases ls with
    | nil => simp only [Cesr.sealTake, Except.ok.injEq, Prod.mk.injEq] at h; exact ⟨[], by rw [takeSeal, h.2]⟩
    | cons _ _ => simp at hl
  | cons c cs ih =>
    intro s r fs h
    cases ls with
    | nil => simp at hl
    | cons l ls =>
      rw [Cesr.sealTake] at h
      split at h
      · exact absurd h (by simp)
      next v r1 h1 =>
      split at h
      · exact absurd h (by simp)
      next fs2 r2 h2 =>
      simp only [Except.ok.injEq, Prod.mk.injEq] at h
      obtain ⟨_, rfl⟩ := h
      obtain ⟨q2, e2⟩ := ih ls (by simpa using hl) h2
      obtain ⟨q1, e1⟩ := cast_reads h1
      exact ⟨q1 ++ q2, by simp only [takeSeal, e1, e2]⟩

theorem seals_reads (ls : List (List Char)) (cs : List Cast) (hl : ls.length = cs.length) (ind : Nat) (n : Nat) : ∀ {s : List Char} {vs : List Val},
    Cesr.sealGroup ls cs n s = .ok vs → ∃ out, sealLines ls cs ind n s = .ok out := by
  induction n with
  | zero => intro s vs h; exact absurd h (by simp [Cesr.sealGroup])
  | succ n ih =>
    intro s vs h
    cases s with
    | nil => exact ⟨[], rfl⟩
    | cons c s =>
      rw [Cesr.sealGroup] at h
      split at h
      · exact absurd h (by simp)
      next fs r hm =>
      split at h
      · exact absurd h (by simp)
      next ws hw =>
      obtain ⟨q, hq⟩ := seal_reads ls cs hl hm
      obtain ⟨out, ho⟩ := ih hw
      exact ⟨_, by simp only [sealLines, hq, ho]; rfl⟩

theorem kind_lengths : ∀ k ∈ Cesr.sealKinds, k.2.1.length = k.2.2.length := by decide

theorem groups_read (ind : Nat) (n : Nat) : ∀ {s : List Char} {vs : List Val}, Cesr.sealGroups n s = .ok vs → ∃ out, groupLines ind n s = .ok out := by
  induction n with
  | zero => intro s vs h; exact absurd h (by simp [Cesr.sealGroups])
  | succ n ih =>
    intro s vs h
    cases s with
    | nil => exact ⟨[], rfl⟩
    | cons c s =>
      rw [Cesr.sealGroups] at h
      split at h
      · exact absurd h (by simp)
      next ctr r hm =>
      split at h
      · exact absurd h (by simp)
      next k hk =>
      split at h
      · exact absurd h (by simp)
      next vs1 h1 =>
      split at h
      · exact absurd h (by simp)
      next ws hw =>
      obtain ⟨q, hq⟩ := count_text hm
      have hlen := kind_lengths k (List.mem_of_find?_eq_some hk)
      obtain ⟨o1, e1⟩ := seals_reads _ _ hlen (ind + 1) _ h1
      obtain ⟨o2, e2⟩ := ih hw
      exact ⟨_, by simp only [groupLines, hq, hk, e1, e2]; rfl⟩

theorem list_reads {role : List Char} {ind : Nat} {f : Nat → List Char → Except Err (List Line)} {frame t : List Char} {ws : List Line} (hq : frame.length % 4 = 0)
    (h : Cesr.counted 'J' frame = .ok t) (hf : f (frame.length + 1) frame = .ok ws) (rest : List Char) :
    ∃ ls, listLines role ind f (t ++ rest) = .ok (ls, rest) := by
  rw [Cesr.counted_eq hq] at h
  obtain ⟨c, hd, g⟩ := group_any h
  obtain ⟨q, hq'⟩ := count_text (g.take rest)
  have hcount : c.count * 4 = frame.length := g.count
  exact ⟨_, by simp only [listLines, hq', hcount, List.take_left' rfl, List.drop_left' rfl, hf]; rfl⟩

end Verif.Ann
