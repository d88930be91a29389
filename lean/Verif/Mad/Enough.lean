import Verif.Mad.GroupLemmas

/-! # The bound on the work is never reached -/

namespace Verif.Mad

open Verif.B64 Verif.Matter

theorem takeMat_shorter {s r : List Char} {m : Mat} (h : takeMat s = .ok (m, r)) : r.length < s.length := by
  unfold takeMat at h
  split at h
  · exact absurd h (by simp)
  next m' hx =>
  split at h
  · exact absurd h (by simp)
  next n hn =>
  simp only [Except.ok.injEq, Prod.mk.injEq] at h
  obtain ⟨rfl, rfl⟩ := h
  obtain ⟨n', sz, mat, r, c⟩ := (exfil_ok_iff s m').1 hx
  have hfs := fullSize_valid c.size c.framed
  rw [hn] at hfs
  injection hfs with hfs
  have hbl := both_length (wf_of_sizes c.size) c.softLen
  have hcl := c.len
  have hw := wf_of_sizes c.size
  have hsp : s.length > 0 := by
    cases s with
    | nil => simp [exfil] at hx
    | cons _ _ => simp
  have hn0 : 0 < n := by
    have := (framed_facts hw c.framed).2.2.2.1
    omega
  simp only [List.length_drop]
  omega

theorem takeCtr_shorter {s r : List Char} {c : Ctr.Counter} (h : takeCtr s = .ok (c, r)) : r.length + 2 ≤ s.length := by
  unfold takeCtr at h
  split at h
  · exact absurd h (by simp)
  next m hx =>
  split at h
  · exact absurd h (by simp)
  next n hn =>
  simp only [Except.ok.injEq, Prod.mk.injEq] at h
  obtain ⟨rfl, rfl⟩ := h
  obtain ⟨sz, rest, hv, e⟩ := (Ctr.exfil_ok_iff .v2 s m).1 hx
  have hl := hv.len
  unfold Ctr.fullSize at hn
  rw [hv.size] at hn
  injection hn with hn
  have h8 : ∀ e ∈ Ctr.sizes .v2, 2 ≤ e.2.fs := by decide +kernel
  have := h8 _ (Matter.mem_of_lookup hv.size)
  simp only at this
  have : s.length = sz.fs + rest.length := by rw [e, List.length_append, hl]
  simp only [List.length_drop]
  omega

theorem takeLabel_shorter {env : Env} {strict : Bool} {s l r : List Char} (h : takeLabel env strict s = .ok (l, r)) : r.length < s.length := by
  unfold takeLabel takeLabeler at h
  cases hm : takeMat s with
  | error e => simp [hm] at h
  | ok p =>
    obtain ⟨m, r'⟩ := p
    simp only [hm] at h
    split at h
    · exact absurd h (by simp)
    next m2 r2 h2 =>
    split at h2
    · simp only [Except.ok.injEq, Prod.mk.injEq] at h2
      split at h
      · exact absurd h (by simp)
      · simp only [Except.ok.injEq, Prod.mk.injEq] at h
        have := takeMat_shorter hm
        rw [← h.2, ← h2.2]
        exact this
    · exact absurd h2 (by simp)

theorem deserPrim_shorter {env : Env} {s r : List Char} {v : Val} (h : deserPrim env s = .ok (v, r)) : r.length < s.length := by
  unfold deserPrim at h
  cases hm : takeMat s with
  | error e => simp [hm] at h
  | ok p =>
    obtain ⟨m, r'⟩ := p
    have := takeMat_shorter hm
    simp only [hm] at h
    split at h
    · cases hm2 : takeMat r' with
      | error e => simp [hm2] at h
      | ok p2 =>
        obtain ⟨m2, r2⟩ := p2
        have := takeMat_shorter hm2
        simp only [hm2] at h
        split at h
        · exact absurd h (by simp)
        · simp only [Except.ok.injEq, Prod.mk.injEq] at h
          rw [← h.2]; omega
    · repeat' split at h
      all_goals first
        | (simp only [Except.ok.injEq, Prod.mk.injEq] at h; rw [← h.2]; omega)
        | (simp at h; done)

theorem deser_shorter {env : Env} {strict : Bool} {n : Nat} {s r : List Char} {v : Val} (h : deser env strict n s = .ok (v, r)) : r.length < s.length := by
  cases n with
  | zero => simp [deser] at h
  | succ n =>
    cases s with
    | nil => simp [deser] at h
    | cons c0 r0 =>
      simp only [deser] at h
      split at h
      · cases hc : takeCtr (c0 :: r0) with
        | error e => simp [hc] at h
        | ok p =>
          obtain ⟨c, r'⟩ := p
          have := takeCtr_shorter hc
          simp only [hc] at h
          repeat' split at h
          all_goals first
            | (simp only [Except.ok.injEq, Prod.mk.injEq] at h; rw [← h.2, List.length_drop]; omega)
            | (simp at h; done)
      · exact deserPrim_shorter h

/-- With enough to work with, more makes no difference. -/
theorem enough (env : Env) (strict : Bool) : ∀ n,
    (∀ s : List Char, s.length ≤ n → 1 ≤ n → ∀ k, deser env strict (n + k) s = deser env strict n s) ∧
    (∀ s : List Char, s.length + 1 ≤ n → ∀ k, deserVals env strict (n + k) s = deserVals env strict n s) ∧
    (∀ s : List Char, s.length + 1 ≤ n → ∀ k, deserFlds env strict (n + k) s = deserFlds env strict n s) := by
  intro n
  induction n with
  | zero => exact ⟨fun _ _ h => absurd h (by omega), fun _ h => absurd h (by omega), fun _ h => absurd h (by omega)⟩
  | succ n ih =>
    obtain ⟨i1, i2, i3⟩ := ih
    refine ⟨fun s hs _ k => ?_, fun s hs k => ?_, fun s hs k => ?_⟩ <;> rw [Nat.add_right_comm]
    · cases s with
      | nil => simp [deser]
      | cons c0 r0 =>
        simp only [deser]
        split
        · cases hc : takeCtr (c0 :: r0) with
          | error e => rfl
          | ok p =>
            obtain ⟨c, r⟩ := p
            have := takeCtr_shorter hc
            have hl : (r.take (Ctr.byteCountText c)).length + 1 ≤ n := by rw [List.length_take]; omega
            simp only [i2 _ hl k, i3 _ hl k]
        · rfl
    · cases s with
      | nil => simp [deserVals]
      | cons c0 r0 =>
        simp only [List.length_cons] at hs
        simp only [deserVals]
        rw [i1 (c0 :: r0) (by simp; omega) (by omega) k]
        cases hd : deser env strict n (c0 :: r0) with
        | error e => rfl
        | ok p =>
          obtain ⟨v, r⟩ := p
          have := deser_shorter hd
          simp only [List.length_cons] at this
          simp only [i2 r (by omega) k]
    · cases s with
      | nil => simp [deserFlds]
      | cons c0 r0 =>
        simp only [List.length_cons] at hs
        simp only [deserFlds]
        cases hl : takeLabel env strict (c0 :: r0) with
        | error e => rfl
        | ok p =>
          obtain ⟨l, r1⟩ := p
          have h1 := takeLabel_shorter hl
          simp only [List.length_cons] at h1
          simp only
          rw [i1 r1 (by omega) (by omega) k]
          cases hd : deser env strict n r1 with
          | error e => rfl
          | ok p =>
            obtain ⟨v, r⟩ := p
            have := deser_shorter hd
            simp only [i3 r (by omega) k]

end Verif.Mad
