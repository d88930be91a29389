import Verif.Ann.Lemmas

/-! # Lines are taken apart again -/

namespace Verif.Ann

open Verif.B64

theorem dropWhile_stop {p : Char → Bool} (a : List Char) {c : Char} (z : List Char) (h : p c = false) : (a ++ c :: z).dropWhile p = a.dropWhile p ++ c :: z := by
  induction a with
  | nil => simp [List.dropWhile_cons, h]
  | cons x a ih =>
    rw [List.cons_append, List.dropWhile_cons, List.dropWhile_cons]
    split
    · exact ih
    · rfl

theorem dropWhile_none {p : Char → Bool} (a : List Char) (h : ∀ c ∈ a, p c = false) : a.dropWhile p = a := by
  cases a with
  | nil => rfl
  | cons x a => rw [List.dropWhile_cons, h x (by simp)]; rfl

theorem dropWhile_spaces (k : Nat) (a : List Char) : (List.replicate k ' ' ++ a).dropWhile isBlank = a.dropWhile isBlank := by
  induction k with
  | zero => rfl
  | succ k ih =>
    rw [List.replicate_succ, List.cons_append, List.dropWhile_cons, if_pos (by decide)]
    exact ih

theorem rstrip_hash (a z : List Char) : rstrip (a ++ '#' :: z) = a ++ '#' :: rstrip z := by
  unfold rstrip
  rw [List.reverse_append, List.reverse_cons, List.append_assoc, List.singleton_append, dropWhile_stop _ _ (by decide)]
  simp

theorem takeWhile_hash (a z : List Char) (h : '#' ∉ a) : (a ++ '#' :: z).takeWhile (· ≠ '#') = a := by
  induction a with
  | nil => simp [List.takeWhile_cons]
  | cons x a ih =>
    simp only [List.mem_cons, not_or] at h
    rw [List.cons_append, List.takeWhile_cons, if_pos (by simpa using fun e => h.1 e.symm), ih h.2]

theorem rstrip_spaces (a : List Char) (k : Nat) (h : ∀ c ∈ a, isBlank c = false) : rstrip (a ++ List.replicate k ' ') = a := by
  unfold rstrip
  rw [List.reverse_append, List.reverse_replicate, dropWhile_spaces, dropWhile_none _ (by intro c hc; exact h c (by simpa using hc)), List.reverse_reverse]

/-- Characters of Base64 are no breaks, no blanks and not `#`. -/
theorem b64_plain {s : List Char} (h : reb64 s = true) : ∀ c ∈ s, isBlank c = false ∧ isBreak c = false ∧ c ≠ '#' := by
  have key : ∀ c ∈ alphabet, isBlank c = false ∧ isBreak c = false ∧ c ≠ '#' := by decide +kernel
  intro c hc
  unfold reb64 at h
  have := List.all_eq_true.1 h c hc
  exact key c (Ctr.mem_alphabet this)

/-- What stands before the `#`. -/
theorem frontOf_line (k j : Nat) (tok z : List Char) (h : ∀ c ∈ tok, isBlank c = false ∧ isBreak c = false ∧ c ≠ '#') :
    frontOf (List.replicate k ' ' ++ tok ++ List.replicate j ' ' ++ '#' :: z) = tok := by
  have hb : ∀ c ∈ tok, isBlank c = false := fun c hc => (h c hc).1
  have key : ∀ pre, pre = tok ++ List.replicate j ' ' → (pre.dropWhile isBlank = tok ++ List.replicate j ' ' ∨ tok = [] ∧ pre.dropWhile isBlank = []) := by
    intro pre hp
    subst hp
    cases tok with
    | nil =>
      right
      refine ⟨rfl, ?_⟩
      have := dropWhile_spaces j []
      simpa using this
    | cons x tok =>
      left
      rw [List.cons_append, List.dropWhile_cons, hb x (by simp)]
      rfl
  have hh : '#' ∉ tok ++ List.replicate j ' ' := by
    intro hm
    rcases List.mem_append.1 hm with hm | hm
    · exact (h _ hm).2.2 rfl
    · exact absurd (List.eq_of_mem_replicate hm) (by decide)
  unfold frontOf strip
  rw [dropWhile_stop _ _ (by decide), rstrip_hash, List.append_assoc, dropWhile_spaces]
  rcases key _ rfl with e | ⟨rfl, e⟩
  · rw [e, takeWhile_hash _ _ hh]
    rw [e, rstrip_spaces _ _ hb]
  · rw [e]
    simp [rstrip]

/-- A list of words without breaks. -/
def Quiet (w : Words) : Prop := ∀ role tok, ∀ c ∈ w role tok, isBreak c = false

theorem splitLines_line (a b : List Char) (h : ∀ c ∈ a, isBreak c = false) : splitLines (a ++ '\n' :: b) = a :: splitLines b := by
  induction a with
  | nil => rw [List.nil_append, splitLines, if_pos (by decide)]
  | cons x a ih =>
    rw [List.cons_append, splitLines, if_neg (by rw [h x (by simp)]; simp), ih (fun c hc => h c (by simp [hc]))]

theorem line_quiet {w : Words} (hw : Quiet w) {l : Line} (hl : ∀ c ∈ l.tok, isBreak c = false) : ∀ c ∈ lineText w l, isBreak c = false := by
  intro c hc
  unfold lineText at hc
  simp only [List.mem_append] at hc
  rcases hc with ((hc | hc) | hc) | hc
  · rw [List.eq_of_mem_replicate hc]; decide
  · exact hl c hc
  · split at hc <;> simp only [List.mem_cons, List.not_mem_nil, or_false] at hc
    · rcases hc with rfl | rfl <;> decide
    · rcases hc with rfl | rfl | rfl <;> decide
  · exact hw _ _ c hc

theorem front_lineText {w : Words} {l : Line} (h : reb64 l.tok = true) : frontOf (lineText w l) = l.tok := by
  have hp := b64_plain h
  unfold lineText
  split
  · have := frontOf_line (l.indent * 2) 0 l.tok (' ' :: w l.role l.tok) hp
    simpa using this
  · have := frontOf_line (l.indent * 2) 1 l.tok (' ' :: w l.role l.tok) hp
    simpa using this

theorem denot_render {w : Words} (hw : Quiet w) : ∀ {ls : List Line}, (∀ l ∈ ls, reb64 l.tok = true) → denot (render w ls) = toks ls
  | [], _ => rfl
  | l :: ls, h => by
    have hl := h l (by simp)
    have ih := denot_render hw (ls := ls) (fun l hm => h l (by simp [hm]))
    unfold denot at ih ⊢
    have e : render w (l :: ls) = lineText w l ++ '\n' :: render w ls := by simp [render]
    rw [e, splitLines_line _ _ (line_quiet hw fun c hc => (b64_plain hl c hc).2.1), List.flatMap_cons, ih, front_lineText hl]
    rfl

theorem toks_reb {ls : List Line} (h : reb64 (toks ls) = true) : ∀ l ∈ ls, reb64 l.tok = true := by
  induction ls with
  | nil => intro l hl; simp at hl
  | cons a ls ih =>
    rw [toks_cons, reb64_append] at h
    simp only [Bool.and_eq_true] at h
    intro l hl
    rcases List.mem_cons.1 hl with rfl | hl
    · exact h.1
    · exact ih h.2 l hl

end Verif.Ann
