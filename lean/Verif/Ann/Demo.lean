import Verif.Ann.Props

/-! # Concrete annotations, and streams that do not come back -/

namespace Verif.Ann.Demo

open Verif.B64 Verif.Matter
open Verif.Mad hiding Env
open Verif.Cesr (Is)
open Verif.Cesr.Demo (s1 s2 s3 env hexOk ok1 ok2 natives based textsB textsB_is isB isB_is rights seals seals_ok seals_small is_dig only)
open Verif.Ser.Demo (dig)

/-- Remarks that name the field. -/
def words : Words := fun role _ => role.filter (fun c => !isBreak c)

theorem quiet : Quiet words := by
  intro role tok c hc
  simp only [words, List.mem_filter, Bool.not_eq_true'] at hc
  exact hc.2

def codesB (codes : List (List Char)) (v : Val) : Bool := textsB (fun t => isB codes (.text t)) v

theorem codesB_is {codes : List (List Char)} {v : Val} (h : codesB codes v = true) : ∃ ts : List (List Char), v = .list (ts.map .text) ∧ ∀ t ∈ ts, Is codes t := by
  obtain ⟨ts, e, ht⟩ := textsB_is h
  refine ⟨ts, e, fun t hm => ?_⟩
  obtain ⟨x, e, hx⟩ := isB_is (ht t hm)
  injection e with e
  rw [e]
  exact hx

def classB (l : List Char) (v : Val) : Bool :=
  if l = ['k'] then codesB keyDex v else if l = ['n'] then codesB digDex v else if l = ['b'] ∨ l = ['b', 'r'] ∨ l = ['b', 'a'] then codesB Ser.preDex v else true

theorem classed_of {sad : Flds} (h : ∀ p ∈ sad, classB p.1 p.2 = true) (ha : ∀ v, (['a'], v) ∈ sad → ∃ es, v = .list es ∧ Cesr.SealsOk es) : Classed sad where
  keys v hv := codesB_is (by have := h _ hv; simpa [classB] using this)
  digests v hv := codesB_is (by have := h _ hv; simpa [classB] using this)
  witnesses l hl v hv := codesB_is (by
    have := h _ hv
    simp only [List.mem_cons, List.not_mem_nil, or_false] at hl
    rcases hl with rfl | rfl | rfl <;> simpa [classB] using this)
  anchors := ha

/-- The inception with weights and the interaction with seals meet the hypotheses of C221 and C223. -/
theorem classed1 : Classed s1.sad := by
  refine classed_of (by decide +kernel) (fun v hv => ?_)
  rw [only rights.1.dict hv (w := .list [.map [(['d'], .text dig)]]) (by decide +kernel)]
  exact ⟨_, rfl, seals_small (by intro e he; simp only [List.mem_singleton] at he; subst he; exact ⟨_, .digest _ is_dig⟩) (by decide +kernel)⟩

theorem classed2 : Classed s2.sad := by
  refine classed_of (by decide +kernel) (fun v hv => ?_)
  rw [only rights.2.1.dict hv (w := .list seals) (by decide +kernel)]
  exact ⟨_, rfl, seals_ok⟩

example : ∃ t, denot t = s1.raw ∧ ∀ n, 2 ≤ n → annot words n s1.raw = some (.ok t) :=
  c221_undone_partial hexOk quiet (by decide) ok1 classed1 natives.1 based.1

example : ∃ t, denot t = s2.raw ∧ ∀ n, 2 ≤ n → annot words n s2.raw = some (.ok t) :=
  c221_undone_partial hexOk quiet (by decide) ok2 classed2 natives.2.1 based.2

example : annot words 5 (s1.raw ++ s2.raw) = some (.error .extraction) :=
  c223_alone hexOk (by decide) ok1 classed1 natives.1 (by decide +kernel) 5 (by decide)

/-- What `annot` and then `denot` make of a stream. -/
def back (s : List Char) : Option (List Char) :=
  match annot words 2 s with
  | some (.ok t) => some (denot t)
  | _ => none

/-- The interaction is one that `c221_interactions` speaks of. -/
example : typeOf s2.raw = some ['i', 'x', 'n'] ∧ (back s2.raw).isSome = true := by decide +kernel

/-- The inception with its next threshold written in a longer code. -/
def longer : List Char := s1.raw.take 264 ++ "RAAAAAAB".toList ++ s1.raw.drop 268

/-- **C221**, what is false: a threshold comes back in the shortest code, whatever its code was, so that not the stream comes back but another. -/
theorem c221_threshold : reb64 longer = true ∧ back longer = some s1.raw ∧ longer ≠ s1.raw := by decide +kernel

/-- The interaction with a prior digest that has a `-`, and with a `+` in its place. -/
def dashed (c : Char) : List Char := s2.raw.take 120 ++ c :: s2.raw.drop 121

/-- **C221**, what is false: in a primitive `+` is read as `-`, and `-` comes back. -/
theorem c221_alphabet : back (dashed '+') = some (dashed '-') ∧ dashed '+' ≠ dashed '-' := by decide +kernel

/-- **C223**: what the counter in front counts is not looked at, nor its code. -/
theorem c223_count : (∃ t, annot words 2 ("-FAA".toList ++ s1.raw.drop 4) = some (.ok t)) ∧ back ("-JAB".toList ++ s1.raw.drop 4) = some ("-JAB".toList ++ s1.raw.drop 4) := by
  have h : back ("-FAA".toList ++ s1.raw.drop 4) = some ("-FAA".toList ++ s1.raw.drop 4) := by decide +kernel
  refine ⟨?_, by decide +kernel⟩
  unfold back at h
  split at h
  · next t ht => exact ⟨t, ht⟩
  · exact absurd h (by simp)

/-- **C223**: a reply in the native form is refused, though it is right. -/
theorem c223_reply : annot words 2 s3.raw = some (.error .ilk) := by decide +kernel

/-- **C222**: a stream that starts with the byte of the counter in the binary domain. -/
example (n : Nat) : annot words n [Char.ofNat 0xf8, 'A'] = none := c222_hangs words _ _ (by decide) n

example : ∃ r, ∀ n, 2 ≤ n → annot words n s3.raw = some r := c222_ends_partial words _ (by decide +kernel)

/-- The inception is one that `c223_classes` speaks of. -/
example : s1.raw ≠ [] ∧ (back s1.raw).isSome = true := by decide +kernel

end Verif.Ann.Demo
