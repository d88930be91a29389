import Verif.Prs.PropsGeneric
import Verif.Prs.PropsCodings
import Verif.Prs.DemoStream

/-!
# Examples for generic groups and codings, and what the parser does with streams that are not as they should be
-/

namespace Verif.Prs.DemoGeneric

open Verif.Matter (Mat)
open Verif.Idr (Ixr)
open Verif.Ctr (Ver Counter)
open Verif.B64
open Verif.Prs.DemoStream

theorem sane : L.Sane := by
  refine ⟨?_, ?_⟩
  · intro m x h
    simp [L] at h
  · intro m b h
    simp only [L] at h
    split at h <;> exact absurd h (by simp)

theorem builtN : Built L inner2 nest2 (.mk body2 inner2.atts []) :=
  ⟨madeN, fitN, 0, body2, [], good_body2, .nil, carries fitN _ _⟩

/-- Two messages in a group, that group and another message in a group that begins with its version, in a version 1 stream. -/
def two : Bytes := nest2 ++ (nest2 ++ [])
def group1 : Bytes := (enclose .v2 false ['-', 'A'] two).toOption.getD []
def gvc2 : Counter := ⟨gvcCode, 2 * 4096⟩
def pre2 : Bytes := (writeCtr .v1 false gvc2).toOption.getD []
def body3 : Bytes := group1 ++ (nest2 ++ [])
def group2 : Bytes := (enclose .v1 false ['-', 'T'] (pre2 ++ body3)).toOption.getD []

theorem good_gvc2 : GoodCtr .v1 gvc2 := (made_good (n := 2 * 4096) (code := gvcCode) (by decide +kernel)).1

/-- C90 -/
example : ∃ es', parse L false 1 ⟨group2 ++ (bytes1 ++ []), [], .v1⟩ = (es', true) ∧ es'.length = 4 := by
  obtain ⟨e1, h1⟩ := built1
  have w1 : Wrapped L .v2 two [_, _] := .message builtN rfl (.message builtN rfl (.series .nil))
  have w2 : Wrapped L .v2 body3 ([_, _] ++ [_]) := .plain (bin := false) w1 (by decide +kernel) (by decide +kernel) (.message builtN rfl (.series .nil))
  have w3 : Wrapped L .v1 (group2 ++ (bytes1 ++ [])) _ := .versioned (bin := false) (c := gvc2) (pre := pre2) w2 (by decide +kernel) good_gvc2 rfl (by decide +kernel) (by decide +kernel)
    (.message (a := args1) h1 rfl (.series .nil))
  obtain ⟨es', k1, k2⟩ := c90_generic_transparent L .v1 _ _ false 0 w3
  refine ⟨es', k1, ?_⟩
  cases k2 with | cons _ h4 => cases h4 with | cons _ h4 => cases h4 with | cons _ h4 => cases h4 with | cons _ h4 => cases h4; rfl

/-- C88: nonsense in a group between messages. -/
def nonsense : Bytes := asc "-CABAAAA".toList
def group3 : Bytes := (enclose .v1 false ['-', 'T'] nonsense).toOption.getD []

example : ∃ es1 junk es2, parse L false 2 ⟨(bytes1 ++ []) ++ (group3 ++ (bytes1 ++ [])), [], .v1⟩ = (es1 ++ junk ++ es2, true) ∧ es1.length = 1 ∧ es2.length = 1 := by
  obtain ⟨e1, h1⟩ := built1
  have hs : Series L .v1 [args1] (bytes1 ++ []) [e1] := .cons h1 (Or.inr (by decide)) .nil
  obtain ⟨es1, junk, es2, k1, k2, k3⟩ := c88_failures_stay_inside L sane .v1 [args1] [args1] _ _ nonsense group3 [e1] [e1] false false 0 hs (by decide +kernel) (by decide +kernel)
    (Or.inr (by decide +kernel)) hs
  refine ⟨es1, junk, es2, k1, ?_, ?_⟩
  · cases k2 with | cons _ h4 => cases h4; rfl
  · cases k3 with | cons _ h4 => cases h4; rfl

/-- C89: two signatures and a receipt couple, in binary. -/
def bunches : List Bunch := [⟨['-', 'A'], [sigElem sig0, sigElem sig3]⟩, ⟨['-', 'C'], [cigElem (key0, cig0)]⟩]
def binAtts : Bytes := (cat (Bunch.write .v1 true) bunches).toOption.getD []
def binGroup : Bytes := (enclose .v1 true ['-', 'V'] binAtts).toOption.getD []

theorem good_bunches (bin : Bool) : ∀ g ∈ bunches, g.Good .v1 bin := by
  intro g hg
  simp [bunches] at hg
  rcases hg with rfl | rfl
  · refine ⟨⟨.sigers, [], .one, .counted⟩, by decide +kernel, by simp, ?_⟩
    intro e he
    simp at he
    rcases he with rfl | rfl
    · exact ⟨.nil, ⟨by intro s hs; simp [sigElem] at hs; subst hs; exact good_sig0, rfl⟩, rfl⟩
    · exact ⟨.nil, ⟨by intro s hs; simp [sigElem] at hs; subst hs; exact good_sig3, rfl⟩, rfl⟩
  · refine ⟨⟨.cigars, [.verfer, .cigar], .none, .counted⟩, by decide +kernel, by simp, ?_⟩
    intro e he
    simp at he
    subst he
    exact ⟨.cons ⟨good_key0, by decide +kernel⟩ (.cons ⟨good_cig0, by decide +kernel⟩ .nil), ⟨by intro s hs; simp [cigElem] at hs, rfl⟩, rfl⟩

example : parse L true 1 ⟨body1 ++ binGroup, [], .v1⟩ = ([.mk body1 (bunches.flatMap (Bunch.atts .v1)) []], true) :=
  (c89_text_or_binary L .v1 body1 body1 bunches true true 0 binAtts binGroup (good_body1 _) (good_bunches _) (by simp [bunches]) (by decide +kernel) (by decide +kernel)).1

/-! ## What the code does with other streams -/

/-- The bodies of the messages, and whether the parser ends. -/
def seen (r : List (Exts Bytes) × Bool) : List (Bytes × Nat) × Bool := (r.1.map (fun e => (e.body, e.atts.length)), r.2)

/-- A counter with a count that is no number: `parse` never ends (it catches the KeyError and tries again, parsing.py:552-556). -/
def livelock : Bytes := asc "-A!!".toList

theorem c88_livelock (n : Nat) : parse L true n ⟨livelock, [], .v2⟩ = ([], false) := by
  induction n with
  | zero => rfl
  | succ n ih =>
    have h1 : (groupAll L true ⟨livelock, [], .v2⟩).exit = .other ∧ (groupAll L true ⟨livelock, [], .v2⟩).st = ⟨livelock, [], .v2⟩ ∧
        (groupAll L true ⟨livelock, [], .v2⟩).out.length = 0 := by
      refine ⟨?_, ?_, ?_⟩ <;> decide +kernel
    have h2 := List.length_eq_zero_iff.1 h1.2.2
    unfold parse
    have h3 : after (groupAll L true ⟨livelock, [], .v2⟩) = ⟨livelock, [], .v2⟩ := by
      unfold after
      rw [h1.1, h1.2.1]
      rfl
    rw [if_neg (show (St.buf ⟨livelock, [], .v2⟩) ≠ [] by decide)]
    simp only [h1.1, h3, h2, ih]
    rfl

/-- Without a generic group a bad attachment takes the rest of the stream with it, although its size is known. -/
def badAtt : Bytes := body1 ++ asc "-VABAAAA".toList

theorem c88_flush : seen (parse L true 5 ⟨bytes1, [], .v1⟩) = ([(body1, 11)], true) ∧ seen (parse L true 5 ⟨badAtt ++ bytes1, [], .v1⟩) = ([], true) := by
  refine ⟨?_, ?_⟩ <;> decide +kernel

/-- A message without attachments at the end of a framed stream is dropped. -/
theorem c85_bare_dropped : seen (parse L true 5 ⟨body1, [], .v1⟩) = ([], true) ∧ seen (parse L true 5 ⟨body1 ++ body1 ++ bytes1, [], .v1⟩) =
    ([(body1, 0), (body1, 0), (body1, 11)], true) := by
  refine ⟨?_, ?_⟩ <;> decide +kernel

/-- A framed stream that was cut inside of an attachment group, between two attachments, is taken for a complete message with fewer
attachments. -/
theorem c86_truncated : ∃ k, k < bytes1.length ∧ seen (parse L true 5 ⟨bytes1.take k, [], .v1⟩) = ([(body1, 2)], true) :=
  ⟨body1.length + 4 + 4 + 176, by decide +kernel, by decide +kernel⟩

/-- A second attachment group is skipped without a word. -/
def textAtts : Bytes := (cat (Bunch.write .v1 false) bunches).toOption.getD []
def textGroup : Bytes := (enclose .v1 false ['-', 'V'] textAtts).toOption.getD []
def flatSigs : Bytes := (Bunch.write .v1 false ⟨['-', 'A'], [sigElem sig0]⟩).toOption.getD []

theorem c85_second_group : seen (parse L true 5 ⟨body1 ++ (flatSigs ++ textGroup), [], .v1⟩) = ([(body1, 1)], true) := by decide +kernel

/-- After a generic group the stream is taken as framed: a message that has only arrived in part is lost, though the stream is not framed. -/
theorem c87_after_group : (parsator L false 5 ⟨group1 ++ nest2.take 100, [nest2.drop 100], .v2⟩).length = 2 ∧
    (parsator L false 5 ⟨nest2 ++ nest2.take 100, [nest2.drop 100], .v2⟩).length = 2 ∧ (parsator L false 5 ⟨group1 ++ nest2, [], .v2⟩).length = 3 := by
  refine ⟨?_, ?_, ?_⟩ <;> decide +kernel

end Verif.Prs.DemoGeneric
