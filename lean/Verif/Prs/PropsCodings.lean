import Verif.Prs.PropsStream

/-!
# Attachments in text and in binary (C89)
-/

namespace Verif.Prs

open Verif.Matter (Mat)
open Verif.Idr (Ixr)
open Verif.Ctr (Ver Counter)
open Verif.B64

/-- A group of attachments: the code of its counter and its elements. -/
structure Bunch where
  code : List Char
  elems : List Elem

/-- The group, in text or in binary. -/
def Bunch.write (v : Ver) (bin : Bool) (g : Bunch) : Except Err Bytes :=
  match method v g.code with
  | none => .error .typeError
  | some m => writeGroup v bin g.code m g.elems

/-- What a receiver is to find of it. -/
def Bunch.atts (v : Ver) (g : Bunch) : List (Slot × Elem) :=
  match method v g.code with
  | none => []
  | some m => g.elems.map (fun e => (m.slot, e))

/-- The elements are of the kind the code is for. -/
def Bunch.Good (v : Ver) (bin : Bool) (g : Bunch) : Prop :=
  ∃ m, method v g.code = some m ∧ m.mode ≠ .raw ∧ ∀ e ∈ g.elems, GoodElem v bin m e

/-- The code `AttachmentGroup` (counting.py:71 and 208). -/
def attCode : Ver → List Char
  | .v1 => ['-', 'V']
  | .v2 => ['-', 'C']

theorem bunches_items {β : Type} {v : Ver} {bin : Bool} (sub : P (Exts β)) : ∀ {gs : List Bunch} {b : Bytes}, (∀ g ∈ gs, g.Good v bin) →
    cat (Bunch.write v bin) gs = .ok b → Items v bin sub b (gs.flatMap (Bunch.atts v)) [] ∧ (gs ≠ [] → b ≠ [])
  | [], b, _, h => by
    simp only [cat] at h
    injection h with h
    subst h
    exact ⟨.nil, by simp⟩
  | g :: gs, b, hg, h => by
    unfold cat at h
    split at h
    · exact absurd h (by simp)
    next b1 h1 =>
    split at h
    · exact absurd h (by simp)
    next b2 h2 =>
    injection h with h
    subst h
    obtain ⟨m, m1, m2, m3⟩ := hg g (by simp)
    unfold Bunch.write at h1
    rw [m1] at h1
    obtain ⟨c, t, r, c1, c2, c3, c4, c5, c6⟩ := group_eats m1 m3 (fun h => absurd h m2) h1
    have hi : Item v bin sub (t ++ r) (g.elems.map (fun e => (m.slot, e))) [] := .att c1 c2 c4 c5 c6
    obtain ⟨i1, i2⟩ := bunches_items sub (fun g hg' => hg g (List.mem_cons_of_mem _ hg')) h2
    have := Items.cons hi i1
    rw [c3]
    refine ⟨?_, fun _ => by simp [hi.front.2.1, ← List.append_assoc]⟩
    rw [List.flatMap_cons]
    unfold Bunch.atts
    rw [m1]
    exact this

theorem bunches_group {β : Type} {v : Ver} {bin : Bool} {gs : List Bunch} {a g : Bytes} (hg : ∀ g ∈ gs, g.Good v bin) (h0 : gs ≠ [])
    (ha : cat (Bunch.write v bin) gs = .ok a) (h : enclose v bin (attCode v) a = .ok g) (sub : P (Exts β)) :
    AttGroup v bin sub g (gs.flatMap (Bunch.atts v)) [] := by
  obtain ⟨i1, i2⟩ := bunches_items sub hg ha
  obtain ⟨c, t, h1, h2, h3, h4, h5⟩ := enclose_ok h
  refine ⟨c, t, v, [], a, ⟨h5, h2⟩, ?_, .same, i1, i2 h0, h4, h3⟩
  rcases make_code h1 with h | ⟨_, x, y, tl, h6, h7⟩
  · rw [h]; cases v <;> decide
  · rw [h7]
    cases v <;> simp only [attCode, List.cons.injEq] at h6 <;> obtain ⟨_, rfl, _⟩ := h6 <;> decide

/-- **C89.** A body with attachments written in text or in binary, in an attachment group or one after the other, is the same message to the
receiver. -/
theorem c89_text_or_binary {β : Type} (L : Loader β) (v : Ver) (raw : Bytes) (x : β) (gs : List Bunch) (bin framed : Bool) (n : Nat) (a g : Bytes)
    (hb : GoodBody L v raw x) (hg : ∀ g ∈ gs, g.Good v bin) (h0 : gs ≠ []) (ha : cat (Bunch.write v bin) gs = .ok a) (he : enclose v bin (attCode v) a = .ok g) :
    parse L framed (n + 1) ⟨raw ++ g, [], v⟩ = ([.mk x (gs.flatMap (Bunch.atts v)) []], true) ∧
      parse L framed (n + 1) ⟨raw ++ a, [], v⟩ = ([.mk x (gs.flatMap (Bunch.atts v)) []], true) := by
  have s1 : Sent L v true (raw ++ g) (.mk x (gs.flatMap (Bunch.atts v)) []) := fun d _ => .grouped hb fun _ => bunches_group hg h0 ha he _
  have s2 : Sent L v false (raw ++ a) (.mk x (gs.flatMap (Bunch.atts v)) []) := fun d _ =>
    .flat hb (fun _ => (bunches_items _ hg ha).1) ((bunches_items (β := β) (fail .shortage) hg ha).2 h0)
  constructor
  · have : Stream L false v ([] ++ ((raw ++ g) ++ [])) [.mk x (gs.flatMap (Bunch.atts v)) []] :=
      .cons (bin := true) .same s1 (by simp) (by simp) .nil
    rw [List.nil_append, List.append_nil] at this
    exact parse_stream this n
  · have : Stream L false v ([] ++ ((raw ++ a) ++ [])) [.mk x (gs.flatMap (Bunch.atts v)) []] :=
      .cons (bin := true) .same s2 (by simp) (fun _ => Or.inl rfl) .nil
    rw [List.nil_append, List.append_nil] at this
    exact parse_stream this n

end Verif.Prs
