import Verif.Ann.MsgLemmas
import Verif.Cesr.Demo

/-!
# What annotations keep

Proved for streams in the text domain.  A message of a builder, followed by nothing, is annotated, and taking the annotation apart gives the message back, whatever is
said in the remarks as long as that has no line breaks.  Of any stream that announces an interaction the same holds, if it is written in the alphabet of URL-safe
Base64.  It does not hold of all streams: a threshold is written anew.
-/

namespace Verif.Ann

open Verif.B64 Verif.Matter
open Verif.Mad hiding Env
open Verif.Cesr (Is Env HexOk MsgOk native)

/-! ## Back again -/

theorem turns_message {c : Char} {r : List Char} {ls : List Line} (hc : tritet c = 1 ∨ tritet c = 2) (h : message (c :: r) = .ok ls) (n : Nat) (hn : 2 ≤ n) :
    turns n (c :: r) [] = some (.ok ls) := by
  match n, hn with
  | n + 2, _ => simp only [turns, turn, if_pos hc, h, List.nil_append]

theorem turns_error {c : Char} {r : List Char} {e : Fail} (hc : tritet c = 1 ∨ tritet c = 2) (h : message (c :: r) = .error e) (n : Nat) (hn : 1 ≤ n) :
    turns n (c :: r) [] = some (.error e) := by
  match n, hn with
  | n + 1, _ => simp only [turns, turn, if_pos hc, h]

/-- **C221** (part: messages of the builders, in the text domain, of the five types of key events).  The annotation of a message exists and taking it apart gives the
message.  Missing, as false: the same for every stream that can be annotated. -/
theorem c221_undone_partial {env : Env} (hh : HexOk env) {ilk : List Char} {sad : Flds} {raw : List Char} {w : Words} (hw : Quiet w) (hi : ilk ∈ Cesr.sealIlks)
    (hm : MsgOk env (2, 0) ilk sad) (hc : Classed sad) {gv : Option (Nat × Nat)} (h : native env (2, 0) gv sad = .ok raw) (hb : reb64 raw = true) :
    ∃ t, denot t = raw ∧ ∀ n, 2 ≤ n → annot w n raw = some (.ok t) := by
  obtain ⟨ls, c, r, rfl, hc1, hm, tk⟩ := message_lines hh hi hm hc h []
  rw [List.append_nil] at hm tk
  rw [if_neg (by simp)] at hm
  have htk := tk hb
  refine ⟨render w ls, ?_, fun n hn => ?_⟩
  · rw [denot_render hw (toks_reb (by rw [htk]; exact hb)), htk]
  · simp only [annot, turns_message (.inl hc1) hm n hn]

/-- The type that a stream announces after counter and version. -/
def typeOf (s : List Char) : Option (List Char) :=
  match takeCtr s with
  | .error _ => none
  | .ok (_, r) => match takeMat r with
    | .error _ => none
    | .ok (_, r) => match takeMat r with
      | .error _ => none
      | .ok (m, _) => some m.soft

theorem takeCount_ctr {s q r : List Char} {c : Ctr.Counter} (h : takeCount s = .ok (c, q, r)) : takeCtr s = .ok (c, r) := by
  unfold takeCount at h
  cases hc : takeCtr s with
  | error e => rw [hc] at h; simp at h
  | ok p =>
    obtain ⟨c', r'⟩ := p
    rw [hc] at h
    dsimp only at h
    split at h
    · exact absurd h (by simp)
    · simp only [Except.ok.injEq, Prod.mk.injEq] at h
      obtain ⟨rfl, _, rfl⟩ := h
      rfl

theorem takeTok_mat {ok : Mat → Bool} {s q r : List Char} (h : takeTok ok s = .ok (q, r)) : ∃ m, takeMat s = .ok (m, r) := by
  unfold takeTok at h
  split at h
  · exact absurd h (by simp)
  next m r' e =>
  split at h
  · split at h
    · exact absurd h (by simp)
    · simp only [Except.ok.injEq, Prod.mk.injEq] at h
      obtain ⟨_, rfl⟩ := h
      exact ⟨m, e⟩
  · exact absurd h (by simp)

theorem turns_inv {n : Nat} {c : Char} {r : List Char} {ls : List Line} (h : turns n (c :: r) [] = some (.ok ls)) : message (c :: r) = .ok ls := by
  induction n with
  | zero => simp [turns] at h
  | succ n ih =>
    unfold turns turn at h
    by_cases hc : tritet c = 1 ∨ tritet c = 2
    · simp only [if_pos hc] at h
      cases hm : message (c :: r) with
      | error e => rw [hm] at h; simp at h
      | ok ws =>
        rw [hm] at h
        simp only [List.nil_append] at h
        cases n with
        | zero => simp [turns] at h
        | succ n =>
          simp only [turns, turn, Option.some.injEq, Except.ok.injEq] at h
          rw [h]
    · simp only [if_neg hc] at h
      by_cases h7 : tritet c = 7
      · simp only [if_pos h7] at h; exact ih h
      · simp only [if_neg h7] at h; simp at h

/-- **C221**, for interactions: whatever was annotated comes back as it was. -/
theorem c221_interactions {w : Words} (hw : Quiet w) {n : Nat} {s t : List Char} (hb : reb64 s = true) (hs : typeOf s = some ['i', 'x', 'n'])
    (h : annot w n s = some (.ok t)) : denot t = s := by
  cases s with
  | nil => exact absurd hs (by decide)
  | cons c r =>
    unfold annot at h
    split at h
    · exact absurd h (by simp)
    · exact absurd h (by simp)
    next ls ht =>
    simp only [Option.some.injEq, Except.ok.injEq] at h
    subst h
    have hm := turns_inv ht
    have key : c :: r = toks ls := by
      unfold message at hm
      split at hm
      · exact absurd hm (by simp)
      next ctr cq r1 hcq =>
      have c1 := takeCount_eq hcq
      have hctr : takeCtr (c :: r) = .ok (ctr, r1) := takeCount_ctr hcq
      rw [c1] at hb
      have b1 := reb_right hb
      split at hm
      · exact absurd hm (by simp)
      next vq r2 hvq =>
      have c2 := takeTok_canon b1 hvq
      obtain ⟨vm, hvm⟩ := takeTok_mat hvq
      rw [c2] at b1
      have b2 := reb_right b1
      split at hm
      · exact absurd hm (by simp)
      next m r3 hm3 =>
      obtain ⟨q, hq, c3⟩ := takeMat_canon b2 hm3
      rw [c3] at b2
      have b3 := reb_right b2
      have hty : m.soft = ['i', 'x', 'n'] := by
        simp only [typeOf, hctr, hvm, hm3, Option.some.injEq] at hs
        exact hs
      split at hm
      · exact absurd hm (by simp)
      rw [hq, hty] at hm
      dsimp only at hm
      have hst : steps ['i', 'x', 'n'] = some (frontSteps ++ [(['p'], .prim digDex), (['a'], .seals)]) := by decide
      rw [hst] at hm
      dsimp only at hm
      split at hm
      · exact absurd hm (by simp)
      next ws rest hws =>
      have c4 := steps_canon _ (by decide) b3 hws
      split at hm
      · exact absurd hm (by simp)
      next hr =>
      have hr : rest = [] := Decidable.not_not.mp hr
      subst hr
      simp only [Except.ok.injEq] at hm
      subst hm
      rw [c1, c2, c3, c4]
      simp [toks]
    rw [denot_render hw (toks_reb (by rw [← key]; exact hb)), ← key]

/-! ## The end of the loop -/

/-- **C222** (part: streams that do not start in the binary domain).  The annotation ends, with a text or an exception. -/
theorem c222_ends_partial (w : Words) (s : List Char) (h : ∀ c ∈ s.head?, tritet c ≠ 7) : ∃ r, ∀ n, 2 ≤ n → annot w n s = some r := by
  cases s with
  | nil =>
    refine ⟨.ok [], fun n hn => ?_⟩
    match n, hn with
    | n + 1, _ => rfl
  | cons c r =>
    have h7 : tritet c ≠ 7 := h c (by simp)
    by_cases hc : tritet c = 1 ∨ tritet c = 2
    · cases hm : message (c :: r) with
      | error e => exact ⟨.error e, fun n hn => by simp only [annot, turns_error hc hm n (by omega)]⟩
      | ok ls => exact ⟨.ok (render w ls), fun n hn => by simp only [annot, turns_message hc hm n hn]⟩
    · refine ⟨.error .coldStart, fun n hn => ?_⟩
      match n, hn with
      | n + 1, _ => simp only [annot, turns, turn, if_neg hc, if_neg h7]

/-- **C222**, what is false: of a stream in the binary domain the loop has no end. -/
theorem c222_hangs (w : Words) (c : Char) (r : List Char) (h : tritet c = 7) (n : Nat) : annot w n (c :: r) = none := by
  have : turns n (c :: r) [] = none := by
    induction n with
    | zero => rfl
    | succ n ih => simp only [turns, turn, h]; simpa using ih
  simp only [annot, this]

/-! ## One message, of five types -/

/-- **C223**: a message followed by anything is refused. -/
theorem c223_alone {env : Env} (hh : HexOk env) {ilk : List Char} {sad : Flds} {raw rest : List Char} {w : Words} (hi : ilk ∈ Cesr.sealIlks)
    (hm : MsgOk env (2, 0) ilk sad) (hc : Classed sad) {gv : Option (Nat × Nat)} (h : native env (2, 0) gv sad = .ok raw) (hr : rest ≠ []) (n : Nat) (hn : 1 ≤ n) :
    annot w n (raw ++ rest) = some (.error .extraction) := by
  obtain ⟨ls, c, r, rfl, hc1, hm, _⟩ := message_lines hh hi hm hc h rest
  rw [if_pos hr] at hm
  rw [List.cons_append] at hm ⊢
  simp only [annot, turns_error (.inl hc1) hm n hn]

/-- **C223**: nothing but key events is annotated. -/
theorem c223_types {w : Words} {n : Nat} {s t : List Char} (h : annot w n s = some (.ok t)) : s = [] ∨ ∃ ilk ∈ Cesr.sealIlks, typeOf s = some ilk := by
  cases s with
  | nil => exact .inl rfl
  | cons c r =>
    refine .inr ?_
    unfold annot at h
    split at h
    · exact absurd h (by simp)
    · exact absurd h (by simp)
    next ls ht =>
    have hm := turns_inv ht
    unfold message at hm
    split at hm
    · exact absurd hm (by simp)
    next ctr cq r1 hcq =>
    have hctr : takeCtr (c :: r) = .ok (ctr, r1) := takeCount_ctr hcq
    split at hm
    · exact absurd hm (by simp)
    next vq r2 hvq =>
    obtain ⟨vm, hvm⟩ := takeTok_mat hvq
    split at hm
    · exact absurd hm (by simp)
    next m r3 hm3 =>
    split at hm
    · exact absurd hm (by simp)
    split at hm
    · exact absurd hm (by simp)
    split at hm
    · exact absurd hm (by simp)
    next sts hs =>
    refine ⟨m.soft, ?_, by simp only [typeOf, hctr, hvm, hm3]⟩
    unfold steps at hs
    unfold Cesr.sealIlks
    grind

/-- The second and the third primitive of a stream. -/
def headOf (s : List Char) : Option (Mat × Mat) :=
  match takeCtr s with
  | .error _ => none
  | .ok (_, r) => match takeMat r with
    | .error _ => none
    | .ok (v, r) => match takeMat r with
      | .error _ => none
      | .ok (m, _) => some (v, m)

theorem takeTok_class {ok : Mat → Bool} {s q r : List Char} (h : takeTok ok s = .ok (q, r)) : ∃ m, takeMat s = .ok (m, r) ∧ ok m = true := by
  unfold takeTok at h
  split at h
  · exact absurd h (by simp)
  next m r' e =>
  split at h
  next ho =>
    split at h
    · exact absurd h (by simp)
    · simp only [Except.ok.injEq, Prod.mk.injEq] at h
      obtain ⟨_, rfl⟩ := h
      exact ⟨m, e, ho⟩
  · exact absurd h (by simp)

/-- **C223**: what is annotated has a version after the counter, of the codes `Y` and `0O`, and after it a type of code `X`. -/
theorem c223_classes {w : Words} {n : Nat} {s t : List Char} (hs : s ≠ []) (h : annot w n s = some (.ok t)) :
    ∃ v m, headOf s = some (v, m) ∧ v.code ∈ ([['Y'], ['0', 'O']] : List (List Char)) ∧ m.code = ['X'] := by
  cases s with
  | nil => exact absurd rfl hs
  | cons c r =>
    unfold annot at h
    split at h
    · exact absurd h (by simp)
    · exact absurd h (by simp)
    next ls ht =>
    have hm := turns_inv ht
    unfold message at hm
    split at hm
    · exact absurd hm (by simp)
    next ctr cq r1 hcq =>
    have hctr : takeCtr (c :: r) = .ok (ctr, r1) := takeCount_ctr hcq
    split at hm
    · exact absurd hm (by simp)
    next vq r2 hvq =>
    obtain ⟨vm, hvm, hok⟩ := takeTok_class hvq
    split at hm
    · exact absurd hm (by simp)
    next m r3 hm3 =>
    split at hm
    · exact absurd hm (by simp)
    next hx =>
    refine ⟨vm, m, by simp only [headOf, hctr, hvm, hm3], ?_, Decidable.byContradiction hx⟩
    unfold isVer at hok
    simp only [Bool.and_eq_true, decide_eq_true_eq] at hok
    exact hok.1.1

end Verif.Ann
