import Verif.Mad.ValLemmas
import Verif.Codec.PropsCounter

/-! # Groups and whole values read back -/

namespace Verif.Mad

open Verif.B64 Verif.Matter

/-- What is known of a group made around `content`. -/
structure Group (x : Char) (t content : List Char) (c : Ctr.Counter) (hd : List Char) : Prop where
  eq : t = hd ++ content
  head : hd.head? = some '-'
  long : 4 ≤ hd.length
  quads : hd.length % 4 = 0
  b64 : reb64 hd = true
  peek : ∀ z, Ctr.exfil .v2 (hd ++ z) = .ok c
  full : Ctr.fullSize .v2 c = .ok hd.length
  count : Ctr.byteCountText c = content.length
  code : c.code = ['-', x] ∨ c.code = ['-', '-', x]

theorem group_any {x : Char} {content t : List Char} (h : Ctr.encloseText .v2 ['-', x] content = .ok t) :
    ∃ c hd, Group x t content c hd := by
  unfold Ctr.encloseText at h
  split at h
  · exact absurd h (by simp)
  next hl =>
  split at h
  · exact absurd h (by simp)
  next m hm =>
  split at h
  · exact absurd h (by simp)
  obtain ⟨tc, t1, t2, t3, t4⟩ := Ctr.c81_text .v2 _ _ m hm
  rw [t1] at h
  simp only at h
  injection h with h
  obtain ⟨sz, hv, _⟩ := Ctr.make_valid hm
  have hcode : m.code = ['-', x] ∨ m.code = ['-', '-', x] := by
    unfold Ctr.make at hm
    rw [if_neg (by simp)] at hm
    split at hm
    · exact absurd hm (by simp)
    next sz' hs' =>
    simp only at hm
    split at hm
    · exact absurd hm (by simp)
    have hp := Ctr.promote_cases ['-', x] sz'.ss ((content.length / 4 : Nat) : Int) (by simp)
    have : m.code = (Ctr.promote ['-', x] sz'.ss ((content.length / 4 : Nat) : Int)).1 := by
      revert hm
      split <;> intro hm
      · exact absurd hm (by simp)
      · injection hm with hm; subst hm; rfl
    rw [this]
    rcases hp with hp | ⟨a, c, tl, e, _, _, _, hp⟩
    · rw [hp]; exact .inl rfl
    · rw [hp]
      simp only [List.cons.injEq] at e
      right
      rw [e.2.1]
  have hlen : tc.length = 4 ∨ tc.length = 8 := by
    rw [t3]
    rcases hcode with e | e <;> rw [e] <;> simp [Ctr.ctrChars]
  obtain ⟨t', b', f1, _, f3, _⟩ := Ctr.forms_bits hv
  rw [t1] at f1
  injection f1 with f1
  subst f1
  refine ⟨m, tc, h.symm, ?_, by omega, by omega, f3, t2, ?_, ?_, hcode⟩
  · have := t2 []
    rw [List.append_nil] at this
    obtain ⟨sz2, rest, hv2, e⟩ := (Ctr.exfil_ok_iff .v2 tc m).1 this
    have hi := Ctr.infil_valid hv2
    rw [e]
    have hne : (Ctr.both sz2 m).head? = some '-' := by
      unfold Ctr.both
      rcases hcode with e | e <;> rw [e] <;> rfl
    rw [List.head?_append, hne]
    rfl
  · unfold Ctr.fullSize; rw [hv.size]; simp only; rw [t3, Ctr.spec_of hv.size]
  · unfold Ctr.byteCountText
    have : m.count = content.length / 4 := by exact_mod_cast t4
    omega

theorem group_reads {x : Char} {content t : List Char} (_ : x = 'I' ∨ x = 'J') (h : Ctr.encloseText .v2 ['-', x] content = .ok t) :
    ∃ c hd, Group x t content c hd := group_any h

theorem Group.take {x : Char} {t content hd : List Char} {c : Ctr.Counter} (g : Group x t content c hd) (z : List Char) :
    takeCtr (t ++ z) = .ok (c, content ++ z) := by
  unfold takeCtr
  rw [g.eq, List.append_assoc, g.peek, ]
  simp only [g.full]
  rw [List.drop_left' rfl]

theorem setField_new (fs : Flds) (l : List Char) (v : Val) (h : l ∉ fs.map (·.1)) : setField fs l v = fs ++ [(l, v)] := by
  induction fs with
  | nil => rfl
  | cons p r ih =>
    obtain ⟨k, w⟩ := p
    simp only [List.map_cons, List.mem_cons, not_or] at h
    simp only [setField]
    rw [if_neg (fun e => h.1 e.symm), ih h.2]
    rfl

theorem dictOf_nodup (fs : Flds) (h : (fs.map (·.1)).Nodup) : dictOf fs = fs := by
  have key : ∀ (fs acc : Flds), ((acc ++ fs).map (·.1)).Nodup → fs.foldl (fun fs p => setField fs p.1 p.2) acc = acc ++ fs := by
    intro fs
    induction fs with
    | nil => simp
    | cons p r ih =>
      intro acc hn
      rw [List.foldl_cons, setField_new, ih]
      · simp
      · simpa using hn
      · rw [List.map_append, List.nodup_append] at hn
        intro hm
        exact hn.2.2 _ hm _ (by simp) rfl
  exact key fs [] (by simpa using h)

/-- What is known of the serialization of a value. -/
structure Back (env : Env) (strict : Bool) (t : List Char) (v : Val) : Prop where
  pos : 0 < t.length
  quads : t.length % 4 = 0
  back : ∀ n rest, t.length ≤ n → deser env strict n (t ++ rest) = .ok (v, rest)

theorem prim_back {env : Env} {strict : Bool} {t : List Char} {v : Val} (h : Prim env t v) : Back env strict t v := by
  refine ⟨h.pos, h.quads, fun n rest hn => ?_⟩
  have hp := h.pos
  have hm := h.notMinus
  have hb := h.back rest
  cases t with
  | nil => simp at hp
  | cons a r =>
    cases n with
    | zero => simp at hn
    | succ n =>
      rw [List.cons_append] at hb ⊢
      simp only [deser]
      rw [if_neg (by intro e; exact hm (by simp [e])), hb]

theorem group_back {env : Env} {strict : Bool} {x : Char} {t content : List Char} {v : Val} (hx : x = 'I' ∨ x = 'J')
    (h : Ctr.encloseText .v2 ['-', x] content = .ok t)
    (hq : content.length % 4 = 0)
    (hb : ∀ n, content.length + 1 ≤ n → (x = 'J' → ∃ vs, v = .list vs ∧ deserVals env strict n content = .ok vs) ∧
      (x = 'I' → ∃ ps, v = .map (dictOf ps) ∧ deserFlds env strict n content = .ok ps)) : Back env strict t v := by
  obtain ⟨c, hd, g⟩ := group_reads hx h
  have gl := g.long
  have gq := g.quads
  have tl : t.length = hd.length + content.length := by rw [g.eq]; simp
  refine ⟨by omega, by omega, fun n rest hn => ?_⟩
  cases n with
  | zero => omega
  | succ n =>
    have hhd := g.head
    have ht := g.take rest
    have h1 : ((content ++ rest).take (Ctr.byteCountText c)) = content := by rw [g.count]; exact List.take_left' rfl
    have h2 : ((content ++ rest).drop (Ctr.byteCountText c)) = rest := by rw [g.count]; exact List.drop_left' rfl
    obtain ⟨a, r, e⟩ : ∃ a r, t ++ rest = a :: r := by
      cases ht : t ++ rest with
      | nil => have := congrArg List.length ht; rw [List.length_append, List.length_nil] at this; omega
      | cons a r => exact ⟨a, r, rfl⟩
    have ha : a = '-' := by
      have : (t ++ rest).head? = some '-' := by rw [g.eq, List.append_assoc, List.head?_append, hhd]; rfl
      rw [e] at this
      simpa using this
    rw [e] at ht ⊢
    obtain ⟨b1, b2⟩ := hb n (by omega)
    simp only [deser]
    rw [if_pos ha, ht]
    simp only [h1, h2]
    rcases hx with rfl | rfl
    · obtain ⟨ps, rfl, e2⟩ := b2 rfl
      have n1 : isListCtr c = false := by unfold isListCtr; rcases g.code with e | e <;> rw [e] <;> decide
      have n2 : isMapCtr c = true := by unfold isMapCtr; rcases g.code with e | e <;> rw [e] <;> decide
      simp only [n1, n2, if_true, e2]
      rfl
    · obtain ⟨vs, rfl, e2⟩ := b1 rfl
      have n1 : isListCtr c = true := by unfold isListCtr; rcases g.code with e | e <;> rw [e] <;> decide
      simp only [n1, if_true, e2]

mutual
theorem serVal_back (env : Env) (strict : Bool) : ∀ (v : Val) (t : List Char), Good env v → serVal strict v = .ok t → Back env strict t v
  | .null, t, _, h => by
    simp only [serVal] at h
    exact prim_back (bare_prim (code := ['1', 'A', 'A', 'K']) (by decide +kernel) h (fun r s e => by simp [deserPrim, e]))
  | .bool true, t, _, h => by
    simp only [serVal] at h
    exact prim_back (bare_prim (code := ['1', 'A', 'A', 'M']) (by decide +kernel) h (fun r s e => by simp [deserPrim, e]))
  | .bool false, t, _, h => by
    simp only [serVal] at h
    exact prim_back (bare_prim (code := ['1', 'A', 'A', 'L']) (by decide +kernel) h (fun r s e => by simp [deserPrim, e]))
  | .num dns, t, g, h => by
    simp only [serVal] at h
    simp only [Good] at g
    exact prim_back (num_prim g h)
  | .text s, t, g, h => by
    simp only [serVal] at h
    simp only [Good] at g
    exact prim_back (serText_prim g.1 g.2 h)
  | .list vs, t, g, h => by
    simp only [serVal] at h
    simp only [Good] at g
    split at h
    · exact absurd h (by simp)
    next b hb =>
    obtain ⟨q, k⟩ := serVals_back env strict vs b g hb
    exact group_back (.inr rfl) h q (fun n hn => ⟨fun _ => ⟨vs, rfl, k n hn⟩, fun e => absurd e (by decide)⟩)
  | .map fs, t, g, h => by
    simp only [serVal] at h
    simp only [Good] at g
    split at h
    · exact absurd h (by simp)
    next b hb =>
    obtain ⟨q, k⟩ := serFlds_back env strict fs b g.2 hb
    exact group_back (.inl rfl) h q (fun n hn => ⟨fun e => absurd e (by decide), fun _ => ⟨fs, by rw [dictOf_nodup _ g.1], k n hn⟩⟩)

theorem serVals_back (env : Env) (strict : Bool) : ∀ (vs : List Val) (t : List Char), GoodVals env vs → serVals strict vs = .ok t →
    t.length % 4 = 0 ∧ ∀ n, t.length + 1 ≤ n → deserVals env strict n t = .ok vs
  | [], t, _, h => by
    simp only [serVals] at h
    injection h with h
    subst h
    refine ⟨rfl, fun n hn => ?_⟩
    cases n with
    | zero => omega
    | succ n => simp [deserVals]
  | v :: vs, t, g, h => by
    simp only [serVals] at h
    simp only [GoodVals] at g
    split at h
    · exact absurd h (by simp)
    next a ha =>
    split at h
    · exact absurd h (by simp)
    next b hb =>
    injection h with h
    subst h
    have B := serVal_back env strict v a g.1 ha
    obtain ⟨q, k⟩ := serVals_back env strict vs b g.2 hb
    have p := B.pos
    have q2 := B.quads
    refine ⟨by simp; omega, fun n hn => ?_⟩
    rw [List.length_append] at hn
    cases n with
    | zero => omega
    | succ n =>
      obtain ⟨c, r, e⟩ : ∃ c r, a ++ b = c :: r := by
        cases a with
        | nil => simp at p
        | cons c r => exact ⟨c, r ++ b, rfl⟩
      have := B.back n b (by omega)
      rw [e] at this ⊢
      simp only [deserVals, this, k n (by omega)]

theorem serFlds_back (env : Env) (strict : Bool) : ∀ (fs : Flds) (t : List Char), GoodFlds env fs → serFlds strict fs = .ok t →
    t.length % 4 = 0 ∧ ∀ n, t.length + 1 ≤ n → deserFlds env strict n t = .ok fs
  | [], t, _, h => by
    simp only [serFlds] at h
    injection h with h
    subst h
    refine ⟨rfl, fun n hn => ?_⟩
    cases n with
    | zero => omega
    | succ n => simp [deserFlds]
  | (l, v) :: fs, t, g, h => by
    simp only [serFlds] at h
    simp only [GoodFlds] at g
    split at h
    · exact absurd h (by simp)
    next x hx =>
    split at h
    · exact absurd h (by simp)
    next a ha =>
    split at h
    · exact absurd h (by simp)
    next b hb =>
    injection h with h
    subst h
    obtain ⟨l1, l2, l3, l4, l5⟩ := takeLabel_of g.1 hx
    have B := serVal_back env strict v a g.2.1 ha
    obtain ⟨q, k⟩ := serFlds_back env strict fs b g.2.2 hb
    have p := B.pos
    have q2 := B.quads
    refine ⟨by simp; omega, fun n hn => ?_⟩
    rw [List.length_append, List.length_append] at hn
    cases n with
    | zero => omega
    | succ n =>
      obtain ⟨c, r, e⟩ : ∃ c r, x ++ (a ++ b) = c :: r := by
        cases x with
        | nil => simp at l2
        | cons c r => exact ⟨c, r ++ (a ++ b), rfl⟩
      have h1 := l1 (a ++ b)
      have := B.back n b (by omega)
      rw [e] at h1 ⊢
      simp only [deserFlds, h1, this, k n (by omega)]
end

end Verif.Mad
