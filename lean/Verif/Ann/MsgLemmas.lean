import Verif.Ann.TextLemmas
import Verif.Cesr.PropsRead

/-! # The messages of the builders, line by line -/

namespace Verif.Ann

open Verif.B64 Verif.Matter
open Verif.Mad hiding Env
open Verif.Thold (ofLimen limen natText sith WellFormed bextOfClauses)
open Verif.Cesr (Cast kindOfCode verDex traitDex Is IsPrim Env HexOk IsNum FieldOk MsgOk native fieldText fieldsText sithVal Parts)

/-- What `annot` asks of the fields beyond what the native form keeps: keys, digests of keys and witnesses with codes of such, and seals rather than a map. -/
structure Classed (sad : Flds) : Prop where
  keys : ∀ v, (['k'], v) ∈ sad → ∃ ts : List (List Char), v = .list (ts.map .text) ∧ ∀ t ∈ ts, Is keyDex t
  digests : ∀ v, (['n'], v) ∈ sad → ∃ ts : List (List Char), v = .list (ts.map .text) ∧ ∀ t ∈ ts, Is digDex t
  witnesses : ∀ l ∈ [['b'], ['b', 'r'], ['b', 'a']], ∀ v, (l, v) ∈ sad → ∃ ts : List (List Char), v = .list (ts.map .text) ∧ ∀ t ∈ ts, Is Ser.preDex t
  anchors : ∀ v, (['a'], v) ∈ sad → ∃ es, v = .list es ∧ Cesr.SealsOk es

/-- What is done for a label. -/
def stepOf : List (List Char × Step) :=
  [(['d'], .prim digDex), (['i'], .prim Ser.preDex), (['s'], .prim numDex), (['p'], .prim digDex), (['d', 'i'], .prim Ser.preDex), (['k', 't'], .thold),
   (['n', 't'], .thold), (['b', 't'], .thold), (['k'], .list keyDex), (['n'], .list digDex), (['b'], .list Ser.preDex), (['b', 'r'], .list Ser.preDex),
   (['b', 'a'], .list Ser.preDex), (['c'], .traits), (['a'], .seals)]

theorem limen_again {env : Env} (hh : HexOk env) {v : Val} {t : List Char} (h : Cesr.tholdText env v = .ok t)
    (hv : IsNum v ∨ ∃ cs, v = sithVal (sith (.wtd cs)) ∧ WellFormed cs ∧ (bextOfClauses cs).length < 4 * (64 ^ 4 - 1)) (rest : List Char) :
    takeThold (t ++ rest) = .ok (t, rest) := by
  obtain ⟨_, m, r, hb⟩ := Cesr.thold_back hh h hv
  obtain ⟨th, t1, t2⟩ := hb rest
  have hl : limen th = .ok t := by
    rcases hv with ⟨n, rfl, hn⟩ | ⟨cs, rfl, hw, hl⟩
    · have hth : Cesr.tholdOf env (.text (natText 16 n)) = .ok (.num n) := by
        simp only [Cesr.tholdOf]
        rw [if_neg (Thold.natText_ne_nil 16 n), if_neg (Cesr.bracket_not_hex n), hh n]
        simp only [Thold.ofSith]
        rw [if_neg (by omega)]
        rfl
      simp only [Cesr.tholdText, hth] at h
      obtain ⟨m', q, q1, q2, q3, q4, q5, _, _⟩ := Cesr.number_reads hn
      have e : q = t := by
        simp only [qb64Of] at q1
        simp only [limen] at h
        cases hm : mkNumber n none with
        | error e => rw [hm] at q1; exact absurd q1 (by simp)
        | ok m' => rw [hm] at q1 h; exact Cesr.infil_fun q1 h
      subst e
      have : ofLimen (q ++ rest) = .ok (.num n) := by simp only [ofLimen, Cesr.reads_exfil q2 rest, if_pos q4, q5, Thold.make]
      rw [this] at t1
      injection t1 with t1
      rw [← t1]
      exact h
    · have hth := Cesr.tholdOf_sith env cs
      rw [Thold.c14_sith_roundtrip cs hw] at hth
      simp only [Cesr.tholdText, hth] at h
      obtain ⟨q, l1, l2⟩ := Thold.c14_limen_roundtrip cs hw hl
      rw [h] at l1
      injection l1 with l1
      subst l1
      have hx := Cesr.reads_exfil r rest
      have hx0 := Cesr.reads_exfil r []
      rw [List.append_nil] at hx0
      have : ofLimen (t ++ rest) = ofLimen t := by unfold ofLimen; rw [hx, hx0]
      rw [this, l2] at t1
      injection t1 with t1
      rw [← t1]
      exact h
  simp only [takeThold, r.take, t1, hl]

theorem num_text {env : Env} (hh : HexOk env) {v : Val} (hn : IsNum v) {t : List Char} (h : Cesr.numText env v = .ok t) : Cesr.tholdText env v = .ok t := by
  obtain ⟨n, rfl, hn'⟩ := hn
  have hth : Cesr.tholdOf env (.text (natText 16 n)) = .ok (.num n) := by
    simp only [Cesr.tholdOf]
    rw [if_neg (Thold.natText_ne_nil 16 n), if_neg (Cesr.bracket_not_hex n), hh n]
    simp only [Thold.ofSith]
    rw [if_neg (by omega)]
    rfl
  obtain ⟨m, q, q1, _⟩ := Cesr.number_reads hn'
  obtain ⟨_, q', _, e, h', _, _⟩ := Cesr.num_back hh ⟨n, rfl, hn'⟩
  simp only [Cesr.tholdText, hth, limen]
  have hne := Thold.natText_ne_nil 16 n
  unfold Cesr.numText at h
  split at h
  · next e => cases e
  · next e => injection e with e; exact absurd e hne
  · next s _ e =>
    injection e with e
    subst e
    rw [hh n] at h
    simp only [Cesr.intText] at h
    rw [if_neg (by omega)] at h
    simp only [qb64Of] at h
    exact h
  · next v e1 e2 e3 => exact absurd rfl (e3 _)

/-- Every field is read to its end, and stands in its lines as it is. -/
theorem field_lines {env : Env} (hh : HexOk env) {pv : Nat × Nat} {ilk l : List Char} {k : Cesr.Kind} {v : Val} {sad : Flds} {t : List Char} {st : Step} {ind : Nat}
    (hst : (l, st) ∈ stepOf) (hk : Cesr.kindOf l = some k) (hf : FieldOk env ilk l v) (hc : Classed sad) (hm : (l, v) ∈ sad)
    (h : fieldText env pv ilk k v = .ok t) (rest : List Char) :
    ∃ ls, stepLines ind l st (t ++ rest) = .ok (ls, rest) ∧ (reb64 (t ++ rest) = true → toks ls = t) := by
  have plain : st ≠ .thold → (∃ ls, stepLines ind l st (t ++ rest) = .ok (ls, rest)) →
      ∃ ls, stepLines ind l st (t ++ rest) = .ok (ls, rest) ∧ (reb64 (t ++ rest) = true → toks ls = t) := by
    rintro hne ⟨ls, e⟩
    exact ⟨ls, e, fun hb => (List.append_cancel_right (step_canon hne hb e)).symm⟩
  have prims : ∀ codes, (∃ ts : List (List Char), v = .list (ts.map .text) ∧ ∀ t ∈ ts, Is codes t) → k = .prims → st = .list codes →
      ∃ ls, stepLines ind l st (t ++ rest) = .ok (ls, rest) ∧ (reb64 (t ++ rest) = true → toks ls = t) := by
    rintro codes ⟨ts, rfl, hts⟩ rfl rfl
    refine plain (by simp) ?_
    simp only [fieldText, Cesr.textsIn_list] at h
    have hp : ∀ t ∈ ts, IsPrim t := fun t ht => by
      obtain ⟨m, h1, h2, _⟩ := hts t ht
      exact ⟨m, h1, h2⟩
    obtain ⟨ws, hw⟩ := frame_is (role := l) (ind := ind + 1) hts _ (Nat.lt_succ_self _)
    exact list_reads (Cesr.prims_quads hp) h hw rest
  have one : ∀ codes, (∃ x, v = .text x ∧ Is codes x) → (k = .dig ∨ k = .pre) → st = .prim codes →
      ∃ ls, stepLines ind l st (t ++ rest) = .ok (ls, rest) ∧ (reb64 (t ++ rest) = true → toks ls = t) := by
    rintro codes ⟨x, rfl, hx⟩ hk' rfl
    have e : x = t := by
      rcases hk' with rfl | rfl <;> · simp only [fieldText] at h; injection h
    subst e
    exact ⟨[⟨ind, x, false, l⟩], by simp only [stepLines, tok_is hx rest], by simp [toks]⟩
  have thr : (IsNum v ∨ ∃ cs, v = sithVal (sith (.wtd cs)) ∧ WellFormed cs ∧ (bextOfClauses cs).length < 4 * (64 ^ 4 - 1)) → Cesr.tholdText env v = .ok t →
      st = .thold → ∃ ls, stepLines ind l st (t ++ rest) = .ok (ls, rest) ∧ (reb64 (t ++ rest) = true → toks ls = t) := by
    rintro hv ht rfl
    exact ⟨[⟨ind, t, false, l⟩], by simp only [stepLines, limen_again hh ht hv rest], by simp [toks]⟩
  simp only [stepOf, List.mem_cons, Prod.mk.injEq, List.not_mem_nil, or_false] at hst
  have kd : ∀ k', Cesr.kindOf l = some k' → k = k' := fun k' e => by rw [hk] at e; injection e
  rcases hst with ⟨rfl, e⟩ | ⟨rfl, e⟩ | ⟨rfl, e⟩ | ⟨rfl, e⟩ | ⟨rfl, e⟩ | ⟨rfl, e⟩ | ⟨rfl, e⟩ | ⟨rfl, e⟩ | ⟨rfl, e⟩ | ⟨rfl, e⟩ | ⟨rfl, e⟩ | ⟨rfl, e⟩ | ⟨rfl, e⟩ |
    ⟨rfl, e⟩ | ⟨rfl, e⟩
  · exact one _ (hf.digest (by simp)) (.inl (kd _ (by decide +kernel))) e
  · exact one _ (hf.aid (by simp)) (.inr (kd _ (by decide +kernel))) e
  · have hkn := kd .num (by decide +kernel)
    subst hkn
    obtain ⟨m, q, n, _, q1, r, _, hcd, _⟩ := Cesr.num_back hh (hf.number (by simp))
    simp only [fieldText] at h
    rw [h] at q1
    injection q1 with q1
    subst q1
    subst e
    exact ⟨[⟨ind, t, false, ['s']⟩], by simp only [stepLines, takeTok, r.take, hasCode, hcd, decide_true, if_true, r.text], by simp [toks]⟩
  · exact one _ (hf.digest (by simp)) (.inl (kd _ (by decide +kernel))) e
  · exact one _ (hf.aid (by simp)) (.inr (kd _ (by decide +kernel))) e
  · have hkn := kd .thold (by decide +kernel)
    subst hkn
    exact thr (hf.threshold (by simp)) h e
  · have hkn := kd .thold (by decide +kernel)
    subst hkn
    exact thr (hf.threshold (by simp)) h e
  · have hkn := kd .num (by decide +kernel)
    subst hkn
    exact thr (.inl (hf.number (by simp))) (num_text hh (hf.number (by simp)) h) e
  · exact prims _ (hc.keys v hm) (kd _ (by decide +kernel)) e
  · exact prims _ (hc.digests v hm) (kd _ (by decide +kernel)) e
  · exact prims _ (hc.witnesses _ (by simp) v hm) (kd _ (by decide +kernel)) e
  · exact prims _ (hc.witnesses _ (by simp) v hm) (kd _ (by decide +kernel)) e
  · exact prims _ (hc.witnesses _ (by simp) v hm) (kd _ (by decide +kernel)) e
  · have hkn := kd .traits (by decide +kernel)
    subst hkn e
    refine plain (by simp) ?_
    obtain ⟨ts, rfl, hts⟩ := hf.traits rfl
    simp only [fieldText, Cesr.textsIn_list] at h
    split at h
    · exact absurd h (by simp)
    next frame hfr =>
    obtain ⟨b1, b2⟩ := Cesr.traits_back hfr
    obtain ⟨ws, hw⟩ := frame_traits (role := ['c']) (ind := ind + 1) _ (b2 _ (Nat.lt_succ_self _))
    exact list_reads b1 h hw rest
  · have hkn := kd .attrs (by decide +kernel)
    subst hkn e
    refine plain (by simp) ?_
    obtain ⟨es, rfl, hes⟩ := hc.anchors v hm
    simp only [fieldText, Cesr.attrsText] at h
    split at h
    · exact absurd h (by simp)
    split at h
    · exact absurd h (by simp)
    next frame hfr =>
    obtain ⟨s1, s2⟩ := Cesr.seals_read hh hes hfr
    obtain ⟨ws, hw⟩ := groups_read (ind + 1) _ s2
    exact list_reads s1 h hw rest

theorem fields_lines {env : Env} (hh : HexOk env) {pv : Nat × Nat} {ilk : List Char} {sad : Flds} {ind : Nat} (hc : Classed sad) (rest : List Char) :
    ∀ {fs : Flds} {sts : List (List Char × Step)} {b : List Char}, fs.map (·.1) = sts.map (·.1) → (∀ p ∈ sts, p ∈ stepOf) → (∀ p ∈ fs, p ∈ sad) →
      (∀ p ∈ fs, FieldOk env ilk p.1 p.2) → fieldsText env pv ilk fs = .ok b →
      ∃ ls, stepsLines ind sts (b ++ rest) = .ok (ls, rest) ∧ (reb64 (b ++ rest) = true → toks ls = b)
  | [], [], b, _, _, _, _, h => by
    simp only [fieldsText, Except.ok.injEq] at h
    subst h
    exact ⟨[], rfl, fun _ => rfl⟩
  | (l, v) :: fs, (l', st) :: sts, b, hl, hst, hin, hf, h => by
    simp only [List.map_cons, List.cons.injEq] at hl
    obtain ⟨rfl, hl⟩ := hl
    unfold fieldsText at h
    split at h
    · exact absurd h (by simp)
    next k hk =>
    split at h
    · exact absurd h (by simp)
    next a ha =>
    split at h
    · exact absurd h (by simp)
    next c hcc =>
    injection h with h
    subst h
    obtain ⟨ls1, e1, t1⟩ := field_lines (ind := ind) hh (hst (l, st) (by simp)) hk (hf (l, v) (by simp)) hc (hin (l, v) (by simp)) ha (c ++ rest)
    obtain ⟨ls2, e2, t2⟩ := fields_lines (ind := ind) hh hc rest hl (fun p hp => hst p (by simp [hp])) (fun p hp => hin p (by simp [hp])) (fun p hp => hf p (by simp [hp])) hcc
    exact ⟨ls1 ++ ls2, by simp only [stepsLines, List.append_assoc, e1, e2], fun hb => by
      rw [List.append_assoc] at hb
      rw [toks_append, t1 hb, t2 (reb_right hb)]⟩

/-- The fields of the messages are as they are read. -/
def fits (ilk : List Char) : Bool :=
  match steps ilk, Cesr.fixedDom (2, 0) ilk with
  | some sts, some fd => decide (fd.labels = ['v'] :: ['t'] :: sts.map (·.1)) && sts.all fun p => decide (p ∈ stepOf)
  | _, _ => false

theorem fits_all : ∀ ilk ∈ Cesr.sealIlks, fits ilk = true := by decide +kernel

theorem ver_line {pv : Nat × Nat} {t : List Char} (h : Cesr.verText pv = .ok t) (rest : List Char) : ∃ q, takeTok isVer (t ++ rest) = .ok (q, rest) := by
  have hv := (Cesr.ver_reads h rest).1
  unfold Cesr.takeVer at hv
  split at hv
  · exact absurd hv (by simp)
  next m r hm =>
  obtain ⟨q, hq⟩ := mat_text hm
  split at hv
  · exact absurd hv (by simp)
  next hc =>
  have hc : m.code ∈ verDex := Decidable.not_not.mp hc
  split at hv
  · exact absurd hv (by simp)
  next p hp =>
  split at hv
  · split at hv
    · exact absurd hv (by simp)
    next hl _ g hg =>
    simp only [Except.ok.injEq, Prod.mk.injEq] at hv
    obtain ⟨_, rfl⟩ := hv
    exact ⟨q, by simp [takeTok, hm, isVer, hc, hp, hg, hq]⟩
  · simp at hv

/-- A message of the builders is read to its end. -/
theorem message_lines {env : Env} (hh : HexOk env) {ilk : List Char} {sad : Flds} {raw : List Char} (hi : ilk ∈ Cesr.sealIlks) (hm : MsgOk env (2, 0) ilk sad)
    (hc : Classed sad) {gv : Option (Nat × Nat)} (h : native env (2, 0) gv sad = .ok raw) (rest : List Char) :
    ∃ ls c r, raw = c :: r ∧ tritet c = 1 ∧ (message (raw ++ rest) = if rest ≠ [] then .error .extraction else .ok ls) ∧ (reb64 (raw ++ rest) = true → toks ls = raw) := by
  obtain ⟨v, d, fs, vt, tt, ft, rfl, _, _, hp, _⟩ := Cesr.native_parts hm.type hm.labels h
  have hfit := fits_all ilk hi
  unfold fits at hfit
  obtain ⟨fd, hfd, hlab⟩ := hp.fixed
  rw [hfd] at hfit
  split at hfit
  case h_2 => exact absurd hfit (by simp)
  next sts fd' hs e =>
  injection e with e
  subst e
  simp only [Bool.and_eq_true, decide_eq_true_eq, List.all_eq_true] at hfit
  obtain ⟨hl, hst⟩ := hfit
  rw [hlab] at hl
  simp only [List.cons.injEq, true_and] at hl
  obtain ⟨c, hd, g⟩ := group_any hp.outer
  obtain ⟨q, hq⟩ := count_text (g.take rest)
  obtain ⟨vq, hv⟩ := ver_line hp.ver (tt ++ (ft ++ rest))
  have hi3 : ilk.length = 3 := (by decide : ∀ i ∈ Cesr.sealIlks, i.length = 3) ilk hi
  obtain ⟨m, r, m1, m2, _⟩ := Cesr.type_reads hi3 hp.type
  obtain ⟨ls, e, tk⟩ := fields_lines (ind := 1) hh hc rest hl hst (fun p hp => List.mem_cons_of_mem _ (List.mem_cons_of_mem _ hp))
    (fun p hp => hm.fields p (List.mem_cons_of_mem _ (List.mem_cons_of_mem _ hp))) hp.fields
  obtain ⟨r0, h0⟩ : ∃ r0, raw = '-' :: r0 := by
    have e := g.eq
    have hh := g.head
    cases hd with
    | nil => simp at hh
    | cons x hd =>
      simp only [List.head?_cons, Option.some.injEq] at hh
      subst hh
      exact ⟨_, e⟩
  refine ⟨⟨0, q, false, ['-', '-']⟩ :: ⟨1, vq, false, ['v']⟩ :: ⟨1, tt, false, ['t']⟩ :: ls, '-', r0, h0, by decide, ?_, ?_⟩
  · have e1 : vt ++ (tt ++ ft) ++ rest = vt ++ (tt ++ (ft ++ rest)) := by simp
    unfold message
    rw [hq, e1]
    dsimp only
    rw [hv]
    dsimp only
    rw [r.take]
    dsimp only
    rw [if_neg (by simp [m1]), r.text]
    dsimp only
    rw [m2, hs]
    dsimp only
    rw [e]
  · intro hb
    have b0 := hb
    have c1 := takeCount_eq hq
    rw [c1] at hb
    have b1 := reb_right hb
    have e1 : vt ++ (tt ++ ft) ++ rest = vt ++ (tt ++ (ft ++ rest)) := by simp
    rw [e1] at b1 c1
    have c2 := takeTok_canon b1 hv
    have := List.append_cancel_right c2
    subst this
    have tk' := tk (reb_right (reb_right b1))
    refine List.append_cancel_right (bs := rest) ?_
    rw [c1]
    simp [toks] at tk' ⊢
    rw [← tk']

end Verif.Ann
