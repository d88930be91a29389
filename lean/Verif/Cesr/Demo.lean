import Verif.Cesr.PropsStream
import Verif.Cesr.PropsCommit
import Verif.Ser.Demo
import Verif.Mad.Demo

/-! # Concrete native messages, and what is false of others -/

namespace Verif.Cesr.Demo

open Verif.B64 Verif.Matter
open Verif.Mad (Val Flds Good getKey digDex)
open Verif.Thold (natText parseNat ofSith sith bextOfClauses)
open Verif.Ser (Lib Opts Serder made)
open Verif.Ser.Demo (key weak dig got isOk got_ok makify_of_made)

/-- Hex as `natText` writes it, all field names admitted. -/
def env : Env := { Mad.Demo.env with hex := fun s => (parseNat 16 s).map Int.ofNat, names := fun _ => true }

theorem hexOk : HexOk env := by
  intro n
  simp only [env, Thold.parseNat_natText 16 n (by omega) (by omega), Option.map_some]
  rfl

/-- The digests of the other examples, with the native form. -/
def lib : Lib := { Ser.Demo.lib with cesr := fun p pv gv sad => if p = .keri then native env pv gv sad else .error .typeError, loads := fun sm x => loads env sm x }

theorem lib_cesr (pv : Nat × Nat) (gv : Option (Nat × Nat)) (sad : Flds) : lib.cesr .keri pv gv sad = native env pv gv sad := by
  simp [lib]

theorem lib_ok : Ser.DigestsOk lib := Ser.Demo.lib_ok

/-! ## Deciding what is asked of fields -/

def isB (codes : List (List Char)) (v : Val) : Bool :=
  match v with
  | .text t => match exfil t with
    | .ok m => decide (infil m = .ok t) && decide (m.code ∈ codes)
    | .error _ => false
  | _ => false

theorem isB_is {codes : List (List Char)} {v : Val} (h : isB codes v = true) : ∃ t, v = .text t ∧ Is codes t := by
  unfold isB at h
  split at h
  · split at h
    · next t _ m hm =>
      simp only [Bool.and_eq_true, decide_eq_true_eq] at h
      exact ⟨t, rfl, m, hm, h.1, h.2⟩
    · exact absurd h (by simp)
  · exact absurd h (by simp)

def numB (v : Val) : Bool :=
  match v with
  | .text t => match parseNat 16 t with
    | some n => decide (natText 16 n = t) && decide (n < 256 ^ 17)
    | none => false
  | _ => false

theorem numB_is {v : Val} (h : numB v = true) : IsNum v := by
  unfold numB at h
  split at h
  · split at h
    · next n _ =>
      simp only [Bool.and_eq_true, decide_eq_true_eq] at h
      exact ⟨n, by rw [h.1], h.2⟩
    · exact absurd h (by simp)
  · exact absurd h (by simp)

def wtdB (v : Val) : Bool :=
  match v with
  | .list vs => match ofSith (.seq (vs.map sItem)) with
    | .ok (.wtd cs) => decide (v = sithVal (sith (.wtd cs))) && decide ((bextOfClauses cs).length < 4 * (64 ^ 4 - 1))
    | _ => false
  | _ => false

theorem wtdB_is {v : Val} (h : wtdB v = true) : ∃ cs, v = sithVal (sith (.wtd cs)) ∧ Thold.WellFormed cs ∧ (bextOfClauses cs).length < 4 * (64 ^ 4 - 1) := by
  unfold wtdB at h
  split at h
  · split at h
    · next cs hc =>
      simp only [Bool.and_eq_true, decide_eq_true_eq] at h
      exact ⟨cs, h.1, Thold.c14_sith_wellFormed _ _ hc, h.2⟩
    · exact absurd h (by simp)
  · exact absurd h (by simp)

def textsB (f : List Char → Bool) (v : Val) : Bool :=
  match v with
  | .list vs => match vs.mapM asText with
    | some ts => ts.all f && decide (vs = ts.map .text)
    | none => false
  | _ => false

theorem textsB_is {f : List Char → Bool} {v : Val} (h : textsB f v = true) : ∃ ts : List (List Char), v = .list (ts.map .text) ∧ ∀ t ∈ ts, f t = true := by
  unfold textsB at h
  split at h
  · split at h
    · next ts _ =>
      simp only [Bool.and_eq_true, decide_eq_true_eq, List.all_eq_true] at h
      exact ⟨ts, by rw [h.2], h.1⟩
    · exact absurd h (by simp)
  · exact absurd h (by simp)

def primB (t : List Char) : Bool :=
  match exfil t with
  | .ok m => decide (infil m = .ok t)
  | .error _ => false

theorem primB_is {t : List Char} (h : primB t = true) : IsPrim t := by
  unfold primB at h
  split at h
  · next m hm => exact ⟨m, hm, by simpa using h⟩
  · exact absurd h (by simp)

def routeB (v : Val) : Bool :=
  match v with
  | .text p => p.all (fun c => decide (c.toNat < 256)) && decide ('\n' ∉ p) && (decide ('/' ∈ p) || decide ('-' ∉ p))
  | _ => false

def okB (ilk l : List Char) (v : Val) : Bool :=
  if l = ['t'] then decide (v = .text ilk)
  else if l ∈ [['d'], ['p'], ['x']] then isB digDex v
  else if l = ['u'] then isB ([['1', 'A', 'A', 'P'], ['0', 'A'], ['a']] ++ digDex) v
  else if l ∈ [['i'], ['d', 'i'], ['r', 'i']] then isB Ser.preDex v
  else if l ∈ [['s'], ['b', 't']] then numB v
  else if l ∈ [['k', 't'], ['n', 't']] then numB v || wtdB v
  else if l ∈ [['k'], ['n'], ['b'], ['b', 'a'], ['b', 'r']] then textsB primB v
  else if l = ['d', 't'] then match v with
    | .text t => decide (t.length = 32) && t.all (fun c => decide (c ∈ dtChars))
    | _ => false
  else if l ∈ [['r'], ['r', 'r']] then routeB v
  else if l = ['c'] then textsB (fun t => decide (t ∈ [['E', 'O'], ['D', 'N', 'D'], ['R', 'B'], ['N', 'B'], ['N', 'R', 'B'], ['D', 'I', 'D']])) v
  else true

theorem okB_is {ilk l : List Char} {v : Val} (h : okB ilk l v = true)
    (ha : l = ['a'] → (∃ fs, v = .map fs ∧ Good env.toEnv (.map fs)) ∨ ∃ es, v = .list es ∧ SealsOk es) (hq : l = ['q'] → ∃ fs, v = .map fs ∧ Good env.toEnv (.map fs)) :
    FieldOk env ilk l v := by
  refine ⟨?_, ?_, ?_, ?_, ?_, ?_, ?_, ?_, ?_, ?_, ha, hq⟩ <;> intro hl
  · subst hl; simpa [okB] using h
  · simp only [List.mem_cons, List.not_mem_nil, or_false] at hl
    rcases hl with rfl | rfl | rfl <;> exact isB_is h
  · subst hl; exact isB_is h
  · simp only [List.mem_cons, List.not_mem_nil, or_false] at hl
    rcases hl with rfl | rfl | rfl <;> exact isB_is h
  · simp only [List.mem_cons, List.not_mem_nil, or_false] at hl
    rcases hl with rfl | rfl <;> exact numB_is h
  · have : (numB v || wtdB v) = true := by
      simp only [List.mem_cons, List.not_mem_nil, or_false] at hl
      rcases hl with rfl | rfl <;> exact h
    rw [Bool.or_eq_true] at this
    exact this.imp numB_is wtdB_is
  · have : textsB primB v = true := by
      simp only [List.mem_cons, List.not_mem_nil, or_false] at hl
      rcases hl with rfl | rfl | rfl | rfl | rfl <;> exact h
    obtain ⟨ts, e, ht⟩ := textsB_is this
    exact ⟨ts, e, fun t hm => primB_is (ht t hm)⟩
  · subst hl
    simp [okB] at h
    split at h
    · next t =>
      simp only [Bool.and_eq_true, decide_eq_true_eq, List.all_eq_true] at h
      exact ⟨t, rfl, h.1, fun c hc => by simpa using h.2 c hc⟩
    · exact absurd h (by simp)
  · have : routeB v = true := by
      simp only [List.mem_cons, List.not_mem_nil, or_false] at hl
      rcases hl with rfl | rfl <;> exact h
    clear h
    unfold routeB at this
    split at this
    · next p =>
      simp only [Bool.and_eq_true, Bool.or_eq_true, decide_eq_true_eq] at this
      exact ⟨p, rfl, Mad.Demo.textOk this.1.1, this.1.2, this.2⟩
    · exact absurd this (by simp)
  · subst hl
    obtain ⟨ts, e, ht⟩ := textsB_is h
    exact ⟨ts, e, fun t hm => by simpa using ht t hm⟩

theorem seals_small {es : List Val} (h : ∀ e ∈ es, ∃ x, SealIs x e) (hw : (es.map width).sum ≤ 4 * 4095) : SealsOk es := by
  refine ⟨h, fun a run b x e _ => ?_⟩
  subst e
  simp only [List.map_append, List.sum_append] at hw
  omega

theorem msgOk_of {pv : Nat × Nat} {ilk : List Char} {sad : Flds} (ht : getKey sad ['t'] = some (.text ilk))
    (hl : (Ser.domain .keri pv (some ilk)).map (·.labels) = some (sad.map (·.1))) (hb : sad.all (fun p => okB ilk p.1 p.2) = true)
    (ha : ∀ v, (['a'], v) ∈ sad → (∃ fs, v = .map fs ∧ Good env.toEnv (.map fs)) ∨ ∃ es, v = .list es ∧ SealsOk es)
    (hq : ∀ v, (['q'], v) ∈ sad → ∃ fs, v = .map fs ∧ Good env.toEnv (.map fs)) : MsgOk env pv ilk sad := by
  refine ⟨ht, ?_, ?_⟩
  · cases hd : Ser.domain .keri pv (some ilk) with
    | none => rw [hd] at hl; simp at hl
    | some fd => rw [hd] at hl; simp only [Option.map_some, Option.some.injEq] at hl; exact ⟨fd, rfl, hl.symm⟩
  · rintro ⟨l, v⟩ hm
    refine okB_is (List.all_eq_true.1 hb _ hm) ?_ ?_
    · rintro rfl; exact ha v hm
    · rintro rfl; exact hq v hm

/-! ## Messages -/

def opts (ilk : List Char) : Opts := { proto := some .keri, pvrsn := some (2, 0), gvrsn := some (2, 0), kind := some .cesr, ilk := some ilk }

/-- An inception with a weighted threshold, a trait, a witness, and an anchored seal. -/
def icp : Flds :=
  [(['k', 't'], .list [.text ['1', '/', '2'], .text ['1', '/', '2'], .text ['1']]), (['k'], .list [.text key, .text key, .text key]), (['n', 't'], .text ['1']), (['n'], .list [.text dig]),
   (['b', 't'], .text ['1']), (['b'], .list [.text weak]), (['c'], .list [.text ['E', 'O']]), (['a'], .list [.map [(['d'], .text dig)]])]

/-- An interaction with seals of three kinds. -/
def ixn (seals : List Val) : Flds := [(['i'], .text dig), (['s'], .text ['1', 'f']), (['p'], .text dig), (['a'], .list seals)]

def seals : List Val :=
  [.map [(['d'], .text dig)], .map [(['d'], .text dig)], .map [(['i'], .text dig), (['s'], .text ['a']), (['d'], .text dig)],
   .map [(['b', 'i'], .text weak), (['d'], .text dig)], .map [(['d'], .text dig)]]

/-- A reply with a map of attributes. -/
def rpy : Flds :=
  [(['i'], .text dig), (['d', 't'], .text "2021-01-01T00:00:00.000000+00:00".toList), (['r'], .text "/end/role/add".toList), (['a'], .map [(['c', 'i', 'd'], .text dig), (['n'], .null)])]

def s1 : Serder := got (made lib .keri (opts ['i', 'c', 'p']) icp)
def s2 : Serder := got (made lib .keri (opts ['i', 'x', 'n']) (ixn seals))
def s3 : Serder := got (made lib .keri (opts ['r', 'p', 'y']) rpy)

theorem made1 : made lib .keri (opts ['i', 'c', 'p']) icp = .ok s1 := got_ok (by decide +kernel)
theorem made2 : made lib .keri (opts ['i', 'x', 'n']) (ixn seals) = .ok s2 := got_ok (by decide +kernel)
theorem made3 : made lib .keri (opts ['r', 'p', 'y']) rpy = .ok s3 := got_ok (by decide +kernel)

theorem dicts : Mad.Dict icp ∧ Mad.Dict (ixn seals) ∧ Mad.Dict rpy := by unfold Mad.Dict; decide

theorem attrs1 : s1.attrs = attrsOf (2, 0) ∧ s2.attrs = attrsOf (2, 0) ∧ s3.attrs = attrsOf (2, 0) ∧ s1.size < 64 ^ 4 ∧ s2.size < 64 ^ 4 ∧ s3.size < 64 ^ 4 := by
  decide +kernel

theorem right_of {ilk : List Char} {sad : Flds} {s : Serder} (hd : Mad.Dict sad) (hm : made lib .keri (opts ilk) sad = .ok s) (ha : s.attrs = attrsOf (2, 0))
    (hs : s.size < 64 ^ 4) : Ser.Right lib s := by
  refine (Ser.c125_made_verifies lib_ok hd (by simp [opts]) (makify_of_made hm) (c172_kind_ok lib_cesr s.attrs (by rw [ha]; rfl) (by rw [ha]; rfl)) ?_).2.1
  rw [ha]
  unfold Prs.Fits attrsOf
  rw [if_neg (by decide)]
  refine ⟨by decide, hs, fun g hg => ?_⟩
  simp only [Option.some.injEq] at hg
  subst hg
  decide

/-- C172: messages that are made are as they should be. -/
theorem rights : Ser.Right lib s1 ∧ Ser.Right lib s2 ∧ Ser.Right lib s3 :=
  ⟨right_of dicts.1 made1 attrs1.1 attrs1.2.2.2.1, right_of dicts.2.1 made2 attrs1.2.1 attrs1.2.2.2.2.1, right_of dicts.2.2 made3 attrs1.2.2.1 attrs1.2.2.2.2.2⟩

theorem is_dig : Is digDex dig := by
  obtain ⟨t, e, h⟩ := isB_is (codes := digDex) (v := .text dig) (by decide +kernel)
  injection e with e; rw [e]; exact h

theorem is_pre : Is Ser.preDex dig ∧ Is Ser.preDex weak := by
  obtain ⟨t, e, h⟩ := isB_is (codes := Ser.preDex) (v := .text dig) (by decide +kernel)
  obtain ⟨t', e', h'⟩ := isB_is (codes := Ser.preDex) (v := .text weak) (by decide +kernel)
  injection e with e; injection e' with e'; rw [e, e']; exact ⟨h, h'⟩

theorem seals_ok : SealsOk seals := by
  refine seals_small ?_ (by decide +kernel)
  intro e he
  simp only [seals, List.mem_cons, List.not_mem_nil, or_false] at he
  rcases he with rfl | rfl | rfl | rfl | rfl
  · exact ⟨'Q', .digest _ is_dig⟩
  · exact ⟨'Q', .digest _ is_dig⟩
  · exact ⟨'T', .event _ _ _ is_pre.1 (numB_is (by decide +kernel)) is_dig⟩
  · exact ⟨'V', .back _ _ is_pre.2 is_dig⟩
  · exact ⟨'Q', .digest _ is_dig⟩

/-- The value of the only field of a label. -/
theorem only {sad : Flds} (hd : Mad.Dict sad) {l : List Char} {v w : Val} (h : (l, v) ∈ sad) (hg : getKey sad l = some w) : v = w := by
  have := Mad.getKey_of_mem hd h
  rw [this] at hg
  injection hg

/-- The messages meet the hypotheses of C170, C171 and C173. -/
theorem ok1 : MsgOk env (2, 0) ['i', 'c', 'p'] s1.sad := by
  refine msgOk_of (by decide +kernel) (by decide +kernel) (by decide +kernel) (fun v hv => .inr ?_) (fun v hv => ?_)
  · rw [only rights.1.dict hv (w := .list [.map [(['d'], .text dig)]]) (by decide +kernel)]
    exact ⟨_, rfl, seals_small (by intro e he; simp only [List.mem_singleton] at he; subst he; exact ⟨_, .digest _ is_dig⟩) (by decide +kernel)⟩
  · exact absurd (List.mem_map.2 ⟨_, hv, rfl⟩ : ['q'] ∈ s1.sad.map (·.1)) (by decide +kernel)

theorem ok2 : MsgOk env (2, 0) ['i', 'x', 'n'] s2.sad := by
  refine msgOk_of (by decide +kernel) (by decide +kernel) (by decide +kernel) (fun v hv => .inr ?_) (fun v hv => ?_)
  · rw [only rights.2.1.dict hv (w := .list seals) (by decide +kernel)]
    exact ⟨_, rfl, seals_ok⟩
  · exact absurd (List.mem_map.2 ⟨_, hv, rfl⟩ : ['q'] ∈ s2.sad.map (·.1)) (by decide +kernel)

theorem ok3 : MsgOk env (2, 0) ['r', 'p', 'y'] s3.sad := by
  refine msgOk_of (by decide +kernel) (by decide +kernel) (by decide +kernel) (fun v hv => .inl ?_) (fun v hv => ?_)
  · rw [only rights.2.2.dict hv (w := .map [(['c', 'i', 'd'], .text dig), (['n'], .null)]) (by decide +kernel)]
    refine ⟨_, rfl, ?_⟩
    simp only [Good, Mad.GoodFlds]
    exact ⟨by decide, Mad.Demo.textOk (by decide), ⟨Mad.Demo.textOk (by decide +kernel), Mad.Demo.plain (by decide +kernel)⟩, Mad.Demo.textOk (by decide), trivial, trivial⟩
  · exact absurd (List.mem_map.2 ⟨_, hv, rfl⟩ : ['q'] ∈ s3.sad.map (·.1)) (by decide +kernel)

def versionedB (s : Serder) : Bool :=
  match Ser.versifyText (attrsOf (2, 0)) s.raw.length with
  | .ok v => decide (getKey s.sad ['v'] = some v)
  | .error _ => false

theorem versionedB_is {s : Serder} (h : versionedB s = true) : Versioned (2, 0) s.sad s.raw := by
  unfold versionedB at h
  split at h
  · next v hv => exact ⟨v, hv, by simpa using h⟩
  · exact absurd h (by simp)

theorem versioned : Versioned (2, 0) s1.sad s1.raw ∧ Versioned (2, 0) s2.sad s2.raw ∧ Versioned (2, 0) s3.sad s3.raw :=
  ⟨versionedB_is (by decide +kernel), versionedB_is (by decide +kernel), versionedB_is (by decide +kernel)⟩

theorem native_of {s : Serder} (r : Ser.Right lib s) (ha : s.attrs = attrsOf (2, 0)) : native env (2, 0) (some (2, 0)) s.sad = .ok s.raw := by
  have := r.dumped
  rw [ha] at this
  simpa only [Ser.dumps, attrsOf, lib_cesr] using this

theorem natives : native env (2, 0) (some (2, 0)) s1.sad = .ok s1.raw ∧ native env (2, 0) (some (2, 0)) s2.sad = .ok s2.raw ∧
    native env (2, 0) (some (2, 0)) s3.sad = .ok s3.raw := ⟨native_of rights.1 attrs1.1, native_of rights.2.1 attrs1.2.1, native_of rights.2.2 attrs1.2.2.1⟩

example (rest : List Char) : loads env ⟨.keri, (2, 0), .cesr, s2.raw.length, some (2, 0)⟩ (s2.raw ++ rest) = .ok s2.sad :=
  c170_read_back_partial hexOk ok2 natives.2.1 versioned.2.1 rest

example (rest : List Char) : inhaleText env (s3.raw ++ rest) = .ok (msgOf (2, 0) s3.sad s3.raw, rest) := c173_text_partial hexOk ok3 natives.2.2 versioned.2.2 rest

example : ∀ x, inhaleText env (s1.raw.take 100) ≠ .ok x := c173_truncated env _ _ _ _ natives.1 100 (by decide +kernel)

theorem based : reb64 s1.raw = true ∧ reb64 s2.raw = true := by decide +kernel

example : ∃ b, Mad.qb2Of s1.raw = .ok b ∧ inhaleBinary env false b = .ok (msgOf (2, 0) s1.sad s1.raw, b) ∧ inhaleBinary env true b = .error .shortage := by
  obtain ⟨b, h1, h2⟩ := c173_binary_alone_partial hexOk ok1 natives.1 versioned.1 based.1
  exact ⟨b, h1, h2, c173_binary_strip_fails env _ _ _ _ natives.1 b based.1 h1⟩

/-- C173: of the inception and the interaction in one stream, the interaction is read, twice. -/
example : ∃ b1 b2, Mad.qb2Of s1.raw = .ok b1 ∧ Mad.qb2Of s2.raw = .ok b2 ∧ inhaleBinary env true (b1 ++ b2) = .ok (msgOf (2, 0) s2.sad s2.raw, b2) :=
  c173_binary_swapped hexOk natives.1 ok2 natives.2.1 versioned.2.1 (by decide +kernel) (by decide +kernel) based.1 based.2

/-- C170: with what is known of the message, it is read and checked. -/
example (rest : List Char) : Ser.fromRaw lib .keri (some ⟨.keri, (2, 0), .cesr, s1.size, some (2, 0)⟩) (s1.raw ++ rest) = .ok (s1, rest) := by
  have ha := attrs1.1
  have hc : Ser.check lib .keri s1 = .ok () := by decide +kernel
  have h := c170_from_raw_partial (cls := .keri) hexOk rights.1 hc (by rw [ha]; rfl) (by rw [ha]; rfl) lib_cesr (fun sm x _ _ => rfl)
    (by rw [ha]; exact ok1) (by rw [ha]; exact versioned.1) rest
  rw [ha] at h
  exact h

/-- C171: the messages have different SAIDs; with the same one the fields would be the same. -/
example (s : Serder) (r : Ser.Right lib s) (ha : s2.attrs = s.attrs) (m : MsgOk env s.attrs.pvrsn ['i', 'x', 'n'] s.sad) (hl : ['d'] ∈ Ser.saidLabels s)
    (he : getKey s.sad ['d'] = getKey s2.sad ['d']) :
    (Ser.saidLabels s2 = Ser.saidLabels s ∧ Mad.masked (['v'] :: Ser.saidLabels s2) s2.sad = Mad.masked (['v'] :: Ser.saidLabels s2) s.sad) ∨ Ser.Collision lib s2 s := by
  have hd : ∃ t, Ser.codeAt (getKey s2.sad ['d']) = some (['E'], t) := by
    cases h : Ser.codeAt (getKey s2.sad ['d']) with
    | none => exact absurd h (by decide +kernel)
    | some p =>
      have : (Ser.codeAt (getKey s2.sad ['d'])).map (·.1) = some ['E'] := by decide +kernel
      rw [h] at this
      simp only [Option.map_some, Option.some.injEq] at this
      exact ⟨p.2, by rw [← this]⟩
  obtain ⟨t, ht⟩ := hd
  exact c171_commits_partial hexOk lib_ok rights.2.1 r ha (by decide +kernel) (by decide +kernel) lib_cesr (by rw [attrs1.2.1]; exact ok2) m
    (by decide +kernel) hl ht (by decide) he

/-! ## What is false -/

/-- The messages made of the two maps have the same bytes and different fields. -/
def confused (ilk : List Char) (a b : Flds) : Bool :=
  match made lib .keri (opts ilk) a, made lib .keri (opts ilk) b with
  | .ok x, .ok y => decide (x.raw = y.raw) && !decide (x.sad = y.sad)
  | _, _ => false

/-- The message made of the map does not load. -/
def lost (ilk : List Char) (a : Flds) : Bool :=
  match made lib .keri (opts ilk) a with
  | .ok x => !isOk (loads env ⟨.keri, (2, 0), .cesr, x.size, some (2, 0)⟩ x.raw)
  | .error _ => false

/-- The fields that the message made of the map loads with. -/
def loaded (ilk : List Char) (a : Flds) : Flds :=
  match made lib .keri (opts ilk) a with
  | .ok x => match loads env ⟨.keri, (2, 0), .cesr, x.size, some (2, 0)⟩ x.raw with
    | .ok f => f
    | .error _ => []
  | .error _ => []

/-- **C170, C171 fail of other values.**  What is not a known seal is left out of the bytes, so the SAID does not cover it; texts that run together are not told
apart; a route with `-` for `/` is the same; and a date is cut at 32 characters. -/
theorem c171_counterexamples :
    confused ['i', 'x', 'n'] (ixn []) (ixn [.map [(['x'], .text dig)]]) = true ∧
    confused ['i', 'x', 'n'] (ixn []) (ixn [.text dig, .null]) = true ∧
    confused ['i', 'x', 'n'] (ixn []) (ixn [.map [(['s'], .text ['x']), (['d'], .text dig)]]) = true ∧
    confused ['i', 'x', 'n'] (ixn []) [(['i'], .text dig), (['s'], .text ['1', 'f']), (['p'], .text dig), (['a'], .text ['h', 'i'])] = true ∧
    confused ['i', 'c', 'p'] [(['k'], .list [.text ['A', 'B'], .text ['C', 'D']])] [(['k'], .list [.text ['A', 'B', 'C', 'D']])] = true ∧
    confused ['r', 'p', 'y'] (Mad.setField rpy ['r'] (.text ['a', '-', 'b'])) (Mad.setField rpy ['r'] (.text ['a', '/', 'b'])) = true ∧
    confused ['r', 'p', 'y'] rpy (Mad.setField rpy ['d', 't'] (.text "2021-01-01T00:00:00.000000+00:00Z".toList)) = true := by
  decide +kernel

/-- **C170 fails of other values.**  Messages are made and signed that no one can load: an interaction with an empty prior digest. -/
theorem c170_unreadable : lost ['i', 'x', 'n'] (Mad.setField (ixn []) ['p'] (.text [])) = true := by decide +kernel

/-- **C170 fails of other values.**  A number that is given as an integer or as none reads back as text, a threshold that is a mapping as the list of its keys. -/
theorem c170_changed :
    getKey (loaded ['i', 'x', 'n'] (Mad.setField (ixn []) ['s'] (.num ['3', '1']))) ['s'] = some (.text ['1', 'f']) ∧
    getKey (loaded ['i', 'x', 'n'] (Mad.setField (ixn []) ['s'] .null)) ['s'] = some (.text ['0']) ∧
    getKey (loaded ['i', 'c', 'p'] (Mad.setField icp ['k', 't'] (.map [(['1'], .list [])]))) ['k', 't'] = some (.list [.text ['1']]) := by
  decide +kernel

end Verif.Cesr.Demo
