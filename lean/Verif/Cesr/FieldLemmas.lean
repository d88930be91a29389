import Verif.Cesr.Spec
import Verif.Mad.PropsMap
import Verif.Mad.AggorLemmas
import Verif.Thold.PropsText

/-! # Values of fields read back -/

namespace Verif.Cesr

open Verif.B64 Verif.Matter Verif.Mad
open Verif.Thold (natText parseNat splitC join Thold Sith SItem SElt ofSith sith limen ofLimen Elt WellFormed bextOfClauses)

theorem isPrim_reads {t : List Char} (h : IsPrim t) : ∃ m, Reads t m ∧ t.length % 4 = 0 ∧ exfil t = .ok m := by
  obtain ⟨m, h1, h2⟩ := h
  obtain ⟨q, q1, q2, q3, q4⟩ := exfil_reads h1
  rw [h2] at q1
  injection q1 with q1
  subst q1
  exact ⟨m, reads_of h2 h1 q3, q4, h1⟩

theorem is_reads {codes : List (List Char)} {t : List Char} (h : Is codes t) : ∃ m, Reads t m ∧ t.length % 4 = 0 ∧ m.code ∈ codes ∧ exfil t = .ok m := by
  obtain ⟨m, h1, h2, h3⟩ := h
  obtain ⟨m', r1, r2, r3⟩ := isPrim_reads ⟨m, h1, h2⟩
  rw [h1] at r3
  injection r3 with r3
  subst r3
  exact ⟨m, r1, r2, h3, h1⟩

theorem takePrim_back {codes : List (List Char)} {t : List Char} (h : Is codes t) (rest : List Char) : takePrim codes (t ++ rest) = .ok (.text t, rest) := by
  obtain ⟨m, r, _, hc, _⟩ := is_reads h
  simp only [takePrim, r.take, if_pos hc, r.text]

theorem infil_fun {m : Mat} {a b : List Char} (h1 : infil m = .ok a) (h2 : infil m = .ok b) : a = b := by
  rw [h1] at h2; injection h2

/-- The number `n` as primitive. -/
theorem number_reads {n : Nat} (hn : n < 256 ^ 17) :
    ∃ m t, qb64Of (mkNumber n none) = .ok t ∧ Reads t m ∧ t.length % 4 = 0 ∧ m.code ∈ numDex ∧ numOf m = n ∧ t.length ≤ 24 ∧ exfil t = .ok m := by
  obtain ⟨m, t, k, m1, m2, m3, m4, m5, m6, _⟩ := (c45_number_auto n).1 hn
  have hc : exfil t = .ok m ∧ m.code ∈ numDex := by
    unfold numberOfText at m4
    split at m4
    · exact absurd m4 (by simp)
    · next m' hx =>
      split at m4
      · next hmem =>
        injection m4 with m4
        subst m4
        exact ⟨hx, hmem⟩
      · exact absurd m4 (by simp)
  obtain ⟨r, _⟩ := is_reads (codes := numDex) ⟨m, hc.1, m3, hc.2⟩
  obtain ⟨q, q1, q2, q3, q4⟩ := exfil_reads hc.1
  have e := infil_fun q1 m3
  subst e
  refine ⟨m, q, by simp only [qb64Of, m1, m3], reads_of m3 hc.1 q3, q4, hc.2, m2, ?_, hc.1⟩
  have hs : ∀ c ∈ numDex, (match sizes? c with | some sz => (match sz.fs with | some fs => decide (fs ≤ 24) | none => false) | none => false) = true := by
    decide +kernel
  have h4 := hs _ hc.2
  obtain ⟨sz, s1⟩ : ∃ sz, sizes? m.code = some sz := by
    cases h : sizes? m.code with
    | none => rw [h] at h4; exact absurd h4 (by simp)
    | some sz => exact ⟨sz, rfl⟩
  rw [s1] at h4
  obtain ⟨fs, s2⟩ : ∃ fs, sz.fs = some fs := by
    cases h : sz.fs with
    | none => simp only [h] at h4; exact absurd h4 (by simp)
    | some fs => exact ⟨fs, rfl⟩
  simp only [s2] at h4
  have s3 : fs ≤ 24 := by simpa using h4
  have := fullSize_valid s1 (n := fs) (by simp [framedSize, s2])
  rw [this] at q3
  injection q3 with q3
  omega

theorem num_back {env : Env} (hh : HexOk env) {v : Val} (h : IsNum v) :
    ∃ m t n, v = .text (natText 16 n) ∧ numText env v = .ok t ∧ Reads t m ∧ t.length % 4 = 0 ∧ m.code ∈ numDex ∧ numOf m = n ∧ t.length ≤ 24 := by
  obtain ⟨n, rfl, hn⟩ := h
  obtain ⟨m, t, t1, t2, t3, t4, t5, t6, _⟩ := number_reads hn
  refine ⟨m, t, n, rfl, ?_, t2, t3, t4, t5, t6⟩
  have hne := Thold.natText_ne_nil 16 n
  unfold numText
  split
  · next h => exact absurd h (by simp)
  · next h => injection h with h; exact absurd h hne
  · next s _ h =>
    injection h with h
    subst h
    rw [hh n]
    show intText (n : Int) = _
    unfold intText
    rw [if_neg (by omega)]
    exact t1
  · next h => exact absurd rfl (h _)

/-! ## Lists of primitives -/

theorem counted_eq {x : Char} {frame : List Char} (h : frame.length % 4 = 0) : counted x frame = Ctr.encloseText .v2 ['-', x] frame := by
  unfold counted Ctr.encloseText
  rw [if_neg (by omega)]
  cases hm : Ctr.make .v2 ['-', x] ((frame.length / 4 : Nat) : Int) with
  | error e => rfl
  | ok c =>
    simp only
    rw [if_neg (by simp)]
    cases Ctr.infil .v2 c <;> rfl

theorem takeList_back {f : Nat → List Char → Except Err (List Val)} {frame t : List Char} {vs : List Val} (hq : frame.length % 4 = 0)
    (h : counted 'J' frame = .ok t) (hf : f (frame.length + 1) frame = .ok vs) (rest : List Char) :
    takeList f (t ++ rest) = .ok (.list vs, rest) ∧ t.length % 4 = 0 ∧ ∃ c r, takeCtr (t ++ rest) = .ok (c, r) ∧ isListCtr c = true := by
  rw [counted_eq hq] at h
  obtain ⟨c, hd, g⟩ := group_any h
  have hc : isListCtr c = true := by
    rcases g.code with e | e <;> simp [isListCtr, e]
  have hcount : c.count * 4 = frame.length := g.count
  refine ⟨?_, ?_, c, _, g.take rest, hc⟩
  · unfold takeList
    rw [g.take rest]
    simp only [hc, if_true, hcount, List.take_left' rfl, List.drop_left' rfl, hf]
  · have := g.quads
    rw [g.eq, List.length_append]
    omega

theorem prims_quads {ts : List (List Char)} (h : ∀ t ∈ ts, IsPrim t) : ts.flatten.length % 4 = 0 := by
  induction ts with
  | nil => rfl
  | cons t ts ih =>
    obtain ⟨_, _, h2, _⟩ := isPrim_reads (h t (by simp))
    have := ih (fun t ht => h t (by simp [ht]))
    rw [List.flatten_cons, List.length_append]
    omega

theorem primsIn_back {ts : List (List Char)} (h : ∀ t ∈ ts, IsPrim t) (n : Nat) (hn : ts.flatten.length < n) :
    primsIn n ts.flatten = .ok (ts.map .text) := by
  induction ts generalizing n with
  | nil =>
    obtain ⟨n, rfl⟩ : ∃ k, n = k + 1 := ⟨n - 1, by simp at hn; omega⟩
    rfl
  | cons t ts ih =>
    obtain ⟨n, rfl⟩ : ∃ k, n = k + 1 := ⟨n - 1, by omega⟩
    obtain ⟨m, r, _, _⟩ := isPrim_reads (h t (by simp))
    rw [List.flatten_cons, List.length_append] at hn
    have hpos := r.pos
    have hih := ih (fun t ht => h t (by simp [ht])) n (by omega)
    rw [List.flatten_cons]
    cases t with
    | nil => simp at hpos
    | cons c t =>
      have ht := r.take ts.flatten
      simp only [List.cons_append] at ht
      simp only [List.cons_append, primsIn, ht, r.text, hih, List.map_cons]

theorem textsIn_list (ts : List (List Char)) : textsIn (.list (ts.map .text)) = .ok ts := by
  have : (ts.map Val.text).mapM asText = some ts := by
    induction ts with
    | nil => rfl
    | cons t ts ih => simp only [List.map_cons, List.mapM_cons, ih, asText]; rfl
  simp only [textsIn, this]

/-! ## Traits -/

theorem tag_reads {tag : List Char} {t : List Char} (h : qb64Of (mkTag tag) = .ok t) :
    ∃ m, Reads t m ∧ t.length % 4 = 0 ∧ m.code ∈ tagDex ∧ m.soft = tag ∧ codify tag = .ok m.code ∧ reb64 t = true := by
  unfold qb64Of at h
  split at h
  · exact absurd h (by simp)
  next m hm =>
  unfold mkTag at hm
  split at hm
  · exact absurd hm (by simp)
  next hb =>
  cases hc : codify tag with
  | error e => rw [hc] at hm; exact absurd hm (by simp)
  | ok c =>
    rw [hc] at hm
    simp only at hm
    obtain ⟨c1, sz, c2, c3⟩ := codify_mem hc
    obtain ⟨q, q1, q2, q3, q4⟩ := special_reads c1 hm
    have e := infil_fun q1.text h
    subst e
    refine ⟨m, q1, q3, by rw [q4]; exact c1, ?_, by rw [q4], q2⟩
    unfold makeSpecial at hm
    rw [c2] at hm
    obtain ⟨sz', s1, s2, s3⟩ := tag_sizes c c1
    rw [c2] at s1
    injection s1 with s1
    subst s1
    simp only [s2] at hm
    split at hm
    · exact absurd hm (by simp)
    split at hm
    · exact absurd hm (by simp)
    split at hm
    · exact absurd hm (by simp)
    injection hm with hm
    subst hm
    simp only [c3]
    rw [List.take_of_length_le (by omega)]

theorem traits_back {ts : List (List Char)} {frame : List Char} (h : traitsText ts = .ok frame) :
    frame.length % 4 = 0 ∧ ∀ n, frame.length < n → traitsIn n frame = .ok (ts.map .text) := by
  induction ts generalizing frame with
  | nil =>
    injection h with h
    subst h
    refine ⟨rfl, fun n hn => ?_⟩
    obtain ⟨n, rfl⟩ : ∃ k, n = k + 1 := ⟨n - 1, by simp at hn; omega⟩
    rfl
  | cons t ts ih =>
    unfold traitsText at h
    split at h
    · exact absurd h (by simp)
    next a ha =>
    split at h
    · exact absurd h (by simp)
    next b hb =>
    injection h with h
    subst h
    obtain ⟨i1, i2⟩ := ih hb
    unfold traitText at ha
    split at ha
    · next hd =>
      obtain ⟨m, m1, m2, m3, m4, _⟩ := tag_reads ha
      refine ⟨by rw [List.length_append]; omega, fun n hn => ?_⟩
      obtain ⟨n, rfl⟩ : ∃ k, n = k + 1 := ⟨n - 1, by omega⟩
      have hpos := m1.pos
      rw [List.length_append] at hn
      have hk := i2 n (by omega)
      have ht := m1.take b
      cases a with
      | nil => simp at hpos
      | cons c a =>
        simp only [List.cons_append] at ht
        simp only [List.cons_append, traitsIn, ht, hk, m4, List.map_cons]
        rw [if_neg (by simpa using m3), if_neg (by simpa using hd)]
    · exact absurd ha (by simp)

/-! ## Thresholds -/

theorem reads_exfil {q : List Char} {m : Mat} (r : Reads q m) (rest : List Char) : exfil (q ++ rest) = .ok m := by
  have := r.take rest
  unfold takeMat at this
  split at this
  · exact absurd this (by simp)
  · next m' hm =>
    split at this
    · exact absurd this (by simp)
    · injection this with this
      injection this with h1 _
      rw [hm, h1]

theorem sElt_eltVal (e : Elt) : sElt (eltVal (Thold.sithElt e)) = Thold.sithElt e := by
  cases e with
  | wt w => rfl
  | grp k ws =>
    have : ∀ l : List (List Char), (l.map Val.text).mapM asText = some l := by
      intro l
      induction l with
      | nil => rfl
      | cons t ts ih => simp only [List.map_cons, List.mapM_cons, ih, asText]; rfl
    have t := this (ws.map (Thold.weightText '/'))
    simp only [Thold.sithElt, eltVal, sElt, asTexts, List.map_cons, List.map_nil, List.mapM_cons, List.mapM_nil, t]
    rfl

theorem tholdOf_sith (env : Env) (cs : List (List Elt)) : tholdOf env (sithVal (sith (.wtd cs))) = ofSith (sith (.wtd cs)) := by
  have key : ∀ c : List Elt, ((c.map Thold.sithElt).map eltVal).map sElt = c.map Thold.sithElt := by
    intro c
    rw [List.map_map, List.map_map]
    exact List.map_congr_left fun e _ => sElt_eltVal e
  simp only [sith]
  split
  · next c hc =>
    obtain ⟨c', rfl⟩ : ∃ c', cs = [c'] := by
      cases cs with
      | nil => simp at hc
      | cons a r => cases r with
        | nil => exact ⟨a, rfl⟩
        | cons b r => simp at hc
    simp only [List.map_cons, List.map_nil, List.cons.injEq, and_true] at hc
    subst hc
    simp only [sithVal, tholdOf, List.map_map]
    congr 2
    apply List.map_congr_left
    intro e _
    cases e with
    | wt w => rfl
    | grp k ws =>
      have := sElt_eltVal (.grp k ws)
      simp only [Thold.sithElt, eltVal, Function.comp, itemVal, sItem] at this ⊢
      rw [this]
  · next l hl =>
    simp only [sithVal, tholdOf, List.map_map]
    congr 2
    apply List.map_congr_left
    intro c _
    have := key c
    simp only [Function.comp, itemVal, sItem]
    rw [this]

theorem bracket_not_hex (n : Nat) : '[' ∉ natText 16 n := by
  intro h
  have key : ∀ d : Fin 16, Thold.digitChar d.val ≠ '[' := by decide +kernel
  induction n using Nat.strongRecOn with
  | ind n ih =>
    unfold natText at h
    split at h
    · rw [List.mem_singleton] at h
      exact key ⟨n % 16, by omega⟩ h.symm
    · next hn =>
      rw [List.mem_append, List.mem_singleton] at h
      rcases h with h | h
      · exact ih (n / 16) (by omega) h
      · exact key ⟨n % 16, by omega⟩ h.symm

theorem thold_back {env : Env} (hh : HexOk env) {v : Val} {t : List Char} (h : tholdText env v = .ok t)
    (hv : IsNum v ∨ ∃ cs, v = sithVal (sith (.wtd cs)) ∧ WellFormed cs ∧ (bextOfClauses cs).length < 4 * (64 ^ 4 - 1)) :
    t.length % 4 = 0 ∧ ∃ m, Reads t m ∧ ∀ rest, ∃ th, ofLimen (t ++ rest) = .ok th ∧ sithVal (sith th) = v := by
  rcases hv with ⟨n, rfl, hn⟩ | ⟨cs, rfl, hw, hl⟩
  · have hth : tholdOf env (.text (natText 16 n)) = .ok (.num n) := by
      simp only [tholdOf]
      rw [if_neg (Thold.natText_ne_nil 16 n), if_neg (bracket_not_hex n), hh n]
      simp only [ofSith]
      rw [if_neg (by omega)]
      rfl
    simp only [tholdText, hth] at h
    obtain ⟨m, q, q1, q2, q3, q4, q5, _, _⟩ := number_reads hn
    have e : q = t := by
      simp only [qb64Of] at q1
      simp only [limen] at h
      cases hm : mkNumber n none with
      | error e => rw [hm] at q1; exact absurd q1 (by simp)
      | ok m' =>
        rw [hm] at q1 h
        exact infil_fun q1 h
    subst e
    refine ⟨q3, m, q2, fun rest => ⟨.num n, ?_, rfl⟩⟩
    simp only [ofLimen, reads_exfil q2 rest, if_pos q4, q5, Thold.make]
  · have hth := tholdOf_sith env cs
    rw [Thold.c14_sith_roundtrip cs hw] at hth
    simp only [tholdText, hth] at h
    obtain ⟨q, l1, l2⟩ := Thold.c14_limen_roundtrip cs hw hl
    rw [h] at l1
    injection l1 with l1
    subst l1
    obtain ⟨m, hm⟩ : ∃ m, exfil t = .ok m := by
      unfold ofLimen at l2
      split at l2
      · exact absurd l2 (by simp)
      · exact ⟨_, by assumption⟩
    have hi : infil m = .ok t := by
      simp only [limen] at h
      obtain ⟨m', t', b, m1, m2, m3, m4, _⟩ := c44_bexter_roundtrip (bextOfClauses cs) (Thold.reb64_bext cs hw.2.2) hl
      rw [m1] at h
      simp only at h
      have e := infil_fun h m3
      subst e
      unfold bexterOfText at m4
      rw [hm] at m4
      simp only at m4
      split at m4
      · injection m4 with m4
        rw [m4]
        exact m3
      · exact absurd m4 (by simp)
    obtain ⟨m', r1, r2, r3⟩ := isPrim_reads ⟨m, hm, hi⟩
    refine ⟨r2, m', r1, fun rest => ⟨_, ?_, rfl⟩⟩
    rw [← l2]
    unfold ofLimen
    rw [reads_exfil r1 rest, r3]

/-! ## Dates -/

theorem date_back {t q : List Char} (hl : t.length = 32) (hc : ∀ c ∈ t, c ∈ dtChars) (h : qb64Of (mkDater t) = .ok q) :
    q.length % 4 = 0 ∧ ∃ m, Reads q m ∧ m.code = dtCode ∧ dtsOf m = .ok t := by
  obtain ⟨m, m1, m2, m3, m4⟩ := c47_dater_roundtrip t hc hl
  simp only [qb64Of, m1] at h
  have e := infil_fun h m3
  subst e
  obtain ⟨m', r1, r2, r3⟩ := isPrim_reads ⟨m, m4, m3⟩
  rw [m4] at r3
  injection r3 with r3
  subst r3
  refine ⟨r2, m, r1, ?_, m2⟩
  unfold mkDater at m1
  rw [m4] at m1
  simp only at m1
  split at m1
  · exact absurd m1 (by simp)
  · next hn => exact Decidable.byContradiction hn

/-! ## Routes -/

theorem splitC_ne_nil (sep : Char) (s : List Char) : splitC sep s ≠ [] := by
  cases s with
  | nil => simp [splitC]
  | cons c cs =>
    unfold splitC
    split
    · simp
    · split <;> simp

theorem join_splitC (sep : Char) (s : List Char) : join sep (splitC sep s) = s := by
  induction s with
  | nil => rfl
  | cons c cs ih =>
    unfold splitC
    split
    · next h =>
      subst h
      cases hs : splitC c cs with
      | nil => exact absurd hs (splitC_ne_nil c cs)
      | cons p ps =>
        rw [hs] at ih
        simp [join, ih]
    · cases hs : splitC sep cs with
      | nil => exact absurd hs (splitC_ne_nil sep cs)
      | cons p ps =>
        rw [hs] at ih
        simp only
        cases ps with
        | nil => simp only [join] at ih ⊢; rw [ih]
        | cons a r => simp only [join, List.cons_append] at ih ⊢; rw [ih]

theorem splitC_mem {sep c : Char} {s p : List Char} (hp : p ∈ splitC sep s) (hc : c ∈ p) : c ∈ s := by
  induction s generalizing p with
  | nil =>
    simp only [splitC, List.mem_singleton] at hp
    subst hp
    exact absurd hc (by simp)
  | cons a r ih =>
    unfold splitC at hp
    split at hp
    · rcases List.mem_cons.1 hp with h | h
      · subst h; exact absurd hc (by simp)
      · exact List.mem_cons_of_mem _ (ih h hc)
    · split at hp
      · next he => exact absurd he (splitC_ne_nil sep r)
      · next q qs he =>
        rcases List.mem_cons.1 hp with h | h
        · subst h
          rcases List.mem_cons.1 hc with h | h
          · simp [h]
          · exact List.mem_cons_of_mem _ (ih (p := q) (by rw [he]; simp) h)
        · exact List.mem_cons_of_mem _ (ih (by rw [he]; simp [h]) hc)

theorem att_facts {c : Char} (h : attChar c = true) : reb64 [c] = true ∧ c ≠ '-' ∧ c ≠ '/' := by
  have key : ∀ n, n < 128 → attChar (Char.ofNat n) = true → reb64 [Char.ofNat n] = true ∧ Char.ofNat n ≠ '-' ∧ Char.ofNat n ≠ '/' := by decide +kernel
  have hlt : c.toNat < 128 := by
    simp only [attChar, attStart, Bool.or_eq_true, Bool.and_eq_true, decide_eq_true_eq, Char.le_def, UInt32.le_iff_toNat_le] at h
    have e1 : 'z'.val.toNat = 122 := rfl
    have e2 : 'Z'.val.toNat = 90 := rfl
    have e3 : '9'.val.toNat = 57 := rfl
    have e5 : c.toNat = c.val.toNat := rfl
    rcases h with ((h | h) | h) | h
    · omega
    · omega
    · subst h; decide
    · omega
  have := key c.toNat hlt
  rw [Char.ofNat_toNat] at this
  exact this h

theorem repath_att {s : List Char} (h : repath s = true) (hn : '\n' ∉ s) : ∀ c ∈ s, attChar c = true := by
  unfold repath at h
  rw [if_neg] at h
  · exact fun c hc => List.all_eq_true.1 h c hc
  · intro hl
    exact hn (List.mem_of_getLast? hl)

theorem var_make {code : List Char} {raw : List Nat} {sz0 : Sizage} {m : Mat} (g1 : sizes? code = some sz0) (g2 : sz0.fs = none)
    (g4 : make code [] raw none = .ok m) :
    ∃ sz, m.raw = raw ∧ sizes? m.code = some sz ∧ sz.ls = (3 - raw.length % 3) % 3 ∧ sz.fs = none ∧ m.code.getLast? = code.getLast? := by
  have hlen : (raw.length + 2) / 3 ≤ 64 ^ 4 - 1 := by
    by_cases hl : (raw.length + 2) / 3 ≤ 64 ^ 4 - 1
    · exact hl
    · have := (c09_variable_size code [] raw sz0 g1 g2).2 (by omega)
      rw [this] at g4
      exact absurd g4 (by simp)
  obtain ⟨m', sz, m1, m2, m3, m4, m5, m6⟩ := make_var (code := code) (raw := raw) g1 g2 hlen
  rw [g4] at m1
  injection m1 with m1
  subst m1
  exact ⟨sz, m2, m3, m4, m5, m6⟩

theorem route_back {env : Env} {p q : List Char} (ht : TextOk env.toEnv p) (hn : '\n' ∉ p) (hs : '/' ∈ p ∨ '-' ∉ p) (h : qb64Of (mkPather p) = .ok q) :
    q.length % 4 = 0 ∧ ∃ m, Reads q m ∧ pathOf env m = .ok p := by
  unfold qb64Of at h
  split at h
  · exact absurd h (by simp)
  next m hm =>
  obtain ⟨parts, hp1, hp2, hp3⟩ : ∃ parts, (if '/' ∈ p then splitC '/' p else splitC '-' p) = parts ∧ join '/' parts = p ∧
      (∀ s ∈ parts, ∀ c ∈ s, c ∈ p) ∧ parts ≠ [] := by
    by_cases hsl : '/' ∈ p
    · rw [if_pos hsl]
      exact ⟨_, rfl, join_splitC _ _, fun s hs c hc => splitC_mem hs hc, splitC_ne_nil _ _⟩
    · rw [if_neg hsl]
      have hd : '-' ∉ p := hs.resolve_left hsl
      rw [Thold.splitC_single '-' p hd]
      refine ⟨_, rfl, rfl, ?_, by simp⟩
      intro s hs c hc
      rw [List.mem_singleton] at hs
      subst hs
      exact hc
  unfold mkPather at hm
  simp only [hp1] at hm
  split at hm
  · next hall =>
    have hatt : ∀ s ∈ parts, ∀ c ∈ s, attChar c = true := by
      intro s hsm
      exact repath_att (List.all_eq_true.1 hall s hsm) (fun hc => hn (hp3.1 s hsm _ hc))
    split at hm
    · exact absurd hm (by simp)
    next hdb =>
    have hb : reb64 (join '-' parts) = true := by
      rw [reb64, List.all_eq_true]
      intro c hc
      rcases Thold.mem_join hc with rfl | ⟨s, hs, hc⟩
      · decide +kernel
      · have := (att_facts (hatt s hs c hc)).1
        simpa [reb64] using this
    have hsplit : splitC '-' (join '-' parts) = parts := by
      apply Thold.splitC_join _ _ hp3.2
      intro s hs hc
      exact (att_facts (hatt s hs _ hc)).2.1 rfl
    obtain ⟨esc, he, e1, e2, e3⟩ : ∃ esc, (if (join '-' parts).head? = some 'A' ∧ (wadSize (join '-' parts).length = 0 ∨ wadSize (join '-' parts).length = 1)
        then '-' :: '-' :: join '-' parts else join '-' parts) = esc ∧ reb64 esc = true ∧ (∀ rest, esc = 'A' :: rest → 2 ≤ wadSize esc.length) ∧
          unprefix esc = join '-' parts := by
      by_cases hA : (join '-' parts).head? = some 'A' ∧ (wadSize (join '-' parts).length = 0 ∨ wadSize (join '-' parts).length = 1)
      · rw [if_pos hA]
        refine ⟨_, rfl, ?_, by simp, rfl⟩
        simp only [reb64, List.all_cons, Bool.and_eq_true] at hb ⊢
        exact ⟨by decide +kernel, by decide +kernel, hb⟩
      · rw [if_neg hA]
        refine ⟨_, rfl, hb, ?_, ?_⟩
        · intro rest hr
          rw [hr] at hA
          simp only [List.head?_cons, true_and] at hA
          rw [hr]
          omega
        · generalize join '-' parts = z at hdb
          match z with
          | [] => rfl
          | [a] => simp [unprefix]
          | a :: b :: r =>
            unfold unprefix
            split
            · next h =>
              injection h with h1 h2
              injection h2 with h2 _
              subst h1 h2
              simp [doubled] at hdb
            · rfl
    rw [he] at hm
    obtain ⟨a1, a2⟩ := allDec_of_reb64 e1
    obtain ⟨raw, r1, r2, r3, r4, r5⟩ := wad_roundtrip esc a1
    rw [r1] at hm
    simp only at hm
    obtain ⟨q', q1, q2, q3⟩ := make_reads r2 hm
    have e := infil_fun q1.text h
    subst e
    refine ⟨q3, m, q1, ?_⟩
    obtain ⟨sz, k1, k2, k3, k4, k5⟩ := var_make (sz0 := ⟨2, 2, 0, none, 0⟩) (by decide +kernel) rfl hm
    have hmem := var_last_A (m.code, sz) (mem_of_lookup k2) k4 (by rw [k5]; rfl)
    unfold pathOf
    rw [if_pos hmem, k2]
    simp only [k1, k3, r4]
    rw [textOfRaw_spec _ a1 raw r1 e2, a2, e3, hsplit, hp2]
  · rw [hp2] at hm
    split at hm
    · exact absurd hm (by simp)
    obtain ⟨q', q1, q2, q3⟩ := make_reads (bytes_lt ht) hm
    have e := infil_fun q1.text h
    subst e
    refine ⟨q3, m, q1, ?_⟩
    obtain ⟨sz, k1, k2, k3, k4, k5⟩ := var_make (sz0 := ⟨2, 2, 0, none, 0⟩) (by decide +kernel) rfl hm
    obtain ⟨_, n2⟩ := var_last_B (m.code, sz) (mem_of_lookup k2) k4 (by rw [k5]; rfl)
    unfold pathOf
    rw [if_neg n2, k1]
    exact decode_bytes ht

end Verif.Cesr
