import Verif.Prs.Version
import Verif.Codec.PropsB64
import Verif.Db.KeyLemmas

/-! # Lemmas on version strings -/

namespace Verif.Prs

open Verif.B64
open Verif.Db (hexChar hexLen hexVal intHex)

theorem ofNat_toNat (c : Char) : Char.ofNat c.toNat = c := by simp

@[simp] theorem chars_asc (s : List Char) : chars (asc s) = s := by
  simp [chars, asc, Function.comp_def]

@[simp] theorem asc_length (s : List Char) : (asc s).length = s.length := by simp [asc]
@[simp] theorem chars_length (s : Bytes) : (chars s).length = s.length := by simp [chars]
@[simp] theorem asc_append (s t : List Char) : asc (s ++ t) = asc s ++ asc t := by simp [asc]
@[simp] theorem chars_append (s t : Bytes) : chars (s ++ t) = chars s ++ chars t := by simp [chars]

theorem int_len {n l : Nat} (h : n < 64 ^ l) : (intToB64 n l).length = l := by
  rw [intToB64_eq h]; simp

theorem int_back {n l : Nat} (hl : 0 < l) : b64ToInt (intToB64 n l) = .ok n := (c01_int_roundtrip n l hl).1

theorem b64_char : ∀ i < 64, isB64 (chr i).toNat = true := by decide +kernel

theorem int_isB64 {n l : Nat} (h : n < 64 ^ l) : (asc (intToB64 n l)).all isB64 = true := by
  rw [intToB64_eq h]
  simp only [asc, chrs, List.map_map, List.all_map, List.all_eq_true]
  intro d hd
  exact b64_char d (toDigits_allLt (by omega) _ _ d hd)

theorem hexPad_of_lt {w n : Nat} (hw : 0 < w) (h : n < 16 ^ w) : hexPad w n = (toDigits 16 w n).map hexChar := by
  unfold hexPad
  rw [Nat.max_eq_left (Verif.Db.hexLen_le hw h)]

theorem hexPad_len {w n : Nat} (hw : 0 < w) (h : n < 16 ^ w) : (hexPad w n).length = w := by
  rw [hexPad_of_lt hw h]; simp

theorem hex_char : ∀ d < 16, isHex (hexChar d) = true := by decide +kernel

theorem hexPad_isHex (w n : Nat) : (hexPad w n).all isHex = true := by
  unfold hexPad
  simp only [List.all_map, List.all_eq_true]
  intro d hd
  exact hex_char d (toDigits_allLt (by omega) _ _ d hd)

theorem intHex_hexPad {w n : Nat} (hw : 0 < w) : intHex (hexPad w n) = .ok n := by
  have hlt : n < 16 ^ max w (hexLen n) :=
    Nat.lt_of_lt_of_le (Verif.Db.lt_hexLen n) (Nat.pow_le_pow_right (by omega) (Nat.le_max_right _ _))
  unfold intHex hexPad
  rw [if_neg, Verif.Db.mapM_hexVal (toDigits_allLt (by omega) _ _)]
  · simp only; rw [ofDigits_toDigits_of_lt hlt]
  · intro hc
    have := congrArg List.length hc
    simp at this
    omega

theorem list1 {α : Type} {l : List α} (h : l.length = 1) : ∃ a, l = [a] := List.length_eq_one_iff.1 h

theorem list2 {α : Type} {l : List α} (h : l.length = 2) : ∃ a b, l = [a, b] := by
  match l, h with
  | [a, b], _ => exact ⟨a, b, rfl⟩

theorem list4 {α : Type} {l : List α} (h : l.length = 4) : ∃ a b c d, l = [a, b, c, d] := by
  match l, h with
  | [a, b, c, d], _ => exact ⟨a, b, c, d, rfl⟩

theorem list6 {α : Type} {l : List α} (h : l.length = 6) : ∃ a b c d e f, l = [a, b, c, d, e, f] := by
  match l, h with
  | [a, b, c, d, e, f], _ => exact ⟨a, b, c, d, e, f, rfl⟩

theorem proto_back (p : Proto) : protoOf p.text = some p := by cases p <;> rfl
theorem kind_back (k : Kind) : kindOf k.text = some k := by cases k <;> rfl
theorem proto_upper (p : Proto) : p.text.all isUpper = true := by cases p <;> rfl
theorem kind_upper (k : Kind) : k.text.all isUpper = true := by cases k <;> rfl
theorem proto_len (p : Proto) : p.text.length = 4 := by cases p <;> rfl
theorem kind_len (k : Kind) : k.text.length = 4 := by cases k <;> rfl

theorem protoOf_some {b : Bytes} {p : Proto} (h : protoOf b = some p) : b = p.text := by
  unfold protoOf at h
  repeat' split at h
  all_goals first | (injection h with h; subst h; assumption) | exact absurd h (by simp)

theorem kindOf_some {b : Bytes} {k : Kind} (h : kindOf b = some k) : b = k.text := by
  unfold kindOf at h
  repeat' split at h
  all_goals first | (injection h with h; subst h; assumption) | exact absurd h (by simp)

/-- A version 2 string laid out. -/
theorem at2 {p k a b c d s rest : Bytes} (hp : p.length = 4) (hk : k.length = 4) (ha : a.length = 1) (hb : b.length = 2) (hc : c.length = 1)
    (hd : d.length = 2) (hs : s.length = 4) :
    let t := p ++ a ++ b ++ c ++ d ++ k ++ s ++ [46] ++ rest
    t.take 4 = p ∧ (t.drop 4).take 1 = a ∧ (t.drop 5).take 2 = b ∧ (t.drop 7).take 1 = c ∧ (t.drop 8).take 2 = d ∧
    (t.drop 4).take 6 = a ++ b ++ c ++ d ∧ (t.drop 10).take 4 = k ∧ (t.drop 14).take 4 = s ∧ (t.drop 18).take 1 = [46] ∧ 19 ≤ t.length := by
  obtain ⟨p1, p2, p3, p4, rfl⟩ := list4 hp
  obtain ⟨k1, k2, k3, k4, rfl⟩ := list4 hk
  obtain ⟨a1, rfl⟩ := list1 ha
  obtain ⟨b1, b2, rfl⟩ := list2 hb
  obtain ⟨c1, rfl⟩ := list1 hc
  obtain ⟨d1, d2, rfl⟩ := list2 hd
  obtain ⟨s1, s2, s3, s4, rfl⟩ := list4 hs
  simp

/-- A version 1 string laid out. -/
theorem at1 {p k a b s rest : Bytes} (hp : p.length = 4) (hk : k.length = 4) (ha : a.length = 1) (hb : b.length = 1) (hs : s.length = 6) :
    let t := p ++ a ++ b ++ k ++ s ++ [95] ++ rest
    t.take 4 = p ∧ (t.drop 4).take 1 = a ∧ (t.drop 5).take 1 = b ∧ (t.drop 4).take 2 = a ++ b ∧ (t.drop 6).take 4 = k ∧
    (t.drop 10).take 6 = s ∧ (t.drop 16).take 1 = [95] ∧ 17 ≤ t.length ∧ (t.drop 10).take 4 = s.take 4 := by
  obtain ⟨p1, p2, p3, p4, rfl⟩ := list4 hp
  obtain ⟨k1, k2, k3, k4, rfl⟩ := list4 hk
  obtain ⟨a1, rfl⟩ := list1 ha
  obtain ⟨b1, rfl⟩ := list1 hb
  obtain ⟨s1, s2, s3, s4, s5, s6, rfl⟩ := list6 hs
  simp

theorem hex_not_upper {b : Nat} (h : isHex b = true) : isUpper b = false := by
  simp [isHex, isUpper] at *; omega

theorem two_forms {proto : Proto} {pmin gmin size : Nat} {kind : Kind} (h1 : pmin < 64 ^ 2) (h2 : gmin < 64 ^ 2) (h3 : size < 64 ^ 4) (rest : Bytes) :
    versionAt (proto.text ++ asc (intToB64 2 1) ++ asc (intToB64 pmin 2) ++ asc (intToB64 2 1) ++ asc (intToB64 gmin 2) ++ kind.text ++
      asc (intToB64 size 4) ++ [46] ++ rest) = some (.ok ⟨proto, (2, pmin), kind, size, some (2, gmin)⟩) := by
  have h := at2 (p := proto.text) (k := kind.text) (a := asc (intToB64 2 1)) (b := asc (intToB64 pmin 2)) (c := asc (intToB64 2 1))
    (d := asc (intToB64 gmin 2)) (s := asc (intToB64 size 4)) (rest := rest) (proto_len _) (kind_len _) (by rw [asc_length, int_len (by omega)])
    (by rw [asc_length, int_len h1]) (by rw [asc_length, int_len (by omega)]) (by rw [asc_length, int_len h2]) (by rw [asc_length, int_len h3])
  simp only at h
  generalize proto.text ++ asc (intToB64 2 1) ++ asc (intToB64 pmin 2) ++ asc (intToB64 2 1) ++ asc (intToB64 gmin 2) ++ kind.text ++
      asc (intToB64 size 4) ++ [46] ++ rest = t at h
  obtain ⟨e1, e2, e3, e4, e5, e6, e7, e8, e9, e10⟩ := h
  have hm : match2 t = true := by
    unfold match2
    rw [e1, e6, e7, e8, e9]
    simp only [List.all_append, int_isB64 h1, int_isB64 h2, int_isB64 h3, int_isB64 (show 2 < 64 ^ 1 by omega), proto_upper, kind_upper, e10,
      decide_true, Bool.and_self]
  unfold versionAt
  rw [if_pos hm]
  unfold rematch2
  rw [e1, e2, e3, e4, e5, e7, e8, proto_back]
  simp only [chars_asc, int_back (show 0 < 1 by omega), int_back (show 0 < 2 by omega), int_back (show 0 < 4 by omega), kind_back, ne_eq,
    not_true_eq_false, if_false]

theorem one_forms {proto : Proto} {maj min size : Nat} {kind : Kind} (h0 : maj ≤ 1) (h1 : min < 16) (h3 : size < 16 ^ 6) (hk : kind ≠ .cesr) (rest : Bytes) :
    versionAt (proto.text ++ hexPad 1 maj ++ hexPad 1 min ++ kind.text ++ hexPad 6 size ++ [95] ++ rest) =
      some (.ok ⟨proto, (maj, min), kind, size, none⟩) := by
  have hl6 := hexPad_len (w := 6) (by omega) h3
  have h := at1 (p := proto.text) (k := kind.text) (a := hexPad 1 maj) (b := hexPad 1 min) (s := hexPad 6 size) (rest := rest)
    (proto_len _) (kind_len _) (hexPad_len (by omega) (by omega)) (hexPad_len (by omega) (by omega)) hl6
  simp only at h
  generalize proto.text ++ hexPad 1 maj ++ hexPad 1 min ++ kind.text ++ hexPad 6 size ++ [95] ++ rest = t at h
  obtain ⟨e1, e2, e3, e4, e5, e6, e7, e8, e9⟩ := h
  have hm2 : match2 t = false := by
    unfold match2
    rw [e9]
    have hx := hexPad_isHex 6 size
    obtain ⟨s1, s2, s3, s4, s5, s6, hs⟩ := list6 hl6
    rw [hs] at hx ⊢
    simp only [List.all_cons, Bool.and_eq_true] at hx
    simp [hex_not_upper hx.1]
  have hm : match1 t = true := by
    unfold match1
    rw [e1, e4, e5, e6, e7]
    simp only [List.all_append, hexPad_isHex, proto_upper, kind_upper, e8, decide_true, Bool.and_self]
  unfold versionAt
  rw [if_neg (by rw [hm2]; simp), if_pos hm]
  unfold rematch1
  rw [e1, e2, e3, e5, e6, proto_back, kind_back]
  simp only [intHex_hexPad (show 0 < 1 by omega), intHex_hexPad (show 0 < 6 by omega)]
  rw [if_neg (by omega), if_neg hk]

theorem match_upper {b : Bytes} {r : Except Err Smellage} (h : versionAt b = some r) : ∃ c t, b = c :: t ∧ isUpper c = true := by
  unfold versionAt at h
  have key : match2 b = true ∨ match1 b = true := by
    by_cases h2 : match2 b = true
    · exact .inl h2
    · rw [if_neg h2] at h
      by_cases h1 : match1 b = true
      · exact .inr h1
      · rw [if_neg h1] at h; exact absurd h (by simp)
  match b with
  | [] => rcases key with h | h <;> simp [match2, match1] at h
  | c :: t =>
    refine ⟨c, t, rfl, ?_⟩
    rcases key with h | h <;> simp [match2, match1] at h <;> exact h.1.1.1.1.2.1

theorem search_prefix {p : Bytes} (hp : ∀ c ∈ p, isUpper c = false) (b : Bytes) (n : Nat) : search (p.length + n) (p ++ b) = search n b := by
  induction p with
  | nil => simp
  | cons c p ih =>
    rw [List.length_cons, show p.length + 1 + n = (p.length + n) + 1 by omega]
    show (match versionAt (c :: (p ++ b)) with | some r => r | none => search (p.length + n) ((c :: (p ++ b)).drop 1)) = _
    have hn : versionAt (c :: (p ++ b)) = none := by
      cases h : versionAt (c :: (p ++ b)) with
      | none => rfl
      | some r =>
        obtain ⟨c', t, e, hu⟩ := match_upper h
        injection e with e _
        subst e
        rw [hp c (by simp)] at hu
        exact absurd hu (by simp)
    rw [hn]
    exact ih (fun c hc => hp c (by simp [hc]))

/-- The readers look at nineteen bytes at most. -/
theorem take_take' {b rest : Bytes} {k n : Nat} (h : k + n ≤ b.length) : ((b ++ rest).drop k).take n = (b.drop k).take n := by
  rw [List.drop_append_of_le_length (by omega), List.take_append_of_le_length (by simp; omega)]

theorem versionAt_prefix (b rest : Bytes) (h : 19 ≤ b.length) : versionAt (b ++ rest) = versionAt b := by
  have t4 : (b ++ rest).take 4 = b.take 4 := List.take_append_of_le_length (by omega)
  have m2 : match2 (b ++ rest) = match2 b := by
    unfold match2
    rw [t4, take_take' (by omega), take_take' (by omega), take_take' (by omega), take_take' (by omega)]
    simp only [List.length_append, show 19 ≤ b.length + rest.length by omega, h]
  have m1 : match1 (b ++ rest) = match1 b := by
    unfold match1
    rw [t4, take_take' (by omega), take_take' (by omega), take_take' (by omega), take_take' (by omega)]
    simp only [List.length_append, show 17 ≤ b.length + rest.length by omega, show 17 ≤ b.length by omega]
  have r2 : rematch2 (b ++ rest) = rematch2 b := by
    unfold rematch2
    rw [t4, take_take' (by omega), take_take' (by omega), take_take' (by omega), take_take' (by omega), take_take' (by omega), take_take' (by omega)]
  have r1 : rematch1 (b ++ rest) = rematch1 b := by
    unfold rematch1
    rw [t4, take_take' (by omega), take_take' (by omega), take_take' (by omega), take_take' (by omega)]
  unfold versionAt
  rw [m1, m2, r1, r2]

theorem search_append (n : Nat) (b rest : Bytes) (h : n + 18 ≤ b.length) : search n (b ++ rest) = search n b := by
  induction n generalizing b with
  | zero => rfl
  | succ n ih =>
    show (match versionAt (b ++ rest) with | some r => r | none => search n ((b ++ rest).drop 1)) =
      (match versionAt b with | some r => r | none => search n (b.drop 1))
    rw [versionAt_prefix b rest (by omega), List.drop_append_of_le_length (by omega), ih (b.drop 1) (by simp; omega)]

/-- `smell` depends on the first 27 bytes only. -/
theorem smell_append (b rest : Bytes) (h : 27 ≤ b.length) : smell (b ++ rest) = smell b := by
  unfold smell
  rw [if_neg (by simp; omega), if_neg (by omega), search_append 9 b rest (by omega)]

end Verif.Prs
