import Verif.Db.Key

/-! # Lemmas on ordinal keys -/

namespace Verif.Db

theorem hexVal_hexChar {d : Nat} (h : d < 16) : hexVal (hexChar d) = some d := by
  have : ∀ d, d < 16 → hexVal (hexChar d) = some d := by decide
  exact this d h

theorem hexChar_lt {a b : Nat} (ha : a < 16) (hb : b < 16) : hexChar a < hexChar b ↔ a < b := by
  unfold hexChar
  split <;> split <;> omega

theorem hexChar_inj {a b : Nat} (ha : a < 16) (hb : b < 16) : hexChar a = hexChar b ↔ a = b := by
  unfold hexChar
  split <;> split <;> omega

theorem lexLt_map_hex {x y : List Nat} (hx : AllLt 16 x) (hy : AllLt 16 y) :
    lexLt (x.map hexChar) (y.map hexChar) = lexLt x y := by
  induction x generalizing y with
  | nil => cases y <;> rfl
  | cons a x ih =>
    cases y with
    | nil => rfl
    | cons b y =>
      rw [allLt_cons] at hx hy
      simp only [List.map_cons, lexLt]
      rw [ih hx.2 hy.2]
      simp [hexChar_lt hx.1 hy.1, hexChar_inj hx.1 hy.1]

theorem hexLen_pos (n : Nat) : 0 < hexLen n := by
  unfold hexLen; split <;> omega

theorem lt_hexLen (n : Nat) : n < 16 ^ hexLen n := by
  induction n using hexLen.induct with
  | case1 n h => unfold hexLen; rw [if_pos h]; omega
  | case2 n h ih =>
    unfold hexLen; rw [if_neg h, Nat.pow_succ]
    omega

theorem hexLen_le {n w : Nat} (hw : 0 < w) (h : n < 16 ^ w) : hexLen n ≤ w := by
  induction n using hexLen.induct generalizing w with
  | case1 n hn => unfold hexLen; rw [if_pos hn]; exact hw
  | case2 n hn ih =>
    unfold hexLen; rw [if_neg hn]
    cases w with
    | zero => omega
    | succ w =>
      cases w with
      | zero => simp at h; omega
      | succ w =>
        have : n / 16 < 16 ^ (w + 1) := by
          rw [Nat.pow_succ 16 (w + 1), Nat.mul_comm] at h
          exact Nat.div_lt_of_lt_mul h
        have := ih (by omega) this
        omega

theorem hex32_of_lt {n : Nat} (h : n < 16 ^ 32) : hex32 n = (toDigits 16 32 n).map hexChar := by
  unfold hex32
  have := hexLen_le (w := 32) (by omega) h
  rw [Nat.max_eq_left this]

theorem hex32_length {n : Nat} (h : n < 16 ^ 32) : (hex32 n).length = 32 := by
  rw [hex32_of_lt h]; simp

theorem lexLt_hex32 {m n : Nat} (hm : m < 16 ^ 32) (hn : n < 16 ^ 32) : lexLt (hex32 m) (hex32 n) = true ↔ m < n := by
  rw [hex32_of_lt hm, hex32_of_lt hn,
    lexLt_map_hex (toDigits_allLt (by omega) _ _) (toDigits_allLt (by omega) _ _),
    lexLt_digits (b := 16) (by simp) (toDigits_allLt (by omega) _ _) (toDigits_allLt (by omega) _ _),
    ofDigits_toDigits_of_lt hm, ofDigits_toDigits_of_lt hn]

theorem mapM_hexVal {ds : List Nat} (h : AllLt 16 ds) : (ds.map hexChar).mapM hexVal = some ds := by
  induction ds with
  | nil => rfl
  | cons d ds ih =>
    rw [allLt_cons] at h
    simp [List.mapM_cons, hexVal_hexChar h.1, ih h.2]

theorem intHex_hex32 (n : Nat) : intHex (hex32 n) = .ok n := by
  have hlt : n < 16 ^ max 32 (hexLen n) :=
    Nat.lt_of_lt_of_le (lt_hexLen n) (Nat.pow_le_pow_right (by omega) (Nat.le_max_right _ _))
  unfold intHex hex32
  rw [if_neg, mapM_hexVal (toDigits_allLt (by omega) _ _)]
  · simp only; rw [ofDigits_toDigits_of_lt hlt]
  · intro hc
    have := congrArg List.length hc
    simp at this

theorem hex32_inj {m n : Nat} (h : hex32 m = hex32 n) : m = n := by
  have := intHex_hex32 m
  rw [h, intHex_hex32] at this
  injection this with this; exact this.symm

theorem sep_not_mem {sep : Nat} (hs : SepOk sep) (n : Nat) : sep ∉ hex32 n := by
  intro h
  unfold hex32 at h
  obtain ⟨d, hd, rfl⟩ := List.mem_map.1 h
  have := hexVal_hexChar (toDigits_allLt (by omega) _ _ d hd)
  rw [hs] at this; exact absurd this (by simp)

theorem rsplit_none {sep : Nat} {t : Bytes} (h : sep ∉ t) : rsplit sep t = none := by
  induction t with
  | nil => rfl
  | cons c t ih =>
    simp only [List.mem_cons, not_or] at h
    simp [rsplit, ih h.2, Ne.symm h.1]

theorem rsplit_append {sep : Nat} (a : Bytes) {t : Bytes} (h : sep ∉ t) : rsplit sep (a ++ sep :: t) = some (a, t) := by
  induction a with
  | nil => simp [rsplit, rsplit_none h]
  | cons c a ih => simp [rsplit, ih]

theorem rsplit_some {sep : Nat} {x a t : Bytes} (h : rsplit sep x = some (a, t)) : x = a ++ sep :: t ∧ sep ∉ t := by
  induction x generalizing a t with
  | nil => simp [rsplit] at h
  | cons c x ih =>
    unfold rsplit at h
    cases hr : rsplit sep x with
    | some p =>
      obtain ⟨a', t'⟩ := p
      rw [hr] at h; simp at h
      obtain ⟨rfl, rfl⟩ := h
      obtain ⟨h1, h2⟩ := ih hr
      exact ⟨by rw [h1]; rfl, h2⟩
    | none =>
      rw [hr] at h; simp at h
      obtain ⟨rfl, rfl, rfl⟩ := h
      refine ⟨rfl, ?_⟩
      clear ih
      intro hm
      induction x with
      | nil => simp at hm
      | cons d x ih =>
        unfold rsplit at hr
        cases hq : rsplit c x with
        | some p => rw [hq] at hr; simp at hr
        | none =>
          rw [hq] at hr; simp at hr
          rcases List.mem_cons.1 hm with rfl | hm
          · exact hr rfl
          · exact ih hq hm

theorem splitOnKey_onKey {sep : Nat} (hs : SepOk sep) (top : Bytes) (n : Nat) : splitOnKey sep (onKey sep top n) = .ok (top, n) := by
  unfold splitOnKey onKey
  rw [rsplit_append top (sep_not_mem hs n)]
  simp only [intHex_hex32]

theorem unsuffix_suffix {sep : Nat} (hs : SepOk sep) (key : Bytes) (n : Nat) : unsuffix sep (suffix sep key n) = .ok (key, n) := by
  unfold unsuffix suffix
  rw [rsplit_append key (sep_not_mem hs n)]
  simp only [intHex_hex32]

theorem unsuffix_eq_splitOnKey (sep : Nat) (x : Bytes) : unsuffix sep x = splitOnKey sep x := rfl
theorem suffix_eq_onKey (sep : Nat) (x : Bytes) (n : Nat) : suffix sep x n = onKey sep x n := rfl

theorem onKey_inj {sep : Nat} (hs : SepOk sep) {a b : Bytes} {m n : Nat} (h : onKey sep a m = onKey sep b n) : a = b ∧ m = n := by
  have := splitOnKey_onKey hs a m
  rw [h, splitOnKey_onKey hs] at this
  injection this with this
  injection this with h1 h2
  exact ⟨h1.symm, h2.symm⟩

theorem lexLt_onKey {sep : Nat} (top : Bytes) {m n : Nat} (hm : m < 16 ^ 32) (hn : n < 16 ^ 32) :
    lexLt (onKey sep top m) (onKey sep top n) = true ↔ m < n := by
  unfold onKey
  rw [lexLt_append]
  simp only [lexLt, Nat.lt_irrefl, decide_false, Bool.false_or, decide_true, Bool.true_and]
  exact lexLt_hex32 hm hn

end Verif.Db
