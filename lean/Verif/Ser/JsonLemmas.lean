import Verif.Ser.Json

/-! # JSON texts are uniquely readable -/

namespace Verif.Ser

open Verif.Mad

/-- The characters that numbers are printed with. -/
def numChars : List Char := ['0', '1', '2', '3', '4', '5', '6', '7', '8', '9', '+', '-', '.', 'e', 'E']

/-- The printed form of a number. -/
def Printed (dns : List Char) : Prop := dns ≠ [] ∧ ∀ c ∈ dns, c ∈ numChars

mutual
/-- Every number in the value is one that is printed. -/
def Nums : Val → Prop
  | .num dns => Printed dns
  | .list vs => NumsL vs
  | .map fs => NumsM fs
  | _ => True

def NumsL : List Val → Prop
  | [] => True
  | v :: vs => Nums v ∧ NumsL vs

def NumsM : List (List Char × Val) → Prop
  | [] => True
  | (_, v) :: fs => Nums v ∧ NumsM fs
end

/-- Reading one character of a text. -/
def unesc : List Char → Option (Char × List Char)
  | '\\' :: 'u' :: _ :: _ :: a :: b :: r =>
    some (Char.ofNat (16 * (a.toNat - 48) + (if b.toNat < 64 then b.toNat - 48 else b.toNat - 87)), r)
  | '\\' :: 'n' :: r => some (Char.ofNat 10, r)
  | '\\' :: 'r' :: r => some (Char.ofNat 13, r)
  | '\\' :: 't' :: r => some (Char.ofNat 9, r)
  | '\\' :: 'f' :: r => some (Char.ofNat 12, r)
  | '\\' :: 'b' :: r => some (Char.ofNat 8, r)
  | '\\' :: c :: r => some (c, r)
  | '"' :: _ => none
  | c :: r => some (c, r)
  | [] => none

theorem ctl : ∀ n < 32, Char.ofNat (16 * ((hexDigit (n / 16)).toNat - 48) + (if (hexDigit (n % 16)).toNat < 64 then (hexDigit (n % 16)).toNat - 48
    else (hexDigit (n % 16)).toNat - 87)) = Char.ofNat n := by decide +kernel

theorem ofNat_toNat' (c : Char) (n : Nat) (h : c.toNat = n) : Char.ofNat n = c := by subst h; exact Char.ofNat_toNat c

theorem unesc_esc (c : Char) (s : List Char) : unesc (esc c ++ s) = some (c, s) := by
  unfold esc
  split
  · next h => subst h; rfl
  split
  · next h => subst h; rfl
  split
  · next h => show some (Char.ofNat 10, s) = _; rw [ofNat_toNat' _ _ h]
  split
  · next h => show some (Char.ofNat 13, s) = _; rw [ofNat_toNat' _ _ h]
  split
  · next h => show some (Char.ofNat 9, s) = _; rw [ofNat_toNat' _ _ h]
  split
  · next h => show some (Char.ofNat 12, s) = _; rw [ofNat_toNat' _ _ h]
  split
  · next h => show some (Char.ofNat 8, s) = _; rw [ofNat_toNat' _ _ h]
  split
  · next h =>
    simp only [List.cons_append, List.nil_append, unesc]
    rw [ctl _ h, Char.ofNat_toNat]
  · next h1 h2 _ _ _ _ _ _ =>
    simp only [List.cons_append, List.nil_append]
    unfold unesc
    split
    all_goals (first | (rename_i e; simp only [List.cons.injEq] at e; obtain ⟨rfl, _⟩ := e; first | exact absurd rfl h2 | exact absurd rfl h1) | skip)
    · rename_i e; simp only [List.cons.injEq] at e; obtain ⟨rfl, rfl⟩ := e; rfl
    · rename_i e; simp at e

theorem unesc_quote (s : List Char) : unesc ('"' :: s) = none := rfl

theorem escText_inj : ∀ (t t' r r' : List Char), escText t ++ r = escText t' ++ r' → t = t' ∧ r = r' := by
  intro t
  induction t with
  | nil =>
    intro t' r r' h
    cases t' with
    | nil => simpa [escText] using h
    | cons c t' =>
      have := congrArg unesc h
      simp only [escText, List.cons_append, List.nil_append, List.append_assoc] at this
      rw [unesc_quote, unesc_esc] at this
      simp at this
  | cons c t ih =>
    intro t' r r' h
    cases t' with
    | nil =>
      have := congrArg unesc h
      simp only [escText, List.cons_append, List.nil_append, List.append_assoc] at this
      rw [unesc_quote, unesc_esc] at this
      simp at this
    | cons c' t' =>
      have := congrArg unesc h
      simp only [escText, List.append_assoc] at this
      rw [unesc_esc, unesc_esc] at this
      simp only [Option.some.injEq, Prod.mk.injEq] at this
      obtain ⟨rfl, h2⟩ := this
      obtain ⟨h3, h4⟩ := ih _ _ _ h2
      exact ⟨by rw [h3], h4⟩

theorem jsonText_inj {t t' r r' : List Char} (h : jsonText t ++ r = jsonText t' ++ r') : t = t' ∧ r = r' := by
  simp only [jsonText, List.cons_append, List.cons.injEq, true_and] at h
  exact escText_inj _ _ _ _ h

/-- What follows a value: nothing, a comma or a closing bracket. -/
def Stop (r : List Char) : Prop := r = [] ∨ ∃ c s, r = c :: s ∧ c ∈ [',', ']', '}']

theorem Stop.notNum {r : List Char} (h : Stop r) : ∀ c s, r = c :: s → c ∉ numChars := by
  intro c s e
  rcases h with rfl | ⟨c', s', rfl, hc⟩
  · simp at e
  · simp only [List.cons.injEq] at e
    obtain ⟨rfl, rfl⟩ := e
    have : ∀ c ∈ [',', ']', '}'], c ∉ numChars := by decide +kernel
    exact this _ hc

theorem num_inj : ∀ {a b r s : List Char}, (∀ c ∈ a, c ∈ numChars) → (∀ c ∈ b, c ∈ numChars) → Stop r → Stop s → a ++ r = b ++ s → a = b ∧ r = s := by
  intro a
  induction a with
  | nil =>
    intro b r s _ hb hr _ h
    cases b with
    | nil => exact ⟨rfl, by simpa using h⟩
    | cons c b => exact absurd (hb c (by simp)) (hr.notNum c (b ++ s) (by simpa using h))
  | cons c a ih =>
    intro b r s ha hb hr hs h
    cases b with
    | nil => exact absurd (ha c (by simp)) (hs.notNum c (a ++ r) (by simpa using h.symm))
    | cons c' b =>
      simp only [List.cons_append, List.cons.injEq] at h
      obtain ⟨rfl, h⟩ := h
      obtain ⟨rfl, h2⟩ := ih (fun x hx => ha x (by simp [hx])) (fun x hx => hb x (by simp [hx])) hr hs h
      exact ⟨rfl, h2⟩

/-- What kind of value starts with the character. -/
def lead (c : Char) : Nat :=
  if c = 'n' then 0 else if c = 't' then 1 else if c = 'f' then 2 else if c = '"' then 3 else if c = '[' then 4 else if c = '{' then 5
  else if c ∈ numChars then 6 else 7

def leadV : Val → Nat
  | .null => 0
  | .bool true => 1
  | .bool false => 2
  | .text _ => 3
  | .list _ => 4
  | .map _ => 5
  | .num _ => 6

theorem lead_num : ∀ c ∈ numChars, lead c = 6 := by decide +kernel

theorem jsonV_head (v : Val) (h : Nums v) : ∃ c s, jsonV v = c :: s ∧ lead c = leadV v := by
  cases v with
  | null => exact ⟨_, _, by rw [jsonV], by decide⟩
  | bool b => cases b <;> exact ⟨_, _, by rw [jsonV], by decide⟩
  | num dns =>
    simp only [Nums] at h
    obtain ⟨h1, h2⟩ := h
    cases dns with
    | nil => exact absurd rfl h1
    | cons c s => exact ⟨c, s, by rw [jsonV], lead_num c (h2 c (by simp))⟩
  | text t => exact ⟨_, _, by rw [jsonV, jsonText], rfl⟩
  | list vs => exact ⟨_, _, by rw [jsonV], rfl⟩
  | map fs => exact ⟨_, _, by rw [jsonV], rfl⟩

theorem jsonV_lead {v w : Val} {r s : List Char} (hv : Nums v) (hw : Nums w) (h : jsonV v ++ r = jsonV w ++ s) : leadV v = leadV w := by
  obtain ⟨c, x, e1, l1⟩ := jsonV_head v hv
  obtain ⟨d, y, e2, l2⟩ := jsonV_head w hw
  rw [e1, e2] at h
  simp only [List.cons_append, List.cons.injEq] at h
  rw [← l1, ← l2, h.1]

theorem stopL (vs : List Val) (r : List Char) : Stop (jsonL false vs ++ r) := by
  cases vs with
  | nil => exact .inr ⟨_, _, by rw [jsonL]; rfl, by simp⟩
  | cons v vs => exact .inr ⟨_, _, by rw [jsonL]; rfl, by simp⟩

theorem stopM (fs : List (List Char × Val)) (r : List Char) : Stop (jsonM false fs ++ r) := by
  cases fs with
  | nil => exact .inr ⟨_, _, by rw [jsonM]; rfl, by simp⟩
  | cons p fs => obtain ⟨l, v⟩ := p; exact .inr ⟨_, _, by rw [jsonM]; rfl, by simp⟩

theorem not_close (v : Val) (h : Nums v) (r s : List Char) : jsonV v ++ r ≠ ']' :: s := by
  obtain ⟨c, x, e, l⟩ := jsonV_head v h
  rw [e]
  intro hc
  simp only [List.cons_append, List.cons.injEq] at hc
  rw [hc.1] at l
  have h7 : lead ']' = 7 := by decide +kernel
  rw [h7] at l
  cases v <;> simp [leadV] at l
  next b => cases b <;> simp at l

mutual
theorem jsonV_inj : ∀ (v w : Val) (r s : List Char), Nums v → Nums w → Stop r → Stop s → jsonV v ++ r = jsonV w ++ s → v = w ∧ r = s
  | v, w, r, s, hv, hw, hr, hs, h => by
    have hl := jsonV_lead hv hw h
    match v, w with
    | .null, .null => simpa [jsonV] using h
    | .bool true, .bool true => simpa [jsonV] using h
    | .bool false, .bool false => simpa [jsonV] using h
    | .num a, .num b =>
      simp only [jsonV] at h
      obtain ⟨rfl, h2⟩ := num_inj hv.2 hw.2 hr hs h
      exact ⟨rfl, h2⟩
    | .text a, .text b =>
      simp only [jsonV] at h
      obtain ⟨rfl, h2⟩ := jsonText_inj h
      exact ⟨rfl, h2⟩
    | .list a, .list b =>
      simp only [jsonV, List.cons_append, List.cons.injEq, true_and] at h
      obtain ⟨rfl, h2⟩ := jsonL_inj true a b r s hv hw h
      exact ⟨rfl, h2⟩
    | .map a, .map b =>
      simp only [jsonV, List.cons_append, List.cons.injEq, true_and] at h
      obtain ⟨rfl, h2⟩ := jsonM_inj true a b r s hv hw h
      exact ⟨rfl, h2⟩
    | .null, .bool true | .null, .bool false | .null, .num _ | .null, .text _ | .null, .list _ | .null, .map _
    | .bool true, .null | .bool true, .bool false | .bool true, .num _ | .bool true, .text _ | .bool true, .list _ | .bool true, .map _
    | .bool false, .null | .bool false, .bool true | .bool false, .num _ | .bool false, .text _ | .bool false, .list _ | .bool false, .map _
    | .num _, .null | .num _, .bool true | .num _, .bool false | .num _, .text _ | .num _, .list _ | .num _, .map _
    | .text _, .null | .text _, .bool true | .text _, .bool false | .text _, .num _ | .text _, .list _ | .text _, .map _
    | .list _, .null | .list _, .bool true | .list _, .bool false | .list _, .num _ | .list _, .text _ | .list _, .map _
    | .map _, .null | .map _, .bool true | .map _, .bool false | .map _, .num _ | .map _, .text _ | .map _, .list _ => simp [leadV] at hl

theorem jsonL_inj : ∀ (first : Bool) (a b : List Val) (r s : List Char), NumsL a → NumsL b → jsonL first a ++ r = jsonL first b ++ s → a = b ∧ r = s
  | first, [], [], r, s, _, _, h => by simpa [jsonL] using h
  | first, [], w :: ws, r, s, _, hb, h => by
    cases first with
    | true =>
      simp only [jsonL, if_true, List.nil_append, List.append_assoc, List.cons_append] at h
      exact absurd h.symm (not_close w hb.1 _ _)
    | false => simp [jsonL] at h
  | first, v :: vs, [], r, s, ha, _, h => by
    cases first with
    | true =>
      simp only [jsonL, if_true, List.nil_append, List.append_assoc, List.cons_append] at h
      exact absurd h (not_close v ha.1 _ _)
    | false => simp [jsonL] at h
  | first, v :: vs, w :: ws, r, s, ha, hb, h => by
    have h : jsonV v ++ (jsonL false vs ++ r) = jsonV w ++ (jsonL false ws ++ s) := by
      cases first <;> simpa [jsonL] using h
    obtain ⟨rfl, h2⟩ := jsonV_inj v w _ _ ha.1 hb.1 (stopL _ _) (stopL _ _) h
    obtain ⟨rfl, h3⟩ := jsonL_inj false vs ws r s ha.2 hb.2 h2
    exact ⟨rfl, h3⟩

theorem jsonM_inj : ∀ (first : Bool) (a b : List (List Char × Val)) (r s : List Char), NumsM a → NumsM b → jsonM first a ++ r = jsonM first b ++ s →
    a = b ∧ r = s
  | first, [], [], r, s, _, _, h => by simpa [jsonM] using h
  | first, [], (m, w) :: ws, r, s, _, hb, h => by cases first <;> simp [jsonM, jsonText] at h
  | first, (l, v) :: vs, [], r, s, ha, _, h => by cases first <;> simp [jsonM, jsonText] at h
  | first, (l, v) :: vs, (m, w) :: ws, r, s, ha, hb, h => by
    have h : jsonText l ++ (':' :: (jsonV v ++ (jsonM false vs ++ r))) = jsonText m ++ (':' :: (jsonV w ++ (jsonM false ws ++ s))) := by
      cases first <;> simpa [jsonM] using h
    obtain ⟨rfl, h1⟩ := jsonText_inj h
    simp only [List.cons.injEq, true_and] at h1
    obtain ⟨rfl, h2⟩ := jsonV_inj v w _ _ ha.1 hb.1 (stopM _ _) (stopM _ _) h1
    obtain ⟨rfl, h3⟩ := jsonM_inj false vs ws r s ha.2 hb.2 h2
    exact ⟨rfl, h3⟩
end

/-- Two maps with the same JSON are the same. -/
theorem json_inj {a b : Flds} (ha : NumsM a) (hb : NumsM b) (h : json a = json b) : a = b := by
  have := (jsonV_inj (.map a) (.map b) [] [] ha hb (.inl rfl) (.inl rfl) (by simpa [json] using h)).1
  simpa using this

/-- No message is the beginning of another. -/
theorem json_prefix {a b : Flds} {r s : List Char} (ha : NumsM a) (hb : NumsM b) (h : json a ++ r = json b ++ s) : a = b ∧ r = s := by
  simp only [json, jsonV, List.cons_append, List.cons.injEq, true_and] at h
  exact jsonM_inj true a b r s ha hb h

end Verif.Ser
