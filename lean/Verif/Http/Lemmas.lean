import Verif.Http.Model

/-! # Lemmas on texts and tables of items -/

namespace Verif.Http

open Verif.Krm

theorem split_ne (c : Char) (t : Str) : split c t ≠ [] := by
  cases t with
  | nil => simp [split]
  | cons x r =>
    unfold split
    split
    · simp
    · split <;> simp

theorem split_append (c : Char) (a b : Str) : split c (a ++ c :: b) = split c a ++ split c b := by
  induction a with
  | nil => simp [split]
  | cons x r ih =>
    simp only [List.cons_append, split]
    by_cases h : x = c
    · rw [if_pos h, if_pos h, ih]; rfl
    · rw [if_neg h, if_neg h, ih]
      cases hs : split c r with
      | nil => exact absurd hs (split_ne c r)
      | cons y t => rfl

theorem split_free {c : Char} {t : Str} (h : c ∉ t) : split c t = [t] := by
  induction t with
  | nil => rfl
  | cons x r ih =>
    simp only [List.mem_cons, not_or] at h
    unfold split
    rw [if_neg (fun h' => h.1 h'.symm), ih h.2]

theorem split_join {c : Char} {l : List Str} (hne : l ≠ []) (h : ∀ t, t ∈ l → c ∉ t) : split c (join c l) = l := by
  induction l with
  | nil => exact absurd rfl hne
  | cons a r ih =>
    cases r with
    | nil => exact split_free (h a (by simp))
    | cons b r =>
      show split c (a ++ c :: join c (b :: r)) = _
      rw [split_append, split_free (h a (by simp)), ih (by simp) (fun t ht => h t (by simp [ht]))]
      rfl

theorem join_free {c d : Char} {l : List Str} (hcd : d ≠ c) (h : ∀ t, t ∈ l → d ∉ t) : d ∉ join c l := by
  induction l with
  | nil => simp [join]
  | cons a r ih =>
    cases r with
    | nil => exact h a (by simp)
    | cons b r =>
      show d ∉ a ++ c :: join c (b :: r)
      have := ih (fun t ht => h t (by simp [ht]))
      simp only [List.mem_append, List.mem_cons, not_or]
      exact ⟨h a (by simp), hcd, this⟩

/-- Equal joins of parts without the separator, as many, are joins of equal parts. -/
theorem join_inj {c : Char} {l m : List Str} (hl : ∀ t, t ∈ l → c ∉ t) (hm : ∀ t, t ∈ m → c ∉ t) (h1 : l ≠ []) (h2 : m ≠ [])
    (h : join c l = join c m) : l = m := by
  rw [← split_join h1 hl, ← split_join h2 hm, h]

theorem cut_item {t v : Str} (h : '=' ∉ t) : cut (item t v) = some (t, '"' :: v ++ ['"']) := by
  unfold item
  induction t with
  | nil => rfl
  | cons x r ih =>
    simp only [List.mem_cons, not_or] at h
    simp only [List.cons_append, cut]
    rw [if_neg (fun h' => h.1 h'.symm)]
    have := ih h.2
    simp only [List.cons_append] at this ⊢
    rw [this]; rfl

theorem dropWhile_free {v : Str} (h : '"' ∉ v) : v.dropWhile (· = '"') = v := by
  cases v with
  | nil => rfl
  | cons x r =>
    simp only [List.mem_cons, not_or] at h
    rw [List.dropWhile_cons_of_neg (by simpa using fun h' => h.1 h'.symm)]

theorem unquote_quoted {v : Str} (h : '"' ∉ v) : unquote ('"' :: v ++ ['"']) = v := by
  unfold unquote
  rw [List.cons_append, List.dropWhile_cons_of_pos (by simp)]
  have hd : (v ++ ['"']).dropWhile (· = '"') = v ++ ['"'] ∨ v = [] := by
    cases v with
    | nil => exact .inr rfl
    | cons x r =>
      simp only [List.mem_cons, not_or] at h
      exact .inl (by rw [List.cons_append, List.dropWhile_cons_of_neg (by simpa using fun h' => h.1 h'.symm)])
  rcases hd with hd | rfl
  · rw [hd, List.reverse_append]
    have : '"' ∉ v.reverse := by simpa using h
    simp only [List.reverse_cons, List.reverse_nil, List.nil_append, List.cons_append]
    rw [List.dropWhile_cons_of_pos (by simp), dropWhile_free this, List.reverse_reverse]
  · rfl

theorem pin_new {κ ν : Type} [DecidableEq κ] {t : Tab κ ν} {k : κ} {v : ν} (h : k ∉ t.map (·.1)) : Tab.pin t k v = t ++ [(k, v)] := by
  induction t with
  | nil => rfl
  | cons e t ih =>
    simp only [List.map_cons, List.mem_cons, not_or] at h
    unfold Tab.pin
    rw [if_neg (fun h' => h.1 h'.symm), ih h.2]; rfl

theorem get_free {κ ν : Type} [DecidableEq κ] {t : Tab κ ν} {k : κ} (h : k ∉ t.map (·.1)) : Tab.get t k = none := by
  induction t with
  | nil => rfl
  | cons e t ih =>
    simp only [List.map_cons, List.mem_cons, not_or] at h
    rw [get_cons, if_neg (fun h' => h.1 h'.symm), ih h.2]

theorem rem_free {κ ν : Type} [DecidableEq κ] {t : Tab κ ν} {k : κ} (h : k ∉ t.map (·.1)) : Tab.rem t k = t := by
  unfold Tab.rem
  rw [List.filter_eq_self]
  intro e he
  simp only [ne_eq, decide_not, Bool.not_eq_eq_eq_not, Bool.not_true, decide_eq_false_iff_not]
  intro hk
  exact h (List.mem_map.2 ⟨e, he, hk⟩)

theorem get_append {κ ν : Type} [DecidableEq κ] (a b : Tab κ ν) (k : κ) : Tab.get (a ++ b) k = (Tab.get a k).or (Tab.get b k) := by
  unfold Tab.get
  rw [List.find?_append]
  cases a.find? (fun e => e.1 = k) <;> simp

theorem rem_append {κ ν : Type} [DecidableEq κ] (a b : Tab κ ν) (k : κ) : Tab.rem (a ++ b) k = Tab.rem a k ++ Tab.rem b k := by
  unfold Tab.rem; exact List.filter_append ..

/-- A text is free of characters that the header gives a meaning. -/
def Clean (t : Str) : Prop := ' ' ∉ t ∧ ',' ∉ t ∧ ';' ∉ t ∧ '"' ∉ t

theorem parse_items {its : List (Str × Str)} {t : Tab Str Str} (hk : ((t ++ its).map (·.1)).Nodup)
    (h : ∀ i, i ∈ its → '=' ∉ i.1 ∧ Clean i.2) : parseItems t (its.map fun i => item i.1 i.2) = .ok (t ++ its) := by
  induction its generalizing t with
  | nil => simp [parseItems]
  | cons i r ih =>
    obtain ⟨h1, h2⟩ := h i (by simp)
    simp only [List.map_cons, parseItems]
    rw [cut_item h1]
    simp only
    rw [unquote_quoted h2.2.2.2, pin_new, ih]
    · simp
    · simpa using hk
    · intro j hj; exact h j (by simp [hj])
    · intro hm
      rw [List.map_append, List.nodup_append] at hk
      exact hk.2.2 _ hm _ (by simp) rfl

theorem given_keys (tag : Str) (o : Option Str) : (given tag o).map (·.1) = [] ∨ (given tag o).map (·.1) = [tag] := by
  unfold given; split <;> simp

/-- What is read of a field: nothing if it is empty. -/
def full : Option Str → Option Str
  | none => none
  | some [] => none
  | some (x :: r) => some (x :: r)

theorem get_given (tag k : Str) (o : Option Str) : Tab.get (given tag o) k = if tag = k then full o else none := by
  match o with
  | none => simp [given, full, get_nil]
  | some [] => simp [given, full, get_nil]
  | some (x :: r) =>
    simp only [given, full]
    rw [get_cons, get_nil]

theorem rem_given (tag k : Str) (o : Option Str) : Tab.rem (given tag o) k = if tag = k then [] else given tag o := by
  unfold given Tab.rem
  split
  · simp
  · simp
  · by_cases h : tag = k <;> simp [h]

theorem noSpaces_free {t : Str} (h : ' ' ∉ t) : noSpaces t = t := by
  unfold noSpaces
  rw [List.filter_eq_self]
  intro x hx
  simp only [ne_eq, decide_not, Bool.not_eq_eq_eq_not, Bool.not_true, decide_eq_false_iff_not]
  rintro rfl; exact h hx

theorem readMarks_ok {S : Type} (R : Reader S) (b : Bool) (ms : List (Str × Str)) (val : Str → S)
    (h : ∀ m, m ∈ ms → (if b then R.siger m.2 else R.cigar m.2) = .ok (val m.2)) :
    readMarks R b ms = .ok (ms.map fun m => (m.1, .sig (val m.2))) := by
  induction ms with
  | nil => rfl
  | cons m r ih =>
    obtain ⟨k, v⟩ := m
    simp only [readMarks, h (k, v) (by simp), ih (fun m hm => h m (by simp [hm]))]
    rfl

theorem readValues_append {S : Type} (R : Reader S) (a b : List Str) : readValues R (a ++ b) =
    match readValues R a with
    | .error e => .error e
    | .ok x => match readValues R b with
      | .error e => .error e
      | .ok y => .ok (x ++ y) := by
  induction a with
  | nil => simp only [List.nil_append, readValues]; cases readValues R b <;> rfl
  | cons v r ih =>
    simp only [List.cons_append, readValues]
    cases readValue R v with
    | error e => rfl
    | ok x =>
      simp only [ih]
      cases readValues R r with
      | error e => rfl
      | ok l => simp only; cases readValues R b <;> rfl

end Verif.Http
