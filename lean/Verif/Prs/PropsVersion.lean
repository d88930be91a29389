import Verif.Prs.VersionLemmas

/-!
# C84: version strings

`vers` below says which protocol versions have a version string, and how many characters it takes.
-/

namespace Verif.Prs

open Verif.B64
open Verif.Db (hexChar hexLen hexVal intHex)

/-- The arguments of `versify` that fit in the fixed width fields of a version string. -/
def Fits (pvrsn : Nat × Nat) (size : Nat) (gvrsn : Option (Nat × Nat)) : Prop :=
  if pvrsn.1 < 2 then pvrsn.2 ≤ 15 ∧ size < 16 ^ 6 else pvrsn.2 ≤ 4095 ∧ size < 64 ^ 4 ∧ ∀ g, gvrsn = some g → g.2 ≤ 4095

/-- Number of characters of a version string. -/
def vsLen (major : Nat) : Nat := if major < 2 then 17 else 19

/-- The genus version a reader finds. -/
def foundGenus (pvrsn : Nat × Nat) (gvrsn : Option (Nat × Nat)) : Option (Nat × Nat) :=
  if pvrsn.1 < 2 then none else some (gvrsn.getD pvrsn)

theorem versify_two {proto : Proto} {pvrsn : Nat × Nat} {kind : Kind} {size : Nat} {gvrsn : Option (Nat × Nat)} {vs : Bytes}
    (h : versify proto pvrsn kind size gvrsn = .ok vs) (hf : Fits pvrsn size gvrsn) (rest : Bytes) :
    versionAt (vs ++ rest) = some (.ok ⟨proto, pvrsn, kind, size, foundGenus pvrsn gvrsn⟩) ∧ vs.length = vsLen pvrsn.1 := by
  obtain ⟨maj, min⟩ := pvrsn
  unfold versify at h
  simp only at h
  by_cases h2 : maj < 2
  · rw [if_pos h2] at h
    split at h
    · exact absurd h (by simp)
    rename_i hg
    split at h
    · exact absurd h (by simp)
    rename_i hk
    injection h with h
    simp only [Fits, if_pos h2] at hf
    subst h
    refine ⟨?_, ?_⟩
    · rw [one_forms (by omega) (by omega) hf.2 hk]
      simp [foundGenus, h2]
    · simp only [List.length_append, proto_len, kind_len, hexPad_len (w := 1) (by omega) (show maj < 16 ^ 1 by omega),
        hexPad_len (w := 1) (by omega) (show min < 16 ^ 1 by omega), hexPad_len (w := 6) (by omega) hf.2, vsLen, if_pos h2, List.length_singleton]
  · rw [if_neg h2] at h
    split at h
    · rename_i h3
      split at h
      · exact absurd h (by simp)
      rename_i hg
      have hg : (gvrsn.getD (maj, min)).1 = 2 := by omega
      injection h with h
      simp only [Fits, if_neg h2] at hf
      obtain ⟨f1, f2, f3⟩ := hf
      have hgm : (gvrsn.getD (maj, min)).2 ≤ 4095 := by
        cases gvrsn with
        | none => exact f1
        | some g => exact f3 g rfl
      generalize hgg : gvrsn.getD (maj, min) = g at h hg hgm
      obtain ⟨g1, g2⟩ := g
      simp only at hg hgm
      subst hg h3
      subst h
      refine ⟨?_, ?_⟩
      · rw [two_forms (by omega) (by omega) f2]
        simp [foundGenus, hgg]
      · simp only [List.length_append, proto_len, kind_len, asc_length, int_len (show 2 < 64 ^ 1 by omega), int_len (show min < 64 ^ 2 by omega),
          int_len (show g2 < 64 ^ 2 by omega), int_len f2, vsLen, List.length_singleton]
        simp
    · exact absurd h (by simp)

/-- C84: reading a version string that `versify` wrote gives back its arguments, whatever follows it. -/
theorem c84_roundtrip (proto : Proto) (pvrsn : Nat × Nat) (kind : Kind) (size : Nat) (gvrsn : Option (Nat × Nat)) (vs : Bytes)
    (h : versify proto pvrsn kind size gvrsn = .ok vs) (hf : Fits pvrsn size gvrsn) (rest : Bytes) :
    vs.length = vsLen pvrsn.1 ∧ deversify (vs ++ rest) = .ok ⟨proto, pvrsn, kind, size, foundGenus pvrsn gvrsn⟩ := by
  have := versify_two h hf rest
  refine ⟨this.2, ?_⟩
  unfold deversify
  rw [this.1]; rfl

/-- C84: the version string is found in a message when no capital letter comes before it and at most eight bytes do. -/
theorem c84_smelled (proto : Proto) (pvrsn : Nat × Nat) (kind : Kind) (size : Nat) (gvrsn : Option (Nat × Nat)) (vs : Bytes)
    (h : versify proto pvrsn kind size gvrsn = .ok vs) (hf : Fits pvrsn size gvrsn) (front rest : Bytes)
    (hfront : front.length ≤ 8) (hup : ∀ c ∈ front, ¬ (65 ≤ c ∧ c ≤ 90)) (hlen : 27 ≤ (front ++ vs ++ rest).length) :
    smell (front ++ vs ++ rest) = .ok ⟨proto, pvrsn, kind, size, foundGenus pvrsn gvrsn⟩ := by
  have hs := (versify_two h hf rest).1
  unfold smell
  rw [if_neg (by omega), List.append_assoc, show 9 = front.length + (8 - front.length + 1) by omega,
    search_prefix (fun c hc => by have := hup c hc; simp [isUpper]; omega)]
  show (match versionAt (vs ++ rest) with | some r => r | none => _) = _
  rw [hs]

example : versify .keri (1, 0) .json 284 none = .ok (asc "KERI10JSON00011c_".toList) ∧ Fits (1, 0) 284 none ∧
    smell (asc "{\"v\":\"KERI10JSON00011c_\",\"t\":\"icp\"".toList) = .ok ⟨.keri, (1, 0), .json, 284, none⟩ ∧
    versify .acdc (2, 0) .cbor 284 none = .ok (asc "ACDCCAACAACBORAAEc.".toList) ∧ Fits (2, 0) 284 none := by
  refine ⟨by decide +kernel, by simp [Fits], by decide +kernel, by decide +kernel, by simp [Fits]⟩

theorem asc_chars {b : Bytes} (h : ∀ c ∈ b, c < 128) : asc (chars b) = b := by
  induction b with
  | nil => rfl
  | cons c t ih =>
    have hc := h c (by simp)
    have := ih (fun x hx => h x (by simp [hx]))
    simp only [asc, chars, List.map_cons] at this ⊢
    rw [this]
    congr 1
    have : ∀ c < 128, (Char.ofNat c).toNat = c := by decide +kernel
    exact this c hc

theorem isB64_idx : ∀ c < 128, isB64 c = true → (idx (Char.ofNat c)).isSome = true := by decide +kernel

theorem isB64_lt {c : Nat} (h : isB64 c = true) : c < 128 := by
  simp [isB64] at h; omega

theorem b64_text {t : Bytes} {n : Nat} (hne : t ≠ []) (h : t.all isB64 = true) (hn : b64ToInt (chars t) = .ok n) : asc (intToB64 n t.length) = t := by
  have hr : reb64 (chars t) = true := by
    simp only [reb64, chars, List.all_map, List.all_eq_true]
    intro c hc
    rw [List.all_eq_true] at h
    exact isB64_idx c (isB64_lt (h c hc)) (h c hc)
  obtain ⟨m, e1, e2⟩ := c01_text_roundtrip (chars t) (by simpa [chars] using hne) hr
  rw [e1] at hn
  injection hn with hn
  subst hn
  rw [chars_length] at e2
  rw [e2]
  exact asc_chars (fun c hc => isB64_lt (List.all_eq_true.1 h c hc))

theorem hexVal_lower {c : Nat} (h : isHex c = true) : ∃ d < 16, hexVal c = some d ∧ hexChar d = c := by
  simp only [isHex, Bool.or_eq_true, Bool.and_eq_true, decide_eq_true_eq] at h
  rcases h with h | h
  · exact ⟨c - 48, by omega, by rw [hexVal, if_pos h], by unfold hexChar; rw [if_pos (by omega)]; omega⟩
  · refine ⟨c - 87, by omega, by rw [hexVal, if_neg (by omega), if_pos h], by unfold hexChar; rw [if_neg (by omega)]; omega⟩

theorem hex_digits {t : Bytes} (h : t.all isHex = true) : ∃ ds, AllLt 16 ds ∧ t = ds.map hexChar := by
  induction t with
  | nil => exact ⟨[], by simp, rfl⟩
  | cons c t ih =>
    simp only [List.all_cons, Bool.and_eq_true] at h
    obtain ⟨d, hd, _, e⟩ := hexVal_lower h.1
    obtain ⟨ds, h1, h2⟩ := ih h.2
    refine ⟨d :: ds, by simp [hd, h1], by simp [e, h2]⟩

theorem hex_text {t : Bytes} {n : Nat} (hne : t ≠ []) (h : t.all isHex = true) (hn : intHex t = .ok n) : hexPad t.length n = t ∧ n < 16 ^ t.length := by
  obtain ⟨ds, h1, rfl⟩ := hex_digits h
  unfold intHex at hn
  rw [if_neg hne, Verif.Db.mapM_hexVal h1] at hn
  injection hn with hn
  subst hn
  have hl : 0 < ds.length := by cases ds <;> simp_all
  have hlt := ofDigits_lt h1
  rw [List.length_map]
  refine ⟨?_, hlt⟩
  rw [hexPad_of_lt hl hlt, toDigits_ofDigits h1]

/-- A list cut in consecutive pieces. -/
theorem cut17 {b : Bytes} (h : 17 ≤ b.length) :
    b.take 17 = b.take 4 ++ (b.drop 4).take 1 ++ (b.drop 5).take 1 ++ (b.drop 6).take 4 ++ (b.drop 10).take 6 ++ (b.drop 16).take 1 := by
  obtain ⟨x, y, hx, rfl⟩ : ∃ x y, x.length = 17 ∧ b = x ++ y := ⟨b.take 17, b.drop 17, by simp; omega, by simp⟩
  match x, hx with
  | [a1, a2, a3, a4, a5, a6, a7, a8, a9, a10, a11, a12, a13, a14, a15, a16, a17], _ => simp

theorem cut19 {b : Bytes} (h : 19 ≤ b.length) :
    b.take 19 = b.take 4 ++ (b.drop 4).take 1 ++ (b.drop 5).take 2 ++ (b.drop 7).take 1 ++ (b.drop 8).take 2 ++ (b.drop 10).take 4 ++
      (b.drop 14).take 4 ++ (b.drop 18).take 1 := by
  obtain ⟨x, y, hx, rfl⟩ : ∃ x y, x.length = 19 ∧ b = x ++ y := ⟨b.take 19, b.drop 19, by simp; omega, by simp⟩
  match x, hx with
  | [a1, a2, a3, a4, a5, a6, a7, a8, a9, a10, a11, a12, a13, a14, a15, a16, a17, a18, a19], _ => simp

theorem all_sub {p : Nat → Bool} {b : Bytes} {k n i j : Nat} (h : ((b.drop k).take n).all p = true) (hk : k ≤ i) (hj : i + j ≤ k + n) :
    ((b.drop i).take j).all p = true := by
  rw [List.all_eq_true] at h ⊢
  intro x hx
  apply h
  have : (b.drop i).take j = (((b.drop k).take n).drop (i - k)).take j := by
    rw [List.drop_take, List.take_take, List.drop_drop, show k + (i - k) = i by omega, Nat.min_eq_left (by omega)]
  rw [this] at hx
  exact List.mem_of_mem_drop (List.mem_of_mem_take hx)

theorem rematch1_back {b : Bytes} {m : Smellage} (hm : match1 b = true) (h : rematch1 b = .ok m) :
    versify m.proto m.pvrsn m.kind m.size m.gvrsn = .ok (b.take 17) ∧ m.pvrsn.1 < 2 := by
  simp only [match1, Bool.and_eq_true, decide_eq_true_eq] at hm
  obtain ⟨⟨⟨⟨⟨hl, _⟩, hv⟩, _⟩, hs⟩, ht⟩ := hm
  unfold rematch1 at h
  split at h
  · exact absurd h (by simp)
  rename_i proto hproto
  split at h
  · rename_i maj min e1 e2
    split at h
    · exact absurd h (by simp)
    rename_i hmaj
    split at h
    · exact absurd h (by simp)
    rename_i kind hkind
    split at h
    · exact absurd h (by simp)
    rename_i hk
    split at h
    · exact absurd h (by simp)
    rename_i size e3
    injection h with h
    subst h
    have t1 := hex_text (t := (b.drop 4).take 1) (by intro hc; have := congrArg List.length hc; simp at this; omega)
      (all_sub hv (by omega) (by omega)) e1
    have t2 := hex_text (t := (b.drop 5).take 1) (by intro hc; have := congrArg List.length hc; simp at this; omega)
      (all_sub hv (by omega) (by omega)) e2
    have t3 := hex_text (t := (b.drop 10).take 6) (by intro hc; have := congrArg List.length hc; simp at this; omega) hs e3
    have l1 : ((b.drop 4).take 1).length = 1 := by simp; omega
    have l2 : ((b.drop 5).take 1).length = 1 := by simp; omega
    have l3 : ((b.drop 10).take 6).length = 6 := by simp; omega
    rw [l1] at t1; rw [l2] at t2; rw [l3] at t3
    refine ⟨?_, by simp; omega⟩
    unfold versify
    simp only
    rw [if_pos (by omega), if_neg (by simp), if_neg hk, t1.1, t2.1, t3.1, ← protoOf_some hproto, ← kindOf_some hkind, cut17 hl, ht]
  · exact absurd h (by simp)
  · exact absurd h (by simp)

theorem rematch2_back {b : Bytes} {m : Smellage} (hm : match2 b = true) (h : rematch2 b = .ok m) :
    versify m.proto m.pvrsn m.kind m.size m.gvrsn = .ok (b.take 19) ∧ ¬ m.pvrsn.1 < 2 := by
  simp only [match2, Bool.and_eq_true, decide_eq_true_eq] at hm
  obtain ⟨⟨⟨⟨⟨hl, _⟩, hv⟩, _⟩, hs⟩, ht⟩ := hm
  unfold rematch2 at h
  split at h
  · exact absurd h (by simp)
  rename_i proto hproto
  split at h
  · rename_i maj min e1 e2
    split at h
    · exact absurd h (by simp)
    rename_i hmaj
    split at h
    · rename_i gmaj gmin e4 e5
      split at h
      · exact absurd h (by simp)
      rename_i hgmaj
      split at h
      · exact absurd h (by simp)
      rename_i kind hkind
      split at h
      · exact absurd h (by simp)
      rename_i size e3
      injection h with h
      subst h
      have hne : ∀ {k n : Nat}, k < 19 → 0 < n → (b.drop k).take n ≠ [] := by
        intro k n h1 h2 hc
        have := congrArg List.length hc
        simp at this; omega
      have t1 := b64_text (t := (b.drop 4).take 1) (hne (by omega) (by omega)) (all_sub hv (by omega) (by omega)) e1
      have t2 := b64_text (t := (b.drop 5).take 2) (hne (by omega) (by omega)) (all_sub hv (by omega) (by omega)) e2
      have t4 := b64_text (t := (b.drop 7).take 1) (hne (by omega) (by omega)) (all_sub hv (by omega) (by omega)) e4
      have t5 := b64_text (t := (b.drop 8).take 2) (hne (by omega) (by omega)) (all_sub hv (by omega) (by omega)) e5
      have t3 := b64_text (t := (b.drop 14).take 4) (hne (by omega) (by omega)) hs e3
      have l1 : ((b.drop 4).take 1).length = 1 := by simp; omega
      have l2 : ((b.drop 5).take 2).length = 2 := by simp; omega
      have l4 : ((b.drop 7).take 1).length = 1 := by simp; omega
      have l5 : ((b.drop 8).take 2).length = 2 := by simp; omega
      have l3 : ((b.drop 14).take 4).length = 4 := by simp; omega
      rw [l1] at t1; rw [l2] at t2; rw [l3] at t3; rw [l4] at t4; rw [l5] at t5
      refine ⟨?_, by simp; omega⟩
      unfold versify
      simp only [Option.getD_some]
      rw [if_neg (by omega), if_pos (by omega), if_neg (by omega), t1, t2, t3, t4, t5, ← protoOf_some hproto, ← kindOf_some hkind, cut19 hl, ht]
    · exact absurd h (by simp)
    · exact absurd h (by simp)
  · exact absurd h (by simp)
  · exact absurd h (by simp)

/-- C84: conversely what is read from a version string is written again as the same characters, so two version strings with the same
meaning are equal. -/
theorem c84_parsed (vs : Bytes) (m : Smellage) (h : deversify vs = .ok m) :
    versify m.proto m.pvrsn m.kind m.size m.gvrsn = .ok (vs.take (vsLen m.pvrsn.1)) := by
  unfold deversify at h
  cases hv : versionAt vs with
  | none => rw [hv] at h; exact absurd h (by simp)
  | some r =>
    rw [hv] at h
    have hr : r = .ok m := h
    subst hr
    unfold versionAt at hv
    by_cases h2 : match2 vs = true
    · rw [if_pos h2] at hv
      injection hv with hv
      have := rematch2_back h2 hv
      rw [vsLen, if_neg this.2, this.1]
    · rw [if_neg h2] at hv
      by_cases h1 : match1 vs = true
      · rw [if_pos h1] at hv
        injection hv with hv
        have := rematch1_back h1 hv
        rw [vsLen, if_pos this.2, this.1]
      · rw [if_neg h1] at hv; exact absurd hv (by simp)

example : deversify (asc "KERICAACAAJSONAAB6.".toList) = .ok ⟨.keri, (2, 0), .json, 122, some (2, 0)⟩ := by decide +kernel

/-- C84: `smell` needs twenty-seven bytes and looks at no more. -/
theorem c84_smell_local (b rest : Bytes) : (b.length < 27 → smell b = .error .shortage) ∧ (27 ≤ b.length → smell (b ++ rest) = smell b) := by
  refine ⟨?_, smell_append b rest⟩
  intro h
  unfold smell
  rw [if_pos h]

/-- C84 fails for large messages: the size of a version 1 message of 16 MiB or more overflows its six digits without an exception, and no
reader recognizes the version string. -/
theorem c84_oversize (proto : Proto) (kind : Kind) (hk : kind ≠ .cesr) (size : Nat) (h : 16 ^ 6 ≤ size) :
    ∃ vs, versify proto (1, 0) kind size none = .ok vs ∧ deversify vs = .error .versionError := by
  refine ⟨proto.text ++ hexPad 1 1 ++ hexPad 1 0 ++ kind.text ++ hexPad 6 size ++ [95], ?_, ?_⟩
  · unfold versify
    simp only
    rw [if_pos (by omega), if_neg (by simp), if_neg hk]
  · have hlen : 7 ≤ (hexPad 6 size).length := by
      unfold hexPad
      simp only [List.length_map, toDigits_length]
      have : ¬ hexLen size ≤ 6 := by
        intro hc
        have := Nat.lt_of_lt_of_le (Verif.Db.lt_hexLen size) (Nat.pow_le_pow_right (by omega) hc)
        omega
      omega
    have hx := hexPad_isHex 6 size
    obtain ⟨p1, p2, p3, p4, hp⟩ := list4 (proto_len proto)
    obtain ⟨k1, k2, k3, k4, hkk⟩ := list4 (kind_len kind)
    match hh : hexPad 6 size, hlen with
    | s1 :: s2 :: s3 :: s4 :: s5 :: s6 :: s7 :: t, _ =>
      rw [hh] at hx
      simp only [List.all_cons, Bool.and_eq_true] at hx
      have e1 : hexPad 1 1 = [49] := by decide +kernel
      have e0 : hexPad 1 0 = [48] := by decide +kernel
      unfold deversify versionAt
      rw [hp, hkk, e1, e0]
      have m2 : match2 ([p1, p2, p3, p4] ++ [49] ++ [48] ++ [k1, k2, k3, k4] ++ (s1 :: s2 :: s3 :: s4 :: s5 :: s6 :: s7 :: t) ++ [95]) = false := by
        simp [match2, hex_not_upper hx.1]
      have m1 : match1 ([p1, p2, p3, p4] ++ [49] ++ [48] ++ [k1, k2, k3, k4] ++ (s1 :: s2 :: s3 :: s4 :: s5 :: s6 :: s7 :: t) ++ [95]) = false := by
        have h7 := hx.2.2.2.2.2.2.1
        have : s7 ≠ 95 := by simp [isHex] at h7; omega
        simp [match1, this]
      rw [m2, m1]
      rfl

end Verif.Prs
