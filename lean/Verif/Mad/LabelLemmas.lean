import Verif.Mad.Spec
import Verif.Codec.PropsTexts
import Verif.Codec.PropsCounter

/-! # Labels and texts read back -/

namespace Verif.Mad

open Verif.B64 Verif.Matter

/-- The text `q` carries the primitive `m` and is recognised whatever follows. -/
structure Reads (q : List Char) (m : Mat) : Prop where
  text : infil m = .ok q
  take : ∀ rest, takeMat (q ++ rest) = .ok (m, rest)
  pos : 0 < q.length
  notMinus : q.head? ≠ some '-'

theorem head_code {q : List Char} {m : Mat} (h : exfil q = .ok m) : q.head? ≠ some '-' := by
  cases q with
  | nil => simp
  | cons c r =>
    simp only [List.head?_cons, ne_eq, Option.some.injEq]
    rintro rfl
    have : hards '-' = none := by decide +kernel
    simp [exfil, this] at h

theorem reads_of {q : List Char} {m : Mat} (h1 : infil m = .ok q) (h2 : exfil q = .ok m) (h3 : fullSize m = .ok q.length) : Reads q m := by
  refine ⟨h1, ?_, ?_, head_code h2⟩
  · intro rest
    have h4 := (c06_self_framing q m q.length h2 h3 rest).2
    rw [List.take_of_length_le (by omega)] at h4
    simp only [takeMat, h4, h3]
    rw [List.drop_append_of_le_length (by omega), List.drop_of_length_le (by omega), List.nil_append]
  · cases q with
    | nil => exact absurd h2 (by simp [exfil])
    | cons c r => simp

theorem make_reads {code soft : List Char} {raw : List Nat} {m : Mat} (hraw : AllLt 256 raw) (h : make code soft raw none = .ok m) :
    ∃ q, Reads q m ∧ reb64 q = true ∧ q.length % 4 = 0 := by
  obtain ⟨t, t1, t2, t3, t4⟩ := c03_text_roundtrip _ _ _ _ _ hraw h
  obtain ⟨sz, n, v⟩ := make_valid hraw h
  refine ⟨t, reads_of t1 t2 t3, t4, ?_⟩
  have := fullSize_valid v.size v.framed
  rw [t3] at this
  injection this with this
  rw [this]
  exact (framed_facts (wf_of_sizes v.size) v.framed).1

theorem tag_sizes : ∀ c ∈ tagDex, ∃ sz, sizes? c = some sz ∧ sz.fs = some (sz.hs + sz.ss) ∧ sz.ls = 0 := by decide +kernel

theorem special_reads {code soft : List Char} {m : Mat} (hc : code ∈ tagDex) (h : makeSpecial code soft = .ok m) :
    ∃ q, Reads q m ∧ reb64 q = true ∧ q.length % 4 = 0 ∧ m.code = code := by
  obtain ⟨sz, s1, s2, s3⟩ := tag_sizes code hc
  have hm : m.code = code ∧ m.soft.length = sz.ss - sz.xs ∧ reb64 m.soft = true ∧ m.raw = [] := by
    unfold makeSpecial at h
    rw [s1] at h
    simp only [s2] at h
    split at h
    · exact absurd h (by simp)
    split at h
    · exact absurd h (by simp)
    next h2 =>
    split at h
    · exact absurd h (by simp)
    next h3 =>
    injection h with h
    subst h
    exact ⟨rfl, by simpa using h2, by simpa using h3, rfl⟩
  have v : Valid m sz (sz.hs + sz.ss) :=
    ⟨by rw [hm.1]; exact s1, hm.2.1, hm.2.2.1, by simp [framedSize, s2], by simp [Sizage.cs, s3, hm.2.2.2], by simp [hm.2.2.2]⟩
  obtain ⟨t, mat, e1, e2, e3, e4, _⟩ := infil_valid v
  refine ⟨t, reads_of e1 ((exfil_ok_iff _ _).2 ⟨_, _, _, _, e2⟩) (by rw [fullSize_valid v.size v.framed, e4]), e3, ?_, hm.1⟩
  rw [e4]
  exact (framed_facts (wf_of_sizes v.size) v.framed).1

theorem codify_mem {t c : List Char} (h : codify t = .ok c) : c ∈ tagDex ∧ ∃ sz, sizes? c = some sz ∧ sz.ss - sz.xs = t.length := by
  unfold codify at h
  split at h
  · exact absurd h (by simp)
  next a r =>
  split at h
  · exact absurd h (by simp)
  next d hd =>
  injection h with h
  subst h
  refine ⟨List.mem_of_getElem? hd, ?_⟩
  have hl : r.length < 11 := by
    have := (List.getElem?_eq_some_iff.1 hd).1
    simpa [tagDex] using this
  have key : ∀ n : Fin 11, ∃ sz, (tagDex[n.val]?.bind sizes?) = some sz ∧ sz.ss - sz.xs = n.val + 1 := by decide +kernel
  obtain ⟨sz, k1, k2⟩ := key ⟨r.length, hl⟩
  simp only [hd, Option.bind_some] at k1
  exact ⟨sz, k1, by simpa using k2⟩

theorem codify_long {t : List Char} {e : Err} (h : codify t = .error e) : t = [] ∨ 11 < t.length := by
  unfold codify at h
  split at h
  · exact .inl rfl
  next a r =>
  split at h
  · next hn =>
    right
    have := List.getElem?_eq_none_iff.1 hn
    simp [tagDex] at this
    simp; omega
  · exact absurd h (by simp)

theorem tag_not_bex : ∀ c ∈ bexDex, c ∉ tagDex := by decide +kernel

theorem mkB64_reads {t : List Char} {m : Mat} (hb : reb64 t = true) (h : mkB64 t = .ok m) (env : Env) :
    ∃ q, Reads q m ∧ reb64 q = true ∧ q.length % 4 = 0 ∧ textOf env m = .ok t ∧ (m.code ∈ tagDex ∨ m.code ∈ bexDex) := by
  unfold mkB64 at h
  cases hc : codify t with
  | ok c =>
    rw [hc] at h
    simp only at h
    obtain ⟨c1, sz, c2, c3⟩ := codify_mem hc
    obtain ⟨q, q1, q2, q3, q4⟩ := special_reads c1 h
    refine ⟨q, q1, q2, q3, ?_, .inl (by rw [q4]; exact c1)⟩
    rw [textOf, if_pos (by rw [q4]; exact c1)]
    unfold makeSpecial at h
    rw [c2] at h
    obtain ⟨sz', s1, s2, s3⟩ := tag_sizes c c1
    rw [c2] at s1
    injection s1 with s1
    subst s1
    simp only [s2] at h
    split at h
    · exact absurd h (by simp)
    split at h
    · exact absurd h (by simp)
    split at h
    · exact absurd h (by simp)
    injection h with h
    subst h
    simp only [c3]
    rw [List.take_of_length_le (by omega)]
  | error e =>
    rw [hc] at h
    simp only at h
    obtain ⟨e1, e2, e3, e4⟩ := escape_spec t hb
    obtain ⟨a1, a2⟩ := allDec_of_reb64 e1
    obtain ⟨raw, r1, r2, r3, r4, r5⟩ := wad_roundtrip (escape t) a1
    simp only [mkStrB64, bextRawify, if_true, r1] at h
    obtain ⟨q, q1, q2, q3⟩ := make_reads r2 h
    have key : ∃ sz, m.raw = raw ∧ sizes? m.code = some sz ∧ sz.ls = leadSize (escape t).length ∧ m.code ∈ bexDex := by
      have gen : ∀ code sz0, sizes? code = some sz0 → sz0.fs = none → code.getLast? = some 'A' → make code [] raw none = .ok m →
          ∃ sz, m.raw = raw ∧ sizes? m.code = some sz ∧ sz.ls = leadSize (escape t).length ∧ m.code ∈ bexDex := by
        intro code sz0 g1 g2 g3 g4
        have hlen : (raw.length + 2) / 3 ≤ 64 ^ 4 - 1 := by
          by_cases hl : (raw.length + 2) / 3 ≤ 64 ^ 4 - 1
          · exact hl
          · have := (c09_variable_size code [] raw sz0 g1 g2).2 (by omega)
            rw [this] at g4
            exact absurd g4 (by simp)
        obtain ⟨m', sz, m1, m2, m3, m4, m5, m6⟩ := make_var (code := code) (raw := raw) g1 g2 hlen
        rw [g4] at m1
        injection m1 with m1
        subst m1
        refine ⟨sz, m2, m3, by rw [m4, r4], ?_⟩
        exact var_last_A (m.code, sz) (mem_of_lookup m3) m5 (by rw [m6, g3])
      split at h
      · exact gen _ ⟨2, 2, 0, none, 0⟩ (by decide +kernel) rfl (by decide) h
      · split at h
        · exact gen _ ⟨2, 2, 0, none, 1⟩ (by decide +kernel) rfl (by decide) h
        · exact gen _ ⟨2, 2, 0, none, 2⟩ (by decide +kernel) rfl (by decide) h
    obtain ⟨sz, k1, k2, k3, k4⟩ := key
    refine ⟨q, q1, q2, q3, ?_, .inr k4⟩
    rw [textOf, if_neg (tag_not_bex _ k4), if_pos k4]
    simp only [bextOf, k2, k1, k3, if_true]
    rw [textOfRaw_spec _ a1 raw r1 e2, a2, e3]

/-! ## A newline at the end of a label -/

theorem a2b_newline (s : List Char) (q l p : Nat) (hq : q ≤ 3) (hs : AllDec s) (hl : (q + s.length) % 4 ≠ 0) :
    ∃ e, a2b (s ++ ['\n']) q l p = .error e := by
  induction s generalizing q l p with
  | nil =>
    refine ⟨.binasciiError, ?_⟩
    have h1 : decIdx '\n' = none := by decide +kernel
    have h2 : q ≠ 0 := by simp at hl; omega
    simp [a2b, h1, h2]
  | cons c s ih =>
    rw [allDec_cons] at hs
    obtain ⟨v, hv⟩ := Option.isSome_iff_exists.1 hs.1
    have hne : c ≠ '=' := by
      rintro rfl
      rw [decIdx_pad] at hv
      exact absurd hv (by simp)
    have hlen : (c :: s).length = s.length + 1 := rfl
    rw [hlen] at hl
    simp only [List.cons_append, a2b, if_neg hne, hv]
    have hq4 : q = 0 ∨ q = 1 ∨ q = 2 ∨ q = 3 := by omega
    rcases hq4 with rfl | rfl | rfl | rfl
    · obtain ⟨e, he⟩ := ih 1 v 0 (by omega) hs.2 (by omega)
      exact ⟨e, by simp [he]⟩
    · obtain ⟨e, he⟩ := ih 2 (v % 16) 0 (by omega) hs.2 (by omega)
      exact ⟨e, by simp [he, Except.map]⟩
    · obtain ⟨e, he⟩ := ih 3 (v % 4) 0 (by omega) hs.2 (by omega)
      exact ⟨e, by simp [he, Except.map]⟩
    · obtain ⟨e, he⟩ := ih 0 0 0 (by omega) hs.2 (by omega)
      exact ⟨e, by simp [he, Except.map]⟩

theorem attChar_b64 (c : Char) (h : attChar c = true) : (idx c).isSome = true := by
  have key : ∀ n : Fin 128, attChar (Char.ofNat n.val) = true → (idx (Char.ofNat n.val)).isSome = true := by decide +kernel
  have hn : c.toNat < 128 := by
    simp only [attChar, attStart, Bool.or_eq_true, Bool.and_eq_true, decide_eq_true_eq, Char.le_def, UInt32.le_iff_toNat_le] at h
    have e1 : 'z'.val.toNat = 122 := rfl
    have e2 : 'Z'.val.toNat = 90 := rfl
    have e3 : '9'.val.toNat = 57 := rfl
    have e4 : c.toNat = c.val.toNat := rfl
    rcases h with ((h | h) | h) | h
    · omega
    · omega
    · rw [h]; decide
    · omega
  have := key ⟨c.toNat, hn⟩
  simp only [Char.ofNat_toNat] at this
  exact this h

theorem attStart_attChar {c : Char} (h : attStart c = true) : attChar c = true := by simp [attChar, h]

/-- A label is Base64, perhaps with a newline at the end. -/
theorem reatt_cases {s : List Char} (h : reatt s = true) : reb64 s = true ∨ ∃ b, s = b ++ ['\n'] ∧ reb64 b = true ∧ b ≠ [] := by
  unfold reatt at h
  split at h
  · exact absurd h (by simp)
  next c r hb =>
  simp only [Bool.and_eq_true, List.all_eq_true] at h
  have hcr : reb64 (c :: r) = true := by
    simp only [reb64, List.all_cons, Bool.and_eq_true, List.all_eq_true]
    exact ⟨attChar_b64 c (attStart_attChar h.1), fun x hx => attChar_b64 x (h.2 x hx)⟩
  split at hb
  · next hl =>
    right
    refine ⟨c :: r, ?_, hcr, by simp⟩
    rw [← hb]
    obtain ⟨ys, rfl⟩ := List.getLast?_eq_some_iff.1 hl
    simp
  · left; rw [hb]; exact hcr

theorem mkB64_newline {b : List Char} {m : Mat} (hb : reb64 b = true) (hne : b ≠ []) : mkB64 (b ++ ['\n']) ≠ .ok m := by
  intro h
  have hnb : reb64 (b ++ ['\n']) = false := by
    rw [reb64_append]
    have : reb64 ['\n'] = false := by decide +kernel
    simp [this]
  unfold mkB64 at h
  cases hc : codify (b ++ ['\n']) with
  | ok c =>
    rw [hc] at h
    simp only at h
    obtain ⟨c1, sz, c2, c3⟩ := codify_mem hc
    obtain ⟨sz', s1, s2, s3⟩ := tag_sizes c c1
    rw [c2] at s1
    injection s1 with s1
    subst s1
    unfold makeSpecial at h
    rw [c2] at h
    simp only [s2, c3] at h
    rw [List.take_of_length_le (Nat.le_refl _), hnb] at h
    split at h
    · exact absurd h (by simp)
    split at h
    · exact absurd h (by simp)
    simp at h
  | error e =>
    rw [hc] at h
    simp only [mkStrB64, bextRawify, if_true] at h
    have hesc : ∃ b', escape (b ++ ['\n']) = b' ++ ['\n'] ∧ reb64 b' = true := by
      cases b with
      | nil => exact absurd rfl hne
      | cons x xs =>
        simp only [List.cons_append, escape]
        split
        · refine ⟨'-' :: x :: xs, rfl, ?_⟩
          simp only [reb64, List.all_cons, Bool.and_eq_true] at hb ⊢
          exact ⟨by decide +kernel, hb⟩
        · exact ⟨x :: xs, rfl, hb⟩
    obtain ⟨b', e1, e2⟩ := hesc
    rw [e1] at h
    have : ∃ e, rawOfText (b' ++ ['\n']) = .error e := by
      unfold rawOfText decodeB64
      rw [← List.append_assoc]
      obtain ⟨e, he⟩ := a2b_newline (List.replicate (wadSize (b' ++ ['\n']).length) 'A' ++ b') 0 0 0 (by omega)
        (by rw [allDec_append]; exact ⟨allDec_replicate_A _, (allDec_of_reb64 e2).1⟩)
        (by simp [wadSize]; omega)
      rw [he]
      exact ⟨e, rfl⟩
    obtain ⟨e', he⟩ := this
    rw [he] at h
    exact absurd h (by simp)

/-! ## Labels and texts -/

theorem tag_label : ∀ c ∈ tagDex, c ∈ labelDex := by decide +kernel
theorem bex_label : ∀ c ∈ bexDex, c ∈ labelDex := by decide +kernel

theorem inLabelDex_ok {r : Except Err Mat} {m : Mat} (h : inLabelDex r = .ok m) : r = .ok m ∧ m.code ∈ labelDex := by
  unfold inLabelDex at h
  split at h
  · exact absurd h (by simp)
  · split at h
    · next hc => injection h with h; subst h; exact ⟨rfl, hc⟩
    · exact absurd h (by simp)

theorem mkLabel_reads {l : List Char} {m : Mat} (h : mkLabel l = .ok m) (env : Env) :
    ∃ q, Reads q m ∧ reb64 q = true ∧ q.length % 4 = 0 ∧ textOf env m = .ok l ∧ labelOf env m = .ok l ∧ m.code ∈ labelDex := by
  unfold mkLabel at h
  split at h
  · exact absurd h (by simp)
  split at h
  · exact absurd h (by simp)
  next hr =>
  simp only [Bool.not_eq_true', Bool.not_eq_false] at hr
  obtain ⟨h1, h2⟩ := inLabelDex_ok h
  have hb : reb64 l = true := by
    rcases reatt_cases hr with hb | ⟨b, rfl, hb, hne⟩
    · exact hb
    · exact absurd h1 (mkB64_newline hb hne)
  obtain ⟨q, q1, q2, q3, q4, _⟩ := mkB64_reads hb h1 env
  exact ⟨q, q1, q2, q3, q4, by simp [labelOf, q4, hr], h2⟩

theorem bytes_lt {env : Env} {t : List Char} (h : TextOk env t) : AllLt 256 (bytesOf t) := by
  intro x hx
  obtain ⟨c, hc, rfl⟩ := List.mem_map.1 hx
  exact h.1 c hc

theorem decode_bytes {env : Env} {t : List Char} (h : TextOk env t) : decodeText env (bytesOf t) = .ok t := by
  have h2 : env.utf8 (bytesOf t) = true := h.2
  unfold decodeText
  rw [if_pos h2, bytesOf, List.map_map]
  have : (Char.ofNat ∘ Char.toNat) = id := by funext c; simp
  rw [this, List.map_id]

theorem var_last_B : ∀ e ∈ sizes, e.2.fs = none → e.1.getLast? = some 'B' → e.1 ∉ tagDex ∧ e.1 ∉ bexDex := by decide +kernel

theorem mkText_reads {env : Env} {t : List Char} {m : Mat} (ht : TextOk env t) (h : mkText t = .ok m) :
    ∃ q, Reads q m ∧ reb64 q = true ∧ q.length % 4 = 0 ∧ textOf env m = .ok t ∧ m.code ∈ labelDex := by
  obtain ⟨h1, h2⟩ := inLabelDex_ok h
  have fixed : ∀ code raw fs sz, sizes? code = some sz → sz.fs = some fs → sz.ss = 0 → rawSize sz fs = raw.length → code ∉ tagDex → code ∉ bexDex →
      AllLt 256 raw → decodeText env raw = .ok t → make code [] raw none = .ok m →
      ∃ q, Reads q m ∧ reb64 q = true ∧ q.length % 4 = 0 ∧ textOf env m = .ok t ∧ m.code ∈ labelDex := by
    intro code raw fs sz f1 f2 f3 f4 f5 f6 f7 f8 f9
    obtain ⟨q, q1, q2, q3⟩ := make_reads f7 f9
    obtain ⟨g1, _, g3⟩ := c03_make_keeps code [] raw none m sz fs f1 f2 f9
    refine ⟨q, q1, q2, q3, ?_, h2⟩
    have : m.raw = raw := by
      rw [g3, List.take_of_length_le]
      rw [← f4]
      exact Nat.le_refl _
    rw [textOf, if_neg (by rw [g1]; exact f5), if_neg (by rw [g1]; exact f6), this, f8]
  split at h1
  · next hb =>
    split at h1
    · next he =>
      subst he
      exact fixed ['1', 'A', 'A', 'P'] [] 4 ⟨4, 0, 0, some 4, 0⟩ (by decide +kernel) rfl rfl (by decide) (by decide) (by decide) (by simp) (decode_bytes ht) h1
    · obtain ⟨q, q1, q2, q3, q4, _⟩ := mkB64_reads hb h1 env
      exact ⟨q, q1, q2, q3, q4, h2⟩
  · split at h1
    · next hl =>
      exact fixed ['V'] (bytesOf t) 4 ⟨1, 0, 0, some 4, 1⟩ (by decide +kernel) rfl rfl (by simp [bytesOf, hl]; decide) (by decide) (by decide) (bytes_lt ht)
        (decode_bytes ht) h1
    · split at h1
      · next hl =>
        exact fixed ['W'] (bytesOf t) 4 ⟨1, 0, 0, some 4, 0⟩ (by decide +kernel) rfl rfl (by simp [bytesOf, hl]; decide) (by decide) (by decide) (bytes_lt ht)
          (decode_bytes ht) h1
      · obtain ⟨q, q1, q2, q3⟩ := make_reads (bytes_lt ht) h1
        refine ⟨q, q1, q2, q3, ?_, h2⟩
        have g1 : sizes? ['4', 'B'] = some ⟨2, 2, 0, none, 0⟩ := by decide +kernel
        have hlen : ((bytesOf t).length + 2) / 3 ≤ 64 ^ 4 - 1 := by
          by_cases hl : ((bytesOf t).length + 2) / 3 ≤ 64 ^ 4 - 1
          · exact hl
          · have := (c09_variable_size ['4', 'B'] [] (bytesOf t) _ g1 rfl).2 (by omega)
            rw [this] at h1
            exact absurd h1 (by simp)
        obtain ⟨m', sz, m1, m2, m3, m4, m5, m6⟩ := make_var (code := ['4', 'B']) (raw := bytesOf t) g1 rfl hlen
        rw [h1] at m1
        injection m1 with m1
        subst m1
        obtain ⟨n1, n2⟩ := var_last_B (m.code, sz) (mem_of_lookup m3) m5 (by rw [m6]; rfl)
        rw [textOf, if_neg n1, if_neg n2, m2, decode_bytes ht]

theorem takeLabel_of {env : Env} {strict : Bool} {l q : List Char} (hl : TextOk env l) (h : serLabel strict l = .ok q) :
    (∀ rest, takeLabel env strict (q ++ rest) = .ok (l, rest)) ∧ 0 < q.length ∧ reb64 q = true ∧ q.length % 4 = 0 ∧ q.head? ≠ some '-' := by
  unfold serLabel qb64Of at h
  split at h
  · exact absurd h (by simp)
  next m hm =>
  have key : ∃ q', Reads q' m ∧ reb64 q' = true ∧ q'.length % 4 = 0 ∧ (if strict then labelOf env m else textOf env m) = .ok l ∧ m.code ∈ labelDex := by
    cases strict with
    | true =>
      obtain ⟨q', q1, q2, q3, _, q4, q5⟩ := mkLabel_reads hm env
      exact ⟨q', q1, q2, q3, q4, q5⟩
    | false =>
      obtain ⟨q', q1, q2, q3, q4, q5⟩ := mkText_reads hl hm
      exact ⟨q', q1, q2, q3, q4, q5⟩
  obtain ⟨q', q1, q2, q3, q4, q5⟩ := key
  have : q' = q := by
    have := q1.text
    rw [h] at this
    injection this with this
    exact this.symm
  subst this
  refine ⟨fun rest => ?_, q1.pos, q2, q3, q1.notMinus⟩
  simp only [takeLabel, takeLabeler, q1.take rest, if_pos q5, q4]

end Verif.Mad
