import Verif.Mad.Enough

/-!
# Field maps: reading what was written (C116)

`exhale strict mad` is `Mapper(mad=mad, strict=strict).raw`; `fromText`/`fromBinary` are `Mapper(raw=…)`/`Mapper(qb2=…)` with the rest of the stream.
-/

namespace Verif.Mad

open Verif.B64 Verif.Matter

/-- The bound given to the reader is never reached: giving it more changes nothing. -/
theorem c116_enough (env : Env) (strict : Bool) (r : List Char) (n : Nat) (h : r.length + 1 ≤ n) :
    deserFlds env strict n r = deserFlds env strict (r.length + 1) r := by
  have := (enough env strict (r.length + 1)).2.2 r (Nat.le_refl _) (n - (r.length + 1))
  rw [← this]
  congr 1
  omega

theorem exhale_back {env : Env} {strict : Bool} {mad : Flds} {raw : List Char} (hg : Good env (.map mad)) (h : exhale strict mad = .ok raw) :
    ∃ c hd content, Group 'I' raw content c hd ∧ content.length % 4 = 0 ∧ inhale env strict raw = .ok mad := by
  unfold exhale at h
  simp only [serVal] at h
  simp only [Good] at hg
  split at h
  · exact absurd h (by simp)
  next b hb =>
  obtain ⟨q, k⟩ := serFlds_back env strict mad b hg.2 hb
  obtain ⟨c, hd, g⟩ := group_reads (.inl rfl) h
  refine ⟨c, hd, b, g, q, ?_⟩
  have ht := g.take []
  rw [List.append_nil, List.append_nil] at ht
  have n2 : isMapCtr c = true := by unfold isMapCtr; rcases g.code with e | e <;> rw [e] <;> decide
  have hc := g.count
  unfold Ctr.byteCountText at hc
  unfold inhale
  simp only [ht, n2, Bool.not_true, if_false, hc, ne_eq, not_true_eq_false, k (b.length + 1) (Nat.le_refl _), dictOf_nodup _ hg.1]
  rfl

/-- C116: what was written is read back as the same map, also when more follows on the stream.  Missing: maps with texts that are a primitive spelled
with `+` or `/`, and numbers printed with a `+`, for which it is false (`Demo.c116_counterexamples`). -/
theorem c116_text_partial (env : Env) (strict : Bool) (mad : Flds) (raw : List Char) (hg : Good env (.map mad)) (h : exhale strict mad = .ok raw) :
    ∀ rest, fromText env strict (raw ++ rest) = .ok (mad, rest) := by
  obtain ⟨c, hd, content, g, hq, hi⟩ := exhale_back hg h
  intro rest
  have hlen : Ctr.byteCountText c + hd.length = raw.length := by rw [g.count, g.eq, List.length_append]; omega
  have hp := g.peek (content ++ rest)
  rw [← List.append_assoc, ← g.eq] at hp
  unfold fromText
  simp only [hp, g.full, hlen, List.take_left' rfl, List.drop_left' rfl, hi]

/-- C116: no proper beginning of a serialization is read as a map. -/
theorem c116_truncated (env : Env) (strict : Bool) (mad : Flds) (raw : List Char) (h : exhale strict mad = .ok raw) (n : Nat) (hn : n < raw.length) :
    ∀ x, fromText env strict (raw.take n) ≠ .ok x := by
  intro x hx
  unfold exhale at h
  simp only [serVal] at h
  split at h
  · exact absurd h (by simp)
  next b hb =>
  obtain ⟨c, hd, g⟩ := group_reads (.inl rfl) h
  have hlen : Ctr.byteCountText c + hd.length = raw.length := by rw [g.count, g.eq, List.length_append]; omega
  unfold fromText at hx
  cases he : Ctr.exfil .v2 (raw.take n) with
  | error e => rw [he] at hx; exact absurd hx (by simp)
  | ok c' =>
    have hc : c' = c := by
      obtain ⟨sz, rest, hv, e⟩ := (Ctr.exfil_ok_iff .v2 _ _).1 he
      have h2 : Ctr.exfil .v2 raw = .ok c' := by
        refine (Ctr.exfil_ok_iff .v2 _ _).2 ⟨sz, rest ++ raw.drop n, hv, ?_⟩
        rw [← List.append_assoc, ← e, List.take_append_drop]
      have h3 := g.peek b
      rw [← g.eq, h2] at h3
      injection h3
    subst hc
    have hge : hd.length ≤ n := by
      obtain ⟨sz, rest, hv, e⟩ := (Ctr.exfil_ok_iff .v2 _ _).1 he
      have hl := congrArg List.length e
      have hfs := g.full
      unfold Ctr.fullSize at hfs
      rw [hv.size] at hfs
      simp only [Except.ok.injEq] at hfs
      rw [List.length_append, hv.len, List.length_take] at hl
      omega
    rw [he] at hx
    dsimp only at hx
    rw [g.full] at hx
    dsimp only at hx
    have hi : ∀ y, inhale env strict (raw.take n) ≠ .ok y := by
      intro y hy
      unfold inhale takeCtr at hy
      rw [he] at hy
      dsimp only at hy
      rw [g.full] at hy
      dsimp only at hy
      have hcnt : Ctr.byteCountText c' = c'.count * 4 := rfl
      split at hy
      · exact absurd hy (by simp)
      split at hy
      · exact absurd hy (by simp)
      next hl =>
      rw [List.length_drop, List.length_take] at hl
      omega
    rw [List.take_of_length_le (by rw [List.length_take]; omega)] at hx
    split at hx
    · exact absurd hx (by simp)
    next hy => exact hi _ hy

/-- C116: when all of the serialization is Base64 it has a binary form, from which the same map is read. -/
theorem c116_binary_partial (env : Env) (strict : Bool) (mad : Flds) (raw : List Char) (hg : Good env (.map mad)) (h : exhale strict mad = .ok raw)
    (hb : reb64 raw = true) :
    ∃ b, qb2Of raw = .ok b ∧ ∀ rest, AllLt 256 rest → fromBinary env strict (b ++ rest) = .ok (mad, rest) := by
  obtain ⟨c, hd, content, g, hq, hi⟩ := exhale_back hg h
  have hg4 := g.quads
  have hr4 : raw.length % 4 = 0 := by rw [g.eq, List.length_append]; omega
  obtain ⟨d1, d2⟩ := idx_of_mem_reb64 hb
  obtain ⟨b, b1, b2, b3⟩ := decodeB64_complete d1 hr4
  rw [d2] at b3
  have hbl : 8 * b.length = 6 * raw.length := by
    have := congrArg List.length b3
    rwa [bits_length, bits_length, Matter.sextets_length hb] at this
  have henc : encodeB64 b = raw := encode_of_bits hb b2 (by omega) b3.symm
  refine ⟨b, b1, fun rest hr => ?_⟩
  have hx : Ctr.exfil .v2 raw = .ok c := by have := g.peek content; rwa [← g.eq] at this
  obtain ⟨sz, r, hv, e⟩ := (Ctr.exfil_ok_iff .v2 raw c).1 hx
  have hfs : sz.fs = hd.length := by
    have := g.full
    unfold Ctr.fullSize at this
    rw [hv.size] at this
    simpa using this
  have hl := hv.len
  have hrl : raw.length = sz.fs + r.length := by rw [e, List.length_append, hl]
  have hbx : Ctr.bexfil .v2 (b ++ rest) = .ok c := by
    refine (Ctr.bexfil_ok_iff .v2 _ (by rw [allLt_append]; exact ⟨b2, hr⟩) c).2 ⟨sz, hv, by rw [List.length_append]; omega, ?_⟩
    have hbb : reb64 (Ctr.both sz c) = true := hv.b64
    have hsl : (bits 6 (sextets (Ctr.both sz c))).length = 6 * sz.fs := by rw [bits_length, Matter.sextets_length hbb, hl]
    rw [bits_append, b3, e, sextets_append, bits_append, List.append_assoc, List.take_left' hsl]
  have hlen : Ctr.byteCountBinary c + hd.length * 3 / 4 = b.length := by
    have hc := g.count
    unfold Ctr.byteCountText at hc
    unfold Ctr.byteCountBinary
    have : raw.length = hd.length + content.length := by rw [g.eq, List.length_append]
    omega
  unfold fromBinary
  simp only [hbx, g.full, hlen, List.take_left' rfl, List.drop_left' rfl, henc, hi]

theorem labText_b64 {env : Env} {t q : List Char} (ht : TextOk env t) (h : qb64Of (mkText t) = .ok q) : reb64 q = true := by
  unfold qb64Of at h
  split at h
  · exact absurd h (by simp)
  next m hm =>
  obtain ⟨q', q1, q2, _⟩ := mkText_reads ht hm
  have := q1.text
  rw [h] at this
  injection this with this
  rw [this]; exact q2

theorem bare_b64 {code q : List Char} (h : bare code = .ok q) : reb64 q = true := by
  unfold bare qb64Of at h
  split at h
  · exact absurd h (by simp)
  next m hm =>
  obtain ⟨q', q1, q2, _⟩ := make_reads (by simp) hm
  have := q1.text
  rw [h] at this
  injection this with this
  rw [this]; exact q2

theorem serText_b64 {env : Env} {t q : List Char} (ht : TextOk env t) (hp : Plain t) (hb : Complete t → reb64 t = true) (h : serText t = .ok q) :
    reb64 q = true := by
  unfold serText at h
  cases hx : exfil t with
  | error e => rw [hx] at h; exact labText_b64 ht h
  | ok m =>
    rw [hx] at h
    simp only at h
    cases hi : infil m with
    | error e => rw [hi] at h; exact absurd h (by simp)
    | ok p =>
      rw [hi] at h
      simp only at h
      split at h
      · exact labText_b64 ht h
      next hl =>
      simp only [ne_eq, Decidable.not_not] at hl
      obtain ⟨v1, v2, v3⟩ := verbatim hp hx hi hl
      subst v1
      have := hb ⟨m, hx, v2⟩
      split at h
      · simp only [bare_esc] at h
        injection h with h
        subst h
        rw [reb64_append, this]
        decide +kernel
      · injection h with h
        subst h
        exact this

theorem num_b64 {dns q : List Char} (hn : ∀ c ∈ dns, (idx c).isSome = true ∧ c ≠ 'p' ∨ c = '.') (h : qb64Of (mkDecimer dns) = .ok q) : reb64 q = true := by
  unfold qb64Of at h
  split at h
  · exact absurd h (by simp)
  next m hm =>
  have hre : reb64 (dns.map decTo) = true := by
    simp only [reb64, List.all_eq_true, List.mem_map]
    rintro c ⟨x, hx, rfl⟩
    unfold decTo
    split
    · decide +kernel
    · rename_i hne
      rcases hn x hx with h | h
      · exact h.1
      · exact absurd h hne
  obtain ⟨a1, a2⟩ := allDec_of_reb64 hre
  obtain ⟨raw, r1, r2, r3, r4, r5⟩ := wad_roundtrip _ a1
  unfold mkDecimer at hm
  simp only [r1] at hm
  split at hm
  · exact absurd hm (by simp)
  next m' hmk =>
  split at hm
  · injection hm with hm
    subst hm
    obtain ⟨q', q1, q2, q3⟩ := make_reads r2 hmk
    have := q1.text
    rw [h] at this
    injection this with this
    rw [this]; exact q2
  · exact absurd hm (by simp)

theorem group_b64 {x : Char} {content t : List Char} (hx : x = 'I' ∨ x = 'J') (h : Ctr.encloseText .v2 ['-', x] content = .ok t)
    (hb : reb64 content = true) : reb64 t = true := by
  obtain ⟨c, hd, g⟩ := group_reads hx h
  rw [g.eq, reb64_append, g.b64, hb]; rfl

mutual
theorem serVal_b64 (env : Env) (strict : Bool) : ∀ (v : Val) (t : List Char), Good env v → Based v → serVal strict v = .ok t → reb64 t = true
  | .null, t, _, _, h => by simp only [serVal] at h; exact bare_b64 h
  | .bool true, t, _, _, h => by simp only [serVal] at h; exact bare_b64 h
  | .bool false, t, _, _, h => by simp only [serVal] at h; exact bare_b64 h
  | .num dns, t, g, _, h => by
    simp only [serVal] at h
    simp only [Good] at g
    exact num_b64 g.2.1 h
  | .text s, t, g, b, h => by
    simp only [serVal] at h
    simp only [Good] at g
    simp only [Based] at b
    exact serText_b64 g.1 g.2 b h
  | .list vs, t, g, b, h => by
    simp only [serVal] at h
    simp only [Good] at g
    simp only [Based] at b
    split at h
    · exact absurd h (by simp)
    next c hc => exact group_b64 (.inr rfl) h (serVals_b64 env strict vs c g b hc)
  | .map fs, t, g, b, h => by
    simp only [serVal] at h
    simp only [Good] at g
    simp only [Based] at b
    split at h
    · exact absurd h (by simp)
    next c hc => exact group_b64 (.inl rfl) h (serFlds_b64 env strict fs c g.2 b hc)

theorem serVals_b64 (env : Env) (strict : Bool) : ∀ (vs : List Val) (t : List Char), GoodVals env vs → BasedVals vs → serVals strict vs = .ok t → reb64 t = true
  | [], t, _, _, h => by simp only [serVals] at h; injection h with h; subst h; rfl
  | v :: vs, t, g, b, h => by
    simp only [serVals] at h
    simp only [GoodVals] at g
    simp only [BasedVals] at b
    split at h
    · exact absurd h (by simp)
    next a ha =>
    split at h
    · exact absurd h (by simp)
    next c hc =>
    injection h with h
    subst h
    rw [reb64_append, serVal_b64 env strict v a g.1 b.1 ha, serVals_b64 env strict vs c g.2 b.2 hc]; rfl

theorem serFlds_b64 (env : Env) (strict : Bool) : ∀ (fs : Flds) (t : List Char), GoodFlds env fs → BasedFlds fs → serFlds strict fs = .ok t → reb64 t = true
  | [], t, _, _, h => by simp only [serFlds] at h; injection h with h; subst h; rfl
  | (l, v) :: fs, t, g, b, h => by
    simp only [serFlds] at h
    simp only [GoodFlds] at g
    simp only [BasedFlds] at b
    split at h
    · exact absurd h (by simp)
    next x hx =>
    split at h
    · exact absurd h (by simp)
    next a ha =>
    split at h
    · exact absurd h (by simp)
    next c hc =>
    injection h with h
    subst h
    obtain ⟨_, _, l3, _⟩ := takeLabel_of g.1 hx
    rw [reb64_append, reb64_append, l3, serVal_b64 env strict v a g.2.1 b.1 ha, serFlds_b64 env strict fs c g.2.2 b.2 hc]; rfl
end

/-- C116: all of the serialization is Base64 when every text that is a primitive is. -/
theorem c116_base64_partial (env : Env) (strict : Bool) (mad : Flds) (raw : List Char) (hg : Good env (.map mad)) (hb : Based (.map mad))
    (h : exhale strict mad = .ok raw) : reb64 raw = true := serVal_b64 env strict (.map mad) raw hg hb h

/-- C116: maps that are written alike are the same map. -/
theorem c116_injective_partial (env : Env) (strict : Bool) (mad1 mad2 : Flds) (raw : List Char) (h1 : Good env (.map mad1)) (h2 : Good env (.map mad2))
    (e1 : exhale strict mad1 = .ok raw) (e2 : exhale strict mad2 = .ok raw) : mad1 = mad2 := by
  have a1 := c116_text_partial env strict mad1 raw h1 e1 []
  have a2 := c116_text_partial env strict mad2 raw h2 e2 []
  rw [a1] at a2
  simp only [Except.ok.injEq, Prod.mk.injEq] at a2
  exact a2.1

end Verif.Mad
