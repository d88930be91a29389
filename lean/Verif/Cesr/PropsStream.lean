import Verif.Cesr.PropsRead

/-! # C173: native messages in a stream, when nothing is known of them -/

namespace Verif.Cesr

open Verif.B64 Verif.Matter Verif.Mad
open Verif.Ser (Serder)

/-- The message with the given fields and bytes. -/
def msgOf (pvrsn : Nat × Nat) (sad : Flds) (raw : List Char) : Serder := ⟨attrsOf pvrsn, raw, sad, raw.length⟩

/-- What is known of a native serialization as a group. -/
theorem native_group {env : Env} {pv : Nat × Nat} {gv : Option (Nat × Nat)} {sad : Flds} {raw : List Char} (h : native env pv gv sad = .ok raw) :
    ∃ c hd body, Group 'F' raw body c hd ∧ Ctr.byteCountText c + hd.length = raw.length ∧ raw.length % 4 = 0 := by
  unfold native at h
  split at h
  · exact absurd h (by simp)
  split at h
  · exact absurd h (by simp)
  · exact absurd h (by simp)
  split at h
  · exact absurd h (by simp)
  split at h
  · exact absurd h (by simp)
  next body _ =>
  have hq : body.length % 4 = 0 := by
    unfold Ctr.encloseText at h
    split at h
    · exact absurd h (by simp)
    · omega
  obtain ⟨c, hd, g⟩ := group_any h
  have := g.quads
  exact ⟨c, hd, body, g, by rw [g.count, g.eq, List.length_append]; omega, by rw [g.eq, List.length_append]; omega⟩

/-- Messages that fit a small counter have one. -/
theorem small_head {env : Env} {pv : Nat × Nat} {gv : Option (Nat × Nat)} {sad : Flds} {raw hd body : List Char} {c : Ctr.Counter}
    (h : native env pv gv sad = .ok raw) (hl : raw.length ≤ 4 * 4095) (g : Group 'F' raw body c hd) : hd.length = 4 := by
  unfold native at h
  split at h
  · exact absurd h (by simp)
  split at h
  · exact absurd h (by simp)
  · exact absurd h (by simp)
  split at h
  · exact absurd h (by simp)
  split at h
  · exact absurd h (by simp)
  next body' _ =>
  have hq : body'.length % 4 = 0 := by
    unfold Ctr.encloseText at h
    split at h
    · exact absurd h (by simp)
    · omega
  have hle : body'.length ≤ raw.length := by
    obtain ⟨_, hd', g'⟩ := group_any h
    rw [g'.eq, List.length_append]
    omega
  obtain ⟨c', hd', g', hc⟩ := counted_small hq (by omega) ((counted_eq hq).trans h)
  have e : c = c' := by
    have a := g.peek body
    have b := g'.peek body'
    rw [← g.eq] at a
    rw [← g'.eq, a] at b
    injection b
  subst e
  have hf := g.full
  have : Ctr.fullSize .v2 c = .ok 4 := by
    unfold Ctr.fullSize
    rw [hc]
    rfl
  rw [this] at hf
  injection hf with hf
  exact hf.symm

theorem found_of {env : Env} (hh : HexOk env) {pvrsn : Nat × Nat} {gvrsn : Option (Nat × Nat)} {ilk : List Char} {sad : Flds} {raw hd body : List Char}
    {c c' : Ctr.Counter} (hm : MsgOk env pvrsn ilk sad) (h : native env pvrsn gvrsn sad = .ok raw) (hv : Versioned pvrsn sad raw) (g : Group 'F' raw body c hd)
    (hc : c'.code = ['-', 'F'] ∨ c'.code = ['-', '-', 'F']) : inhaleFound env c' hd.length raw = .ok (msgOf pvrsn sad raw) := by
  obtain ⟨v, d, ls, vt, tt, ft, hs, nv, nt, p, rfl⟩ := native_parts hm.type hm.labels h
  have hb := c170_read_back_partial hh hm h hv []
  rw [List.append_nil] at hb
  obtain ⟨c2, hd2, g2⟩ := group_any p.outer
  have hbody : body = vt ++ (tt ++ ft) := by
    have t1 := g.take []
    have t2 := g2.take []
    rw [t1] at t2
    simp only [List.append_nil, Except.ok.injEq, Prod.mk.injEq] at t2
    exact t2.2
  have hdrop : raw.drop hd.length = vt ++ (tt ++ ft) := by
    conv => lhs; rw [g.eq]
    rw [List.drop_left' rfl, hbody]
  have hkey : ['v'] ∈ sad.map (·.1) := by rw [hs]; simp
  have hver : versage c' hd.length raw = .ok (['K', 'E', 'R', 'I'], pvrsn, some (2, 0)) := by
    unfold versage
    rw [if_pos hc, hdrop, (ver_reads p.ver (tt ++ ft)).1]
  unfold inhaleFound
  rw [hver]
  simp only [hb]
  rw [if_neg (by simp), if_neg (by simpa using hkey)]
  rfl

/-- **C173.** In the text domain a message is found at the front of a stream, with nothing known of it, and what follows it is left. -/
theorem c173_text_partial {env : Env} (hh : HexOk env) {pvrsn : Nat × Nat} {gvrsn : Option (Nat × Nat)} {ilk : List Char} {sad : Flds} {raw : List Char}
    (hm : MsgOk env pvrsn ilk sad) (h : native env pvrsn gvrsn sad = .ok raw) (hv : Versioned pvrsn sad raw) (rest : List Char) :
    inhaleText env (raw ++ rest) = .ok (msgOf pvrsn sad raw, rest) := by
  obtain ⟨c, hd, body, g, hlen, _⟩ := native_group h
  have hx := g.peek (body ++ rest)
  rw [← List.append_assoc, ← g.eq] at hx
  unfold inhaleText
  simp only [hx, g.full, hlen]
  rw [if_neg (by simp)]
  simp only [List.take_left' rfl, List.drop_left' rfl, found_of hh hm h hv g g.code]

/-- **C173.** No proper beginning of a message is taken for one. -/
theorem c173_truncated (env : Env) (pvrsn : Nat × Nat) (gvrsn : Option (Nat × Nat)) (sad : Flds) (raw : List Char) (h : native env pvrsn gvrsn sad = .ok raw)
    (n : Nat) (hn : n < raw.length) : ∀ x, inhaleText env (raw.take n) ≠ .ok x := by
  intro x hx
  obtain ⟨c, hd, body, g, hlen, _⟩ := native_group h
  unfold inhaleText at hx
  cases he : Ctr.exfil .v2 (raw.take n) with
  | error e => rw [he] at hx; exact absurd hx (by simp)
  | ok c' =>
    have hc : c' = c := by
      obtain ⟨sz, rest, hv, e⟩ := (Ctr.exfil_ok_iff .v2 _ _).1 he
      have h2 : Ctr.exfil .v2 raw = .ok c' := by
        refine (Ctr.exfil_ok_iff .v2 _ _).2 ⟨sz, rest ++ raw.drop n, hv, ?_⟩
        rw [← List.append_assoc, ← e, List.take_append_drop]
      have h3 := g.peek body
      rw [← g.eq, h2] at h3
      injection h3
    subst hc
    rw [he] at hx
    simp only [g.full, hlen] at hx
    rw [if_pos (by rw [List.length_take]; omega)] at hx
    exact absurd hx (by simp)

/-- The bytes of a message in the binary domain. -/
theorem binary_of {raw hd body : List Char} {c : Ctr.Counter} (g : Group 'F' raw body c hd) (hlen : Ctr.byteCountText c + hd.length = raw.length)
    (hr4 : raw.length % 4 = 0) (hb : reb64 raw = true) :
    ∃ b, qb2Of raw = .ok b ∧ encodeB64 b = raw ∧ AllLt 256 b ∧ Ctr.byteCountBinary c + hd.length * 3 / 4 = b.length ∧
      ∀ rest, AllLt 256 rest → Ctr.bexfil .v2 (b ++ rest) = .ok c := by
  obtain ⟨d1, d2⟩ := idx_of_mem_reb64 hb
  obtain ⟨b, b1, b2, b3⟩ := decodeB64_complete d1 hr4
  rw [d2] at b3
  have hbl : 8 * b.length = 6 * raw.length := by
    have := congrArg List.length b3
    rwa [bits_length, bits_length, Matter.sextets_length hb] at this
  have henc : encodeB64 b = raw := encode_of_bits hb b2 (by omega) b3.symm
  have hx : Ctr.exfil .v2 raw = .ok c := by have := g.peek body; rwa [← g.eq] at this
  obtain ⟨sz, r, hv, e⟩ := (Ctr.exfil_ok_iff .v2 raw c).1 hx
  have hfs : sz.fs = hd.length := by
    have := g.full
    unfold Ctr.fullSize at this
    rw [hv.size] at this
    simpa using this
  have hl := hv.len
  have hrl : raw.length = sz.fs + r.length := by rw [e, List.length_append, hl]
  have hq := g.quads
  refine ⟨b, b1, henc, b2, ?_, fun rest hr => ?_⟩
  · unfold Ctr.byteCountText at hlen
    unfold Ctr.byteCountBinary
    omega
  · refine (Ctr.bexfil_ok_iff .v2 _ (by rw [allLt_append]; exact ⟨b2, hr⟩) c).2 ⟨sz, hv, by rw [List.length_append]; omega, ?_⟩
    have hbb : reb64 (Ctr.both sz c) = true := hv.b64
    have hsl : (bits 6 (sextets (Ctr.both sz c))).length = 6 * sz.fs := by rw [bits_length, Matter.sextets_length hbb, hl]
    rw [bits_append, b3, e, sextets_append, bits_append, List.append_assoc, List.take_left' hsl]

/-- **C173.** In the binary domain a message alone in a stream that is not stripped is read. -/
theorem c173_binary_alone_partial {env : Env} (hh : HexOk env) {pvrsn : Nat × Nat} {gvrsn : Option (Nat × Nat)} {ilk : List Char} {sad : Flds} {raw : List Char}
    (hm : MsgOk env pvrsn ilk sad) (h : native env pvrsn gvrsn sad = .ok raw) (hv : Versioned pvrsn sad raw) (hb : reb64 raw = true) :
    ∃ b, qb2Of raw = .ok b ∧ inhaleBinary env false b = .ok (msgOf pvrsn sad raw, b) := by
  obtain ⟨c, hd, body, g, hlen, hr4⟩ := native_group h
  obtain ⟨b, b1, b2, _, b4, b5⟩ := binary_of g hlen hr4 hb
  refine ⟨b, b1, ?_⟩
  have hx := b5 [] (by simp)
  rw [List.append_nil] at hx
  unfold inhaleBinary
  simp only [hx, g.full, b4]
  rw [if_neg (by omega)]
  simp only [Bool.false_eq_true, if_false, b2, found_of hh hm h hv g g.code]

/-- **C173 fails in the binary domain.** No message at the end of a stream that is stripped is read: its bytes are removed and what is left, nothing, is read in
their place. -/
theorem c173_binary_strip_fails (env : Env) (pvrsn : Nat × Nat) (gvrsn : Option (Nat × Nat)) (sad : Flds) (raw : List Char)
    (h : native env pvrsn gvrsn sad = .ok raw) (b : List Nat) (hb : reb64 raw = true) (hq : qb2Of raw = .ok b) : inhaleBinary env true b = .error .shortage := by
  obtain ⟨c, hd, body, g, hlen, hr4⟩ := native_group h
  obtain ⟨b', b1, b2, _, b4, b5⟩ := binary_of g hlen hr4 hb
  rw [hq] at b1
  injection b1 with b1
  subst b1
  have hx := b5 [] (by simp)
  rw [List.append_nil] at hx
  have hn : encodeB64 ([] : List Nat) = [] := rfl
  have hf : inhaleFound env c hd.length [] = .error .shortage := by
    unfold inhaleFound versage
    rw [if_pos g.code, List.drop_nil]
    rfl
  unfold inhaleBinary
  simp only [hx, g.full, b4]
  rw [if_neg (by omega)]
  simp only [if_true, List.drop_length, hn, hf]

/-- **C173 fails in the binary domain.** Of two messages in a stream that is stripped the second one is given in place of the first, and it is still in the
stream. -/
theorem c173_binary_swapped {env : Env} (hh : HexOk env) {pvrsn : Nat × Nat} {g1 g2 : Option (Nat × Nat)} {ilk : List Char} {sad1 sad2 : Flds}
    {raw1 raw2 : List Char} (h1 : native env pvrsn g1 sad1 = .ok raw1) (hm : MsgOk env pvrsn ilk sad2) (h2 : native env pvrsn g2 sad2 = .ok raw2)
    (hv : Versioned pvrsn sad2 raw2) (l1 : raw1.length ≤ 4 * 4095) (l2 : raw2.length ≤ 4 * 4095) (r1 : reb64 raw1 = true) (r2 : reb64 raw2 = true) :
    ∃ b1 b2, qb2Of raw1 = .ok b1 ∧ qb2Of raw2 = .ok b2 ∧ inhaleBinary env true (b1 ++ b2) = .ok (msgOf pvrsn sad2 raw2, b2) := by
  obtain ⟨c, hd, body, g, hlen, hr4⟩ := native_group h1
  obtain ⟨c', hd', body', g', hlen', hr4'⟩ := native_group h2
  obtain ⟨b1, a1, _, _, a4, a5⟩ := binary_of g hlen hr4 r1
  obtain ⟨b2, e1, e2, e3, _, _⟩ := binary_of g' hlen' hr4' r2
  have hsize : hd.length = hd'.length := by rw [small_head h1 l1 g, small_head h2 l2 g']
  refine ⟨b1, b2, a1, e1, ?_⟩
  unfold inhaleBinary
  simp only [a5 b2 e3, g.full, a4]
  rw [if_neg (by simp)]
  simp only [if_true, List.drop_left' rfl, e2]
  rw [hsize]
  simp only [found_of hh hm h2 hv g' g.code]

end Verif.Cesr
