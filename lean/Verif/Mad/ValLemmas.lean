import Verif.Mad.LabelLemmas

/-! # Values read back -/

namespace Verif.Mad

open Verif.B64 Verif.Matter

theorem label_special : ∀ c ∈ labelDex, c ≠ ['1', 'A', 'A', 'O'] ∧ c ≠ ['1', 'A', 'A', 'K'] ∧ c ≠ ['1', 'A', 'A', 'M'] ∧ c ≠ ['1', 'A', 'A', 'L'] ∧ c ∉ decDex := by
  decide +kernel

theorem dec_special : ∀ c ∈ decDex, c ≠ ['1', 'A', 'A', 'O'] ∧ c ≠ ['1', 'A', 'A', 'K'] ∧ c ≠ ['1', 'A', 'A', 'M'] ∧ c ≠ ['1', 'A', 'A', 'L'] := by decide +kernel

theorem label_escape : ∀ c ∈ labelDex, c ∈ escapeDex := by decide +kernel
theorem dec_escape : ∀ c ∈ decDex, c ∈ escapeDex := by decide +kernel

/-- What is needed of a serialized value: it is whole quadlets, does not begin like a group, and reads back whatever follows. -/
structure Prim (env : Env) (q : List Char) (v : Val) : Prop where
  back : ∀ rest, deserPrim env (q ++ rest) = .ok (v, rest)
  pos : 0 < q.length
  notMinus : q.head? ≠ some '-'
  quads : q.length % 4 = 0

theorem labText_prim {env : Env} {t q : List Char} (ht : TextOk env t) (h : qb64Of (mkText t) = .ok q) : Prim env q (.text t) := by
  unfold qb64Of at h
  split at h
  · exact absurd h (by simp)
  next m hm =>
  obtain ⟨q', q1, q2, q3, q4, q5⟩ := mkText_reads ht hm
  have : q' = q := by
    have := q1.text
    rw [h] at this
    injection this with this
    exact this.symm
  subst this
  obtain ⟨n1, n2, n3, n4, n5⟩ := label_special _ q5
  refine ⟨fun rest => ?_, q1.pos, q1.notMinus, q3⟩
  simp only [deserPrim, q1.take rest, if_neg n1, if_neg n2, if_neg n3, if_neg n4, if_neg n5, if_pos q5, q4]

theorem canon_id {t : List Char} (h1 : '+' ∉ t) (h2 : '/' ∉ t) : t.map canonChar = t := by
  conv => rhs; rw [← List.map_id t]
  apply List.map_congr_left
  intro c hc
  unfold canonChar
  rw [if_neg (by rintro rfl; exact h1 hc), if_neg (by rintro rfl; exact h2 hc)]
  rfl

/-- A text that is as long as the primitive at its front is that primitive. -/
theorem verbatim {t q : List Char} {m : Mat} (hp : Plain t) (h1 : exfil t = .ok m) (h2 : infil m = .ok q) (h3 : q.length = t.length) :
    q = t ∧ fullSize m = .ok t.length ∧ t.length % 4 = 0 := by
  obtain ⟨n, sz, mat, r, c⟩ := (exfil_ok_iff t m).1 h1
  have hfs := fullSize_valid c.size c.framed
  have hq := c08_canonical_partial t m n sz h1 hfs c.size
  have hff := framed_facts (wf_of_sizes c.size) c.framed
  have hbl := both_length (wf_of_sizes c.size) c.softLen
  have hcl := c.len
  have hcs : sz.cs = sz.hs + sz.ss := rfl
  have hn : n ≤ t.length := by rw [c.text]; simp; omega
  rw [h2] at hq
  injection hq with hq
  have hql : q.length = n := by
    rw [hq]; simp
    omega
  have hnt : n = t.length := by omega
  subst hnt
  have hc : Complete t := ⟨m, h1, hfs⟩
  obtain ⟨p1, p2⟩ := hp hc
  refine ⟨?_, hfs, hff.1⟩
  rw [hq, List.take_of_length_le (Nat.le_refl t.length), canon_id, List.take_append_drop]
  · exact fun h => p1 (List.mem_of_mem_drop h)
  · exact fun h => p2 (List.mem_of_mem_drop h)

theorem bare_esc : bare ['1', 'A', 'A', 'O'] = .ok ['1', 'A', 'A', 'O'] := by decide +kernel

theorem bare_reads {code : List Char} (hb : make code [] [] none = .ok ⟨code, [], []⟩) {q : List Char} (h : bare code = .ok q) :
    Reads q ⟨code, [], []⟩ ∧ q.length % 4 = 0 := by
  obtain ⟨q', q1, q2, q3⟩ := make_reads (by simp) hb
  have hq := q1.text
  simp only [bare, qb64Of, hb] at h
  rw [h] at hq
  injection hq with hq
  subst hq
  exact ⟨q1, q3⟩

theorem serText_prim {env : Env} {t q : List Char} (ht : TextOk env t) (hp : Plain t) (h : serText t = .ok q) : Prim env q (.text t) := by
  unfold serText at h
  cases hx : exfil t with
  | error e => rw [hx] at h; exact labText_prim ht h
  | ok m =>
    rw [hx] at h
    simp only at h
    cases hi : infil m with
    | error e => rw [hi] at h; exact absurd h (by simp)
    | ok p =>
      rw [hi] at h
      simp only at h
      split at h
      · exact labText_prim ht h
      next hl =>
      simp only [ne_eq, Decidable.not_not] at hl
      obtain ⟨v1, v2, v3⟩ := verbatim hp hx hi hl
      subst v1
      have hr : Reads p m := reads_of hi hx v2
      split at h
      · simp only [bare_esc] at h
        injection h with h
        subst h
        obtain ⟨br, _⟩ := bare_reads (code := ['1', 'A', 'A', 'O']) (by decide +kernel) bare_esc
        refine ⟨fun rest => ?_, by simp, by simp, by simp; omega⟩
        have e1 := br.take (p ++ rest)
        rw [← List.append_assoc] at e1
        simp only [deserPrim, e1, if_true, hr.take rest, hi]
      · next he =>
        injection h with h
        subst h
        refine ⟨fun rest => ?_, hr.pos, hr.notMinus, v3⟩
        have g1 : m.code ≠ ['1', 'A', 'A', 'O'] := by intro e; rw [e] at he; exact he (by decide)
        have g2 : m.code ≠ ['1', 'A', 'A', 'K'] := by intro e; rw [e] at he; exact he (by decide)
        have g3 : m.code ≠ ['1', 'A', 'A', 'M'] := by intro e; rw [e] at he; exact he (by decide)
        have g4 : m.code ≠ ['1', 'A', 'A', 'L'] := by intro e; rw [e] at he; exact he (by decide)
        have g5 : m.code ∉ decDex := fun e => he (dec_escape _ e)
        have g6 : m.code ∉ labelDex := fun e => he (label_escape _ e)
        simp only [deserPrim, hr.take rest, if_neg g1, if_neg g2, if_neg g3, if_neg g4, if_neg g5, if_neg g6, hi]

theorem num_prim {env : Env} {dns q : List Char} (hn : NumOk env dns) (h : qb64Of (mkDecimer dns) = .ok q) : Prim env q (.num dns) := by
  obtain ⟨hnorm, hchars, hA⟩ := hn
  unfold qb64Of at h
  split at h
  · exact absurd h (by simp)
  next m hm =>
  have hre : reb64 (dns.map decTo) = true := by
    simp only [reb64, List.all_eq_true, List.mem_map]
    rintro c ⟨x, hx, rfl⟩
    unfold decTo
    split
    · decide +kernel
    · rename_i hne
      rcases hchars x hx with h | h
      · exact h.1
      · exact absurd h hne
  have hback : (dns.map decTo).map decFrom = dns := by
    rw [List.map_map]
    conv => rhs; rw [← List.map_id dns]
    apply List.map_congr_left
    intro c hc
    simp only [Function.comp, decTo, decFrom, id]
    rcases hchars c hc with h | h
    · by_cases hd : c = '.'
      · simp [hd]
      · simp [hd, h.2]
    · simp [h]
  obtain ⟨a1, a2⟩ := allDec_of_reb64 hre
  obtain ⟨raw, r1, r2, r3, r4, r5⟩ := wad_roundtrip _ a1
  unfold mkDecimer at hm
  simp only [r1] at hm
  split at hm
  · exact absurd hm (by simp)
  next m' hmk =>
  split at hm
  · next hcode =>
    injection hm with hm
    subst hm
    obtain ⟨q', q1, q2, q3⟩ := make_reads r2 hmk
    have : q' = q := by
      have := q1.text
      rw [h] at this
      injection this with this
      exact this.symm
    subst this
    have g1 : sizes? ['4', 'H'] = some ⟨2, 2, 0, none, 0⟩ := by decide +kernel
    have hlen : (raw.length + 2) / 3 ≤ 64 ^ 4 - 1 := by
      by_cases hl : (raw.length + 2) / 3 ≤ 64 ^ 4 - 1
      · exact hl
      · have := (c09_variable_size ['4', 'H'] [] raw _ g1 rfl).2 (by omega)
        rw [this] at hmk
        exact absurd hmk (by simp)
    obtain ⟨m2, sz, m1, m2, m3, m4, m5, m6⟩ := make_var (code := ['4', 'H']) (raw := raw) g1 rfl hlen
    rw [hmk] at m1
    injection m1 with m1
    subst m1
    have hls : sz.ls = leadSize (dns.map decTo).length := by rw [m4, r4]
    have hd : dnsOf m' = .ok dns := by
      simp only [dnsOf, m3, m2, hls]
      rw [textOfRaw_spec _ a1 raw r1, a2, hback]
      intro rest hr
      cases dns with
      | nil => simp at hr
      | cons c cs =>
        simp only [List.map_cons, List.cons.injEq] at hr
        exfalso
        apply hA
        have := hr.1
        unfold decTo at this
        split at this
        · exact absurd this (by decide)
        · rw [this]; rfl
    obtain ⟨n1, n2, n3, n4⟩ := dec_special _ hcode
    refine ⟨fun rest => ?_, q1.pos, q1.notMinus, q3⟩
    simp only [deserPrim, q1.take rest, if_neg n1, if_neg n2, if_neg n3, if_neg n4, if_pos hcode, hd, hnorm]
  · exact absurd hm (by simp)

theorem bare_prim {env : Env} {code : List Char} {v : Val} (hb : make code [] [] none = .ok ⟨code, [], []⟩) {q : List Char} (h : bare code = .ok q)
    (hd : ∀ r s, takeMat r = .ok (⟨code, [], []⟩, s) → deserPrim env r = .ok (v, s)) : Prim env q v := by
  obtain ⟨q1, q3⟩ := bare_reads hb h
  exact ⟨fun rest => hd _ _ (q1.take rest), q1.pos, q1.notMinus, q3⟩

end Verif.Mad
