import Verif.Cesr.SealLemmas
import Verif.Ser.PropsCommit

/-! # Fields of a message read back -/

namespace Verif.Cesr

open Verif.B64 Verif.Matter Verif.Mad
open Verif.Thold (natText sith ofLimen)

theorem kind_mem {l : List Char} {k : Kind} (h : kindOf l = some k) : (l, k) ∈ kinds := by
  unfold kindOf at h
  revert h
  generalize kinds = ks
  intro h
  induction ks with
  | nil => simp [List.lookup] at h
  | cons p r ih =>
    obtain ⟨a, b⟩ := p
    rw [List.lookup_cons] at h
    split at h
    · next he =>
      injection h with h
      rw [beq_iff_eq] at he
      subst h he
      simp
    · exact List.mem_cons_of_mem _ (ih h)

/-- Which labels have a kind. -/
def labelsFor : Kind → List (List Char)
  | .v => [['v']]
  | .t => [['t']]
  | .dig => [['d'], ['p'], ['x']]
  | .nonce => [['u']]
  | .pre => [['i'], ['d', 'i'], ['r', 'i']]
  | .num => [['s'], ['b', 't']]
  | .thold => [['k', 't'], ['n', 't']]
  | .prims => [['k'], ['n'], ['b'], ['b', 'a'], ['b', 'r']]
  | .date => [['d', 't']]
  | .route => [['r'], ['r', 'r']]
  | .traits => [['c']]
  | .attrs => [['a']]
  | .query => [['q']]

theorem kind_labels : ∀ p ∈ kinds, p.1 ∈ labelsFor p.2 := by decide +kernel

theorem map_back {env : Env} {fs : Flds} {t : List Char} (hg : Good env.toEnv (.map fs)) (h : exhale true fs = .ok t) (rest : List Char) :
    takeMap env (t ++ rest) = .ok (.map fs, rest) ∧ ∃ c r, takeCtr (t ++ rest) = .ok (c, r) ∧ isMapCtr c = true := by
  obtain ⟨c, hd, content, g, _, _⟩ := exhale_back hg h
  refine ⟨?_, c, _, g.take rest, ?_⟩
  · unfold takeMap
    rw [if_neg, c116_text_partial env.toEnv true fs t hg h rest]
    intro he
    have := congrArg List.length he
    have := g.long
    rw [g.eq] at *
    simp only [List.length_append, List.length_nil] at *
    omega
  · rcases g.code with e | e <;> simp [isMapCtr, e]

theorem field_back {env : Env} (hh : HexOk env) {pv : Nat × Nat} {ilk l : List Char} {k : Kind} {v vs : Val} {t : List Char} (hk : kindOf l = some k)
    (hf : FieldOk env ilk l v) (hv : l ≠ ['v']) (ht : l ≠ ['t']) (h : fieldText env pv ilk k v = .ok t) (rest : List Char) :
    takeField env vs ilk k (t ++ rest) = .ok (v, rest) := by
  have hl := kind_labels _ (kind_mem hk)
  cases k with
  | v => exact absurd (List.mem_singleton.1 hl) hv
  | t => exact absurd (List.mem_singleton.1 hl) ht
  | dig =>
    obtain ⟨x, rfl, hx⟩ := hf.digest hl
    injection h with h
    subst h
    exact takePrim_back hx rest
  | nonce =>
    obtain ⟨x, rfl, hx⟩ := hf.nonce (List.mem_singleton.1 hl)
    injection h with h
    subst h
    exact takePrim_back hx rest
  | pre =>
    obtain ⟨x, rfl, hx⟩ := hf.aid hl
    injection h with h
    subst h
    exact takePrim_back hx rest
  | num =>
    obtain ⟨m, q, n, rfl, q1, r, _, hc, hn, _⟩ := num_back hh (hf.number hl)
    simp only [fieldText] at h
    rw [h] at q1
    injection q1 with q1
    subst q1
    simp only [takeField, r.take, if_pos hc, hn]
  | thold =>
    obtain ⟨_, m, r, hb⟩ := thold_back hh h (hf.threshold hl)
    obtain ⟨th, t1, t2⟩ := hb rest
    simp only [takeField, r.take, t1, t2]
  | prims =>
    obtain ⟨ts, rfl, hts⟩ := hf.prims hl
    simp only [fieldText, textsIn_list] at h
    exact (takeList_back (prims_quads hts) h (primsIn_back hts _ (by omega)) rest).1
  | date =>
    obtain ⟨x, rfl, h1, h2⟩ := hf.date (List.mem_singleton.1 hl)
    obtain ⟨_, m, r, m1, m2⟩ := date_back h1 h2 h
    simp only [takeField, r.take, m1, m2]
    rw [if_neg (by simp)]
  | route =>
    obtain ⟨p, rfl, h1, h2, h3⟩ := hf.route hl
    obtain ⟨_, m, r, m1⟩ := route_back h1 h2 h3 h
    simp only [takeField, r.take, m1]
  | traits =>
    obtain ⟨ts, rfl, hts⟩ := hf.traits (List.mem_singleton.1 hl)
    simp only [fieldText, textsIn_list] at h
    split at h
    · exact absurd h (by simp)
    next frame hfr =>
    obtain ⟨b1, b2⟩ := traits_back hfr
    exact (takeList_back b1 h (b2 _ (by omega)) rest).1
  | attrs =>
    rcases hf.attrs (List.mem_singleton.1 hl) with ⟨fs, rfl, hg⟩ | ⟨es, rfl, hes⟩
    · obtain ⟨b1, c, r, b2, b3⟩ := map_back hg h rest
      simp only [takeField, takeAttrs, b2, b3, if_true, b1]
    · simp only [fieldText, attrsText] at h
      split at h
      · exact absurd h (by simp)
      next hi =>
      split at h
      · exact absurd h (by simp)
      next frame hfr =>
      obtain ⟨s1, s2⟩ := seals_read hh hes hfr
      obtain ⟨b1, _, c, r, b2, b3⟩ := takeList_back s1 h s2 rest
      have hm : isMapCtr c = false := by
        simp only [isListCtr, Bool.or_eq_true, decide_eq_true_eq] at b3
        rcases b3 with e | e <;> simp [isMapCtr, e]
      simp only [takeField, takeAttrs, b2, b3, hm, if_true]
      rw [if_neg (by simp), if_neg hi]
      exact b1
  | query =>
    obtain ⟨fs, rfl, hg⟩ := hf.query (List.mem_singleton.1 hl)
    exact (map_back hg h rest).1

theorem fields_back {env : Env} (hh : HexOk env) {pv : Nat × Nat} {ilk : List Char} (vs : Val) {fs : Flds} {b : List Char}
    (hf : ∀ p ∈ fs, FieldOk env ilk p.1 p.2) (hv : ['v'] ∉ fs.map (·.1)) (ht : ['t'] ∉ fs.map (·.1)) (h : fieldsText env pv ilk fs = .ok b) (rest : List Char) :
    takeFields env vs ilk (fs.map (·.1)) (b ++ rest) = .ok fs := by
  induction fs generalizing b with
  | nil => rfl
  | cons p r ih =>
    obtain ⟨l, v⟩ := p
    simp only [List.map_cons, List.mem_cons, not_or] at hv ht
    unfold fieldsText at h
    split at h
    · exact absurd h (by simp)
    next k hk =>
    split at h
    · exact absurd h (by simp)
    next a ha =>
    split at h
    · exact absurd h (by simp)
    next c hc =>
    injection h with h
    subst h
    have h1 := field_back (vs := vs) hh hk (hf (l, v) (by simp)) (fun e => hv.1 e.symm) (fun e => ht.1 e.symm) ha (c ++ rest)
    have h2 := ih (fun p hp => hf p (by simp [hp])) hv.2 ht.2 hc
    simp only [List.map_cons, takeFields, hk, List.append_assoc, h1, h2]

/-! ## The front of a message -/

theorem fixed_domain {pv : Nat × Nat} {ilk : List Char} {fd : Ser.FieldDom} (h : fixedDom pv ilk = some fd) :
    ilk ∈ nativeIlks ∧ Ser.domain .keri pv (some ilk) = some fd := by
  unfold fixedDom at h
  split at h
  · exact absurd h (by simp)
  next hi =>
  split at h
  · exact absurd h (by simp)
  next fd' hd =>
  split at h
  · exact absurd h (by simp)
  injection h with h
  subst h
  exact ⟨Decidable.byContradiction hi, hd⟩

theorem table_heads : (∀ p ∈ Ser.keri1 ++ Ser.keri2, (p.2.labels.take 3 = [['v'], ['t'], ['d']] ∧ ['v'] ∉ p.2.labels.drop 2 ∧ ['t'] ∉ p.2.labels.drop 2)) := by
  decide +kernel

theorem dom_mem {pv : Nat × Nat} {ilk : Option (List Char)} {fd : Ser.FieldDom} (h : Ser.domain .keri pv ilk = some fd) : (ilk, fd) ∈ Ser.keri1 ++ Ser.keri2 := by
  have key : ∀ (doms : List (Option (List Char) × Ser.FieldDom)), Ser.domOf doms ilk = some fd → (ilk, fd) ∈ doms := by
    clear h
    intro doms
    induction doms with
    | nil => intro h; simp [Ser.domOf] at h
    | cons p r ih =>
      obtain ⟨k, f⟩ := p
      intro h
      unfold Ser.domOf at h
      split at h
      · next e => injection h with h; rw [e, h]; simp
      · exact List.mem_cons_of_mem _ (ih h)
  unfold Ser.domain at h
  rw [List.mem_append]
  cases hd : Ser.domains .keri pv with
  | none => rw [hd] at h; simp at h
  | some doms =>
    rw [hd] at h
    have hm := key doms h
    unfold Ser.domains at hd
    split at hd <;> simp only [Option.some.injEq, reduceCtorEq] at hd
    · rw [hd]; exact .inl hm
    · rw [hd]; exact .inr hm
    · next e => exact absurd e (by simp)
    · next e => exact absurd e (by simp)

theorem dom_split {pv : Nat × Nat} {ilk : Option (List Char)} {fd : Ser.FieldDom} (h : Ser.domain .keri pv ilk = some fd) :
    ∃ ls, fd.labels = ['v'] :: ['t'] :: ['d'] :: ls ∧ ['v'] ∉ ls ∧ ['t'] ∉ ls := by
  obtain ⟨h1, h2, h3⟩ := table_heads _ (dom_mem h)
  simp only at h1 h2 h3
  match hl : fd.labels with
  | [] => rw [hl] at h1; simp at h1
  | [a] => rw [hl] at h1; simp at h1
  | [a, b] => rw [hl] at h1; simp at h1
  | a :: b :: c :: ls =>
    rw [hl] at h1 h2 h3
    simp only [List.take_succ_cons, List.take_zero, List.cons.injEq, and_true] at h1
    obtain ⟨rfl, rfl, rfl⟩ := h1
    simp only [List.drop_succ_cons, List.drop_zero, List.mem_cons, not_or] at h2 h3
    exact ⟨ls, rfl, h2.2, h3.2⟩

theorem ilk_tag {ilk : List Char} (h : ilk ∈ nativeIlks) : ilk.length = 3 := by
  have : ∀ i ∈ nativeIlks, i.length = 3 := by decide
  exact this ilk h

theorem type_reads {ilk t : List Char} (hi : ilk.length = 3) (h : qb64Of (mkTag ilk) = .ok t) : ∃ m, Reads t m ∧ m.code = ['X'] ∧ m.soft = ilk ∧ t.length % 4 = 0 := by
  obtain ⟨m, r, hq, _, hs, hc, _⟩ := tag_reads h
  refine ⟨m, r, ?_, hs, hq⟩
  match ilk, hi with
  | [a, b, c], _ =>
    have : codify [a, b, c] = .ok ['X'] := rfl
    rw [this] at hc
    injection hc with hc
    exact hc.symm

theorem ver_reads {pv : Nat × Nat} {t : List Char} (h : verText pv = .ok t) (rest : List Char) :
    takeVer (t ++ rest) = .ok ((['K', 'E', 'R', 'I'], pv, some (2, 0)), rest) ∧ 0 < t.length ∧ t.length % 4 = 0 := by
  unfold verText at h
  split at h
  · exact absurd h (by simp)
  next a ha =>
  split at h
  · exact absurd h (by simp)
  next b hb =>
  obtain ⟨m, r, hq, _, hs, hc, _⟩ := tag_reads h
  have vf : ∀ (x : Nat × Nat) s, Ctr.verToB64 x.1 x.2 = .ok s → s.length = 3 ∧ Ctr.b64ToVer s = .ok x := by
    intro x s hx
    have hr : x.1 ≤ 63 ∧ x.2 ≤ 4095 := by
      unfold Ctr.verToB64 at hx
      split at hx
      · exact absurd hx (by simp)
      · omega
    obtain ⟨s', n, v1, v2, v3, _⟩ := Ctr.c83_version x.1 x.2 hr.1 hr.2
    rw [hx] at v1
    injection v1 with v1
    subst v1
    exact ⟨v2, v3⟩
  obtain ⟨a1, a2⟩ := vf pv a ha
  obtain ⟨b1, b2⟩ := vf (2, 0) b hb
  have hcode : m.code = ['0', 'O'] := by
    match a, a1, b, b1 with
    | [a1, a2, a3], _, [b1, b2, b3], _ =>
      have : codify (['K', 'E', 'R', 'I'] ++ [a1, a2, a3] ++ [b1, b2, b3]) = .ok ['0', 'O'] := rfl
      rw [this] at hc
      injection hc with hc
      exact hc.symm
  refine ⟨?_, r.pos, hq⟩
  unfold takeVer
  rw [r.take]
  simp only [hcode]
  rw [if_neg (by decide), hs]
  match a, a1, b, b1 with
  | [x1, x2, x3], _, [y1, y2, y3], _ =>
    simp only [List.cons_append, List.nil_append, List.drop_succ_cons, List.drop_zero, List.take_succ_cons, List.take_zero, a2, b2, List.length_cons,
      List.length_nil, if_true]

end Verif.Cesr
