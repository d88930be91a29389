import Verif.Cesr.PropsRead
import Verif.Ser.PropsCommit
import Verif.Mad.AggorLemmas

/-! # C171: what the SAID of a native message commits to -/

namespace Verif.Cesr

open Verif.B64 Verif.Matter
open Verif.Mad hiding dummyVal
open Verif.Ser (Serder Attrs Lib saidLabels dummied dummyVal codeAt)

/-- The said fields of the types with a native form: none, `d`, or `d` and `i` with a number after them. -/
theorem table_saids : ∀ p ∈ Ser.keri1 ++ Ser.keri2, (∃ i ∈ nativeIlks, p.1 = some i) →
    (p.2.saids.map (·.1) = [] ∨ p.2.saids.map (·.1) = [['d']] ∧ ['d'] ∉ p.2.labels.drop 3 ∨
      p.2.saids.map (·.1) = [['d'], ['i']] ∧ p.2.labels.take 5 = [['v'], ['t'], ['d'], ['i'], ['s']] ∧ ['d'] ∉ p.2.labels.drop 4 ∧ ['i'] ∉ p.2.labels.drop 4) := by
  decide +kernel

theorem hash_run {a b : Nat} {x y : List Char} (hx : x.head? ≠ some '#') (hy : y.head? ≠ some '#')
    (h : List.replicate a '#' ++ x = List.replicate b '#' ++ y) : a = b ∧ x = y := by
  induction a generalizing b with
  | zero =>
    cases b with
    | zero => exact ⟨rfl, by simpa using h⟩
    | succ b => simp only [List.replicate_zero, List.nil_append, List.replicate_succ, List.cons_append] at h; rw [h] at hx; simp at hx
  | succ a ih =>
    cases b with
    | zero => simp only [List.replicate_zero, List.nil_append, List.replicate_succ, List.cons_append] at h; rw [← h] at hy; simp at hy
    | succ b =>
      simp only [List.replicate_succ, List.cons_append, List.cons.injEq, true_and] at h
      obtain ⟨e, e'⟩ := ih h
      exact ⟨by omega, e'⟩

theorem exfil_head {t : List Char} {m : Mat} (h : exfil t = .ok m) (rest : List Char) : (t ++ rest).head? ≠ some '#' ∧ 0 < t.length := by
  cases t with
  | nil => exact absurd h (by simp [exfil])
  | cons c r =>
    refine ⟨?_, by simp⟩
    simp only [List.cons_append, List.head?_cons, ne_eq, Option.some.injEq]
    rintro rfl
    have : hards '#' = none := by decide +kernel
    simp only [exfil, this] at h
    split at h <;> exact absurd h (by simp)

theorem dummy_digest {t : List Char} (h : Is digDex t) : dummyVal (.text t) = .text (List.replicate t.length '#') := by
  obtain ⟨m, h1, _, h3⟩ := h
  simp only [dummyVal, codeAt, h1, if_pos h3]

theorem dummied_out {ls : List (List Char)} {fs : Flds} (h : ∀ l ∈ ls, l ∉ fs.map (·.1)) : dummied ls fs = fs := by
  unfold dummied
  conv => rhs; rw [← List.map_id fs]
  apply List.map_congr_left
  rintro ⟨l, v⟩ hm
  have : l ∉ ls := fun hl => h l hl (List.mem_map.2 ⟨_, hm, rfl⟩)
  simp [this]

/-- A field of a digest, or of a prefix, is written as it is. -/
theorem fieldsText_text {env : Env} {pv : Nat × Nat} {ilk l t ft : List Char} {r : Flds} (hk : kindOf l = some .dig ∨ kindOf l = some .pre)
    (h : fieldsText env pv ilk ((l, .text t) :: r) = .ok ft) : ∃ b, fieldsText env pv ilk r = .ok b ∧ ft = t ++ b := by
  rcases hk with hk | hk <;>
  · simp only [fieldsText, hk, fieldText] at h
    split at h
    · exact absurd h (by simp)
    · next b hb => injection h with h; exact ⟨b, hb, h.symm⟩

/-- A number at the front is not a dummy. -/
theorem number_front {env : Env} (hh : HexOk env) {pv : Nat × Nat} {ilk ft : List Char} {v : Val} {r : Flds} (hn : IsNum v)
    (h : fieldsText env pv ilk ((['s'], v) :: r) = .ok ft) : ft.head? ≠ some '#' := by
  have ks : kindOf ['s'] = some .num := by decide +kernel
  obtain ⟨m, t, n, rfl, h2, r2, _⟩ := num_back hh hn
  simp only [fieldsText, ks, fieldText, h2] at h
  split at h
  · exact absurd h (by simp)
  next b _ =>
  injection h with h
  subst h
  have hx : exfil t = .ok m := by
    have := r2.take []
    rw [List.append_nil] at this
    unfold takeMat at this
    revert this
    cases exfil t with
    | error e => simp
    | ok m' => simp only; split <;> simp +contextual
  exact (exfil_head hx b).1

/-- **C171.** The SAID of a native message commits to its fields: two messages that are as they should be, with the values that the native form keeps, and the
same digest in a said field have the same fields but for the version string and the SAIDs, or the two are a collision of the digest function. -/
theorem c171_commits_partial {env : Env} (hh : HexOk env) {lib : Lib} (hw : Ser.DigestsOk lib) {s1 s2 : Serder} (r1 : Ser.Right lib s1) (r2 : Ser.Right lib s2)
    (ha : s1.attrs = s2.attrs) (hp : s1.attrs.proto = .keri) (hk : s1.attrs.kind = .cesr) (hd : ∀ pv gv sad, lib.cesr .keri pv gv sad = native env pv gv sad)
    {k1 k2 : List Char} (m1 : MsgOk env s1.attrs.pvrsn k1 s1.sad) (m2 : MsgOk env s2.attrs.pvrsn k2 s2.sad) {l c t : List Char}
    (h1 : l ∈ saidLabels s1) (h2 : l ∈ saidLabels s2) (e1 : codeAt (getKey s1.sad l) = some (c, t)) (hc : c ∈ digDex) (e2 : getKey s2.sad l = getKey s1.sad l) :
    (saidLabels s1 = saidLabels s2 ∧ masked (['v'] :: saidLabels s1) s1.sad = masked (['v'] :: saidLabels s1) s2.sad) ∨ Ser.Collision lib s1 s2 := by
  rcases Ser.same_ser hw r1 r2 h1 h2 e1 hc e2 with ⟨ser, p1, p2⟩ | h
  case inr => exact .inr h
  left
  unfold Ser.Digested Ser.dumps at p1 p2
  rw [← ha] at p2
  rw [hk, hp] at p1 p2
  simp only [hd] at p1 p2
  rw [← ha] at m2
  -- the types
  have tn := fun s => (Ser.t_not_said s)
  have hty : ∀ (s : Serder) (k : List Char), getKey s.sad ['t'] = some (.text k) → getKey (dummied (saidLabels s) s.sad) ['t'] = some (.text k) := by
    intro s k h
    rw [Ser.dummied_get, h]
    simp only [if_neg (tn s).1, Option.map_some]
  obtain ⟨v1, d1, q1, vt1, tt1, ft1, hs1, nv1, nt1, P1, -⟩ := native_parts (hty s1 k1 m1.type) (by simpa only [Ser.dummied_keys] using m1.labels) p1
  obtain ⟨v2, d2, q2, vt2, tt2, ft2, hs2, nv2, nt2, P2, -⟩ := native_parts (hty s2 k2 m2.type) (by simpa only [Ser.dummied_keys] using m2.labels) p2
  have hbody := enclose_injx P1.outer P2.outer
  have hvt : vt1 = vt2 := by
    have := P1.ver
    rw [P2.ver] at this
    injection this with this
    exact this.symm
  subst hvt
  rw [List.append_cancel_left_eq] at hbody
  obtain ⟨y1, R1, _, f1, _⟩ := type_reads (ilk_tag P1.known) P1.type
  obtain ⟨y2, R2, _, f2, _⟩ := type_reads (ilk_tag P2.known) P2.type
  have hrd := R1.take ft1
  rw [hbody, R2.take ft2] at hrd
  simp only [Except.ok.injEq, Prod.mk.injEq] at hrd
  obtain ⟨rfl, rfl⟩ := hrd
  rw [f1] at f2
  subst f2
  have hl : saidLabels s1 = saidLabels s2 := Ser.saidLabels_dummied ha (by rw [m1.type, m2.type])
  refine ⟨hl, ?_⟩
  rw [← hl] at hs2
  -- the shape
  obtain ⟨fd, hfd, lab1⟩ := m1.labels
  obtain ⟨fd', hfd', lab2⟩ := m2.labels
  rw [hfd] at hfd'
  injection hfd' with hfd'
  subst hfd'
  have hsl : saidLabels s1 = fd.saids.map (·.1) := by
    unfold saidLabels
    rw [ilkOf_type m1.type]
    simp only [hp, hfd]
  have kd : kindOf ['d'] = some .dig := by decide +kernel
  have ki : kindOf ['i'] = some .pre := by decide +kernel
  rcases table_saids _ (dom_mem hfd) ⟨k1, P1.known, rfl⟩ with e | ⟨e, nd⟩ | ⟨e, five, nd, ni⟩
  · rw [hsl] at h1
    simp only at e
    rw [e] at h1
    exact absurd h1 (by simp)
  · simp only at e nd
    rw [hsl, e] at h1 hs1 hs2 ⊢
    simp only [List.mem_singleton] at h1
    subst h1
    -- the fields as they are
    have shape : ∀ (s : Serder) (v d : Val) (q : Flds), s.sad.map (·.1) = fd.labels → MsgOk env s1.attrs.pvrsn k1 s.sad →
        dummied [['d']] s.sad = (['v'], v) :: (['t'], .text k1) :: (['d'], d) :: q →
        ∃ dt, s.sad = (['v'], v) :: (['t'], .text k1) :: (['d'], .text dt) :: q ∧ Is digDex dt ∧ d = .text (List.replicate dt.length '#') := by
      intro s v d q lab m hs
      match hsad : s.sad, lab, hs with
      | [], _, hs => simp [dummied] at hs
      | [a], _, hs => simp [dummied] at hs
      | [a, b], _, hs => simp [dummied] at hs
      | (la, a) :: (lb, b) :: (lc, c) :: r, lab, hs =>
        simp only [dummied, List.map_cons, List.cons.injEq, Prod.mk.injEq] at hs
        obtain ⟨⟨rfl, ea⟩, ⟨rfl, eb⟩, ⟨rfl, ec⟩, er⟩ := hs
        rw [if_neg (by decide)] at ea eb
        rw [if_pos (by simp)] at ec
        subst ea eb
        obtain ⟨dt, rfl, hdt⟩ := (m.fields (['d'], c) (by rw [hsad]; simp)).digest (by simp)
        rw [dummy_digest hdt] at ec
        have hr : dummied [['d']] r = r := by
          apply dummied_out
          intro l hl
          simp only [List.mem_singleton] at hl
          subst hl
          rw [← lab] at nd
          simpa using nd
        have er' : dummied [['d']] r = q := er
        rw [hr] at er'
        subst er'
        exact ⟨dt, rfl, hdt, ec.symm⟩
    obtain ⟨dt1, S1, I1, D1⟩ := shape s1 v1 d1 q1 lab1 m1 hs1
    obtain ⟨dt2, S2, I2, D2⟩ := shape s2 v2 d2 q2 lab2 m2 hs2
    subst D1 D2
    obtain ⟨b1, B1, E1⟩ := fieldsText_text (.inl kd) P1.fields
    obtain ⟨b2, B2, E2⟩ := fieldsText_text (.inl kd) P2.fields
    have hdt : dt1 = dt2 := by
      rw [S1, S2] at e2
      simpa [getKey_cons] using e2.symm
    subst hdt
    rw [E1] at E2
    rw [List.append_cancel_left_eq] at E2
    subst E2
    have L1 : q1.map (·.1) = q2.map (·.1) := by
      rw [S1] at lab1; rw [S2] at lab2; rw [← lab2] at lab1
      simpa using lab1
    have F1 := fields_back hh .null (fs := q1) (fun p hp => m1.fields p (by rw [S1]; simp [hp])) nv1 nt1 B1 []
    have F2 := fields_back hh .null (fs := q2) (fun p hp => m2.fields p (by rw [S2]; simp [hp])) nv2 nt2 B2 []
    rw [L1, F2] at F1
    injection F1 with F1
    subst F1
    rw [S1, S2]
    simp [masked]
  · simp only at e five nd ni
    rw [hsl, e] at h1 hs1 hs2 ⊢
    have shape : ∀ (s : Serder) (v d : Val) (q : Flds), s.sad.map (·.1) = fd.labels → MsgOk env s1.attrs.pvrsn k1 s.sad →
        dummied [['d'], ['i']] s.sad = (['v'], v) :: (['t'], .text k1) :: (['d'], d) :: q →
        ∃ dt it sn r, s.sad = (['v'], v) :: (['t'], .text k1) :: (['d'], .text dt) :: (['i'], .text it) :: (['s'], sn) :: r ∧ Is digDex dt ∧ Is Ser.preDex it ∧
          IsNum sn ∧ d = .text (List.replicate dt.length '#') ∧ q = (['i'], dummyVal (.text it)) :: (['s'], sn) :: r := by
      intro s v d q lab m hs
      rw [← lab] at five nd ni
      match hsad : s.sad, five, hs with
      | [], h5, hs => simp at h5
      | [a], h5, hs => simp at h5
      | [a, b], h5, hs => simp at h5
      | [a, b, c], h5, hs => simp at h5
      | [a, b, c, d], h5, hs => simp at h5
      | (la, a) :: (lb, b) :: (lc, c) :: (ld, i) :: (le, n) :: r, h5, hs =>
        simp only [List.map_cons, List.take_succ_cons, List.take_zero, List.cons.injEq, and_true] at h5
        obtain ⟨rfl, rfl, rfl, rfl, rfl⟩ := h5
        simp only [dummied, List.map_cons, List.cons.injEq, Prod.mk.injEq, true_and] at hs
        obtain ⟨ea, eb, ec, er⟩ := hs
        rw [if_neg (by decide)] at ea eb
        rw [if_pos (by simp)] at ec
        rw [if_pos (by simp), if_neg (by decide)] at er
        subst ea eb
        obtain ⟨dt, rfl, hdt⟩ := (m.fields (['d'], c) (by rw [hsad]; simp)).digest (by simp)
        obtain ⟨it, rfl, hit⟩ := (m.fields (['i'], i) (by rw [hsad]; simp)).aid (by simp)
        have hn := (m.fields (['s'], n) (by rw [hsad]; simp)).number (by simp)
        rw [dummy_digest hdt] at ec
        have hr : dummied [['d'], ['i']] r = r := by
          apply dummied_out
          intro l hl
          rw [hsad] at nd ni
          simp only [List.map_cons, List.drop_succ_cons, List.drop_zero, List.mem_cons, not_or] at nd ni
          simp only [List.mem_cons, List.not_mem_nil, or_false] at hl
          rcases hl with rfl | rfl
          · exact nd.2
          · exact ni.2
        have er' : q = (['i'], dummyVal (.text it)) :: (['s'], n) :: dummied [['d'], ['i']] r := er.symm
        rw [hr] at er'
        exact ⟨dt, it, n, r, rfl, hdt, hit, hn, ec.symm, er'⟩
    obtain ⟨dt1, it1, sn1, q1', S1, I1, J1, N1, D1, Q1⟩ := shape s1 v1 d1 q1 lab1 m1 hs1
    obtain ⟨dt2, it2, sn2, q2', S2, I2, J2, N2, D2, Q2⟩ := shape s2 v2 d2 q2 lab2 m2 hs2
    subst D1 D2 Q1 Q2
    obtain ⟨b1, B1, E1⟩ := fieldsText_text (.inl kd) P1.fields
    obtain ⟨b2, B2, E2⟩ := fieldsText_text (.inl kd) P2.fields
    have dv : ∀ it, Is Ser.preDex it → ∃ x, dummyVal (.text it) = .text x ∧
        (Is digDex it ∧ x = List.replicate it.length '#' ∧ 0 < it.length ∨ x = it ∧ ∀ z, (x ++ z).head? ≠ some '#') := by
      intro it hi
      have hi' := hi
      obtain ⟨m, g1, g2, g3⟩ := hi
      by_cases g : m.code ∈ digDex
      · exact ⟨_, dummy_digest ⟨m, g1, g2, g⟩, .inl ⟨⟨m, g1, g2, g⟩, rfl, (exfil_head g1 []).2⟩⟩
      · exact ⟨it, by simp only [dummyVal, codeAt, g1, if_neg g], .inr ⟨rfl, fun z => (exfil_head g1 z).1⟩⟩
    obtain ⟨x1, X1, C1⟩ := dv it1 J1
    obtain ⟨x2, X2, C2⟩ := dv it2 J2
    rw [X1] at B1
    rw [X2] at B2
    obtain ⟨z1, Z1, W1⟩ := fieldsText_text (.inr ki) B1
    obtain ⟨z2, Z2, W2⟩ := fieldsText_text (.inr ki) B2
    have hz1 := number_front hh N1 Z1
    have hz2 := number_front hh N2 Z2
    subst W1 W2
    rw [E1] at E2
    have hz : z1 = z2 := by
      simp only [List.mem_cons, List.not_mem_nil, or_false] at h1
      rcases h1 with rfl | rfl
      · have hdt : dt1 = dt2 := by
          rw [S1, S2] at e2
          simpa [getKey_cons] using e2.symm
        subst hdt
        rw [List.append_cancel_left_eq] at E2
        rcases C1 with ⟨_, rfl, p⟩ | ⟨rfl, p⟩ <;> rcases C2 with ⟨_, rfl, p'⟩ | ⟨rfl, p'⟩
        · exact (hash_run hz1 hz2 E2).2
        · have := p' z2
          rw [← E2] at this
          cases hn : it1.length with
          | zero => omega
          | succ n => rw [hn] at this; simp [List.replicate_succ] at this
        · have := p z1
          rw [E2] at this
          cases hn : it2.length with
          | zero => omega
          | succ n => rw [hn] at this; simp [List.replicate_succ] at this
        · have a := takePrim_back J1 z1
          rw [E2, takePrim_back J2 z2] at a
          simp only [Except.ok.injEq, Prod.mk.injEq] at a
          exact a.2.symm
      · have hit : it1 = it2 := by
          rw [S1, S2] at e2
          simpa [getKey_cons] using e2.symm
        subst hit
        rw [X1] at X2
        injection X2 with X2
        subst X2
        have hdig : Is digDex it1 := by
          obtain ⟨m, g1, g2, g3⟩ := J1
          rw [S1] at e1
          simp only [getKey_cons] at e1
          simp [codeAt, g1] at e1
          exact ⟨m, g1, g2, e1.1 ▸ hc⟩
        have hx : x1 = List.replicate it1.length '#' := by
          rw [dummy_digest hdig] at X1
          injection X1 with X1
          exact X1.symm
        subst hx
        rw [← List.append_assoc, ← List.append_assoc, List.replicate_append_replicate, List.replicate_append_replicate] at E2
        exact (hash_run hz1 hz2 E2).2
    subst hz
    have L1 : ((['s'], sn1) :: q1').map (·.1) = ((['s'], sn2) :: q2').map (·.1) := by
      rw [S1] at lab1; rw [S2] at lab2; rw [← lab2] at lab1
      simpa using lab1
    simp only [List.map_cons, List.mem_cons, not_or] at nv1 nt1 nv2 nt2
    have F1 := fields_back hh .null (fs := (['s'], sn1) :: q1') (fun p hp => m1.fields p (by rw [S1]; simp only [List.mem_cons] at hp ⊢; grind))
      (by simpa using nv1.2) (by simpa using nt1.2) Z1 []
    have F2 := fields_back hh .null (fs := (['s'], sn2) :: q2') (fun p hp => m2.fields p (by rw [S2]; simp only [List.mem_cons] at hp ⊢; grind))
      (by simpa using nv2.2) (by simpa using nt2.2) Z2 []
    rw [L1, F2] at F1
    injection F1 with F1
    simp only [List.cons.injEq, Prod.mk.injEq, true_and] at F1
    obtain ⟨rfl, rfl⟩ := F1
    rw [S1, S2]
    simp [masked]

end Verif.Cesr
