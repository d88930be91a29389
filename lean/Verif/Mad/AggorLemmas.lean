import Verif.Mad.AggorSpec
import Verif.Mad.PropsCompact

/-! # Lemmas about aggregates -/

namespace Verif.Mad

open Verif.B64 Verif.Matter

/-- A text that is exactly a digest, in the spelling it is written in. -/
def IsDig (q : List Char) : Prop := ∃ m, Reads q m ∧ m.code ∈ digDex ∧ exfil q = .ok m ∧ q.length % 4 = 0

theorem exfil_reads {t : List Char} {m : Mat} (h : exfil t = .ok m) : ∃ q, infil m = .ok q ∧ exfil q = .ok m ∧ fullSize m = .ok q.length ∧ q.length % 4 = 0 := by
  obtain ⟨n, sz, mat, r, c⟩ := (exfil_ok_iff t m).1 h
  have hwf := wf_of_sizes c.size
  have hff := framed_facts hwf c.framed
  have hbl := both_length hwf c.softLen
  have hb := congrArg List.length c.bitsEq
  have hl := c.len
  have hd : (decVals mat).length = mat.length := decVals_length c.dec
  rw [bits_length, List.length_append, List.length_replicate, bits_length, hd] at hb
  have hrl : m.raw.length + sz.ls = (n - sz.cs) * 3 / 4 := by omega
  obtain ⟨mat', h1, h2, h3⟩ := infil_core c.size c.softLen c.framed hrl c.raw
  refine ⟨_, h1, (exfil_ok_iff _ m).2 ⟨_, _, _, _, h2⟩, ?_, ?_⟩
  · rw [fullSize_valid c.size c.framed, List.length_append, h2.len]
  · rw [List.length_append, h2.len]; exact hff.1

theorem digElem_isDig {t q : List Char} (h : digElem t = .ok q) : IsDig q := by
  unfold digElem at h
  split at h
  · exact absurd h (by simp)
  next m hm =>
  split at h
  · exact absurd h (by simp)
  next hc =>
  simp only [Decidable.not_not] at hc
  obtain ⟨q', h1, h2, h3, h4⟩ := exfil_reads hm
  rw [h] at h1
  injection h1 with h1
  subst h1
  exact ⟨m, reads_of h h2 h3, hc, h2, h4⟩

theorem isDig_digElem {q : List Char} (h : IsDig q) : digElem q = .ok q := by
  obtain ⟨m, h1, h2, h3, _⟩ := h
  unfold digElem
  rw [h3]
  dsimp only
  rw [if_neg (by simpa using h2), h1.text]

theorem digest_isDig {w : World} {code ser t : List Char} (hw : HashOk w) (h : digestOf w code ser = .ok t) : IsDig t := by
  obtain ⟨m, h1, h2, _, h4, h5⟩ := digest_facts hw h
  refine ⟨m, h1, h2 ▸ h4, h5, ?_⟩
  obtain ⟨q, q1, _, _, q4⟩ := exfil_reads h5
  rw [h1.text] at q1
  injection q1 with q1
  subst q1
  exact q4

/-- The value of the first said field of a map that verifies is a digest. -/
theorem said_isDig {w : World} {kind : Kind} {strict : Bool} {saids : Saids} {fs : Flds} (hw : HashOk w) (hs : Dict saids) (hd : Dict fs)
    (h : verify w kind strict saids fs = .ok ()) : saidVal saids fs = .null ∨ ∃ t, saidVal saids fs = .text t ∧ IsDig t ∧
      ∃ p s, saids = p :: s ∧ (p.1, Val.text t) ∈ fs := by
  obtain ⟨ser, m1, _, h2⟩ := verify_facts hd hs h
  cases saids with
  | nil => exact .inl rfl
  | cons p r =>
    obtain ⟨l, d⟩ := p
    unfold saidVal
    dsimp only
    cases hv : getKey fs l with
    | none => exact .inl rfl
    | some v =>
      obtain ⟨t, rfl, ht⟩ := h2 l v d (by simp [getKey]) hv
      exact .inr ⟨t, rfl, digest_isDig hw ht, _, _, rfl, getKey_mem hv⟩

/-- An element that is not a map without a first said. -/
def Shown (v : Val) : Prop := ∃ q, v = .text q ∧ IsDig q

theorem DictElems.tail {v : Val} {vs : List Val} (h : DictElems (v :: vs)) : DictElems vs := fun fs hf => h fs (List.mem_cons_of_mem _ hf)

theorem fromMad_verify {w : World} {kind : Kind} {strict : Bool} {saids : Saids} {fs : Flds} {raw : List Char} (h : fromMad w kind strict saids fs = .ok raw) :
    verify w kind strict saids fs = .ok () ∧ exhaleKind w kind strict fs = .ok raw := by
  unfold fromMad at h
  split at h
  · exact absurd h (by simp)
  next hr =>
  split at h
  · exact absurd h (by simp)
  next hv =>
  injection h with h
  subst h
  exact ⟨hv, hr⟩

section
variable {w : AWorld} {kind : Kind} {strict : Bool} {saids : Saids}

theorem checkElems_shown (hw : HashOk w.toWorld) (hs : Dict saids) : ∀ {r c : List Val}, DictElems r → checkElems w kind strict saids r = .ok c →
    ∀ v ∈ c, v = .null ∨ Shown v := by
  intro r
  induction r with
  | nil => intro c _ h; simp only [checkElems, Except.ok.injEq] at h; subst h; simp
  | cons e r ih =>
    intro c hd h
    cases e with
    | map fs =>
      rw [checkElems] at h
      split at h
      · exact absurd h (by simp)
      next raw hf =>
      split at h
      · exact absurd h (by simp)
      next c' hc =>
      injection h with h
      subst h
      intro v hv
      rw [List.mem_cons] at hv
      rcases hv with rfl | hv
      · rcases said_isDig hw hs (hd fs (by simp)) (fromMad_verify hf).1 with h | ⟨t, h1, h2, _⟩
        · exact .inl h
        · exact .inr ⟨t, h1, h2⟩
      · exact ih hd.tail hc v hv
    | text t =>
      rw [checkElems] at h
      split at h
      · exact absurd h (by simp)
      next q hq =>
      split at h
      · exact absurd h (by simp)
      next c' hc =>
      injection h with h
      subst h
      intro v hv
      rw [List.mem_cons] at hv
      rcases hv with rfl | hv
      · exact .inr ⟨q, rfl, digElem_isDig hq⟩
      · exact ih hd.tail hc v hv
    | null => simp [checkElems] at h
    | bool _ => simp [checkElems] at h
    | num _ => simp [checkElems] at h
    | list _ => simp [checkElems] at h

/-- Native CESR has no null element. -/
theorem exhaleElems_shown {c : List Val} {b : List Char} (hc : ∀ v ∈ c, v = .null ∨ Shown v) (h : exhaleElems strict c = .ok b) : ∀ v ∈ c, Shown v := by
  induction c generalizing b with
  | nil => simp
  | cons e r ih =>
    rcases hc e (by simp) with rfl | ⟨q, rfl, hq⟩
    · simp [exhaleElems] at h
    · rw [exhaleElems] at h
      split at h
      · exact absurd h (by simp)
      next hr =>
      intro v hv
      rw [List.mem_cons] at hv
      rcases hv with rfl | hv
      · exact ⟨q, rfl, hq⟩
      · exact ih (fun v hv => hc v (by simp [hv])) hr v hv

theorem makeElems_check (hw : HashOk w.toWorld) (hs : Dict saids) : ∀ {r c a : List Val}, DictElems r → makeElems w kind strict saids r = .ok (c, a) →
    checkElems w kind strict saids a = .ok c ∧ DictElems a ∧ a.length = r.length ∧ (∀ t, Val.text t ∈ a → IsDig t) := by
  intro r
  induction r with
  | nil => intro c a _ h; simp only [makeElems, Except.ok.injEq, Prod.mk.injEq] at h; obtain ⟨rfl, rfl⟩ := h; simp [checkElems, DictElems]
  | cons e r ih =>
    intro c a hd h
    cases e with
    | map fs =>
      rw [makeElems] at h
      split at h
      · exact absurd h (by simp)
      next raw fs1 s hm =>
      split at h
      · exact absurd h (by simp)
      next c' a' hr =>
      simp only [Except.ok.injEq, Prod.mk.injEq] at h
      obtain ⟨rfl, rfl⟩ := h
      obtain ⟨i1, i2, i3, i4⟩ := ih hd.tail hr
      obtain ⟨_, f, _, h2, _⟩ := makify_facts hw (hd fs (by simp)) hs hm
      have hv := (c117_made_verifies w.toWorld kind strict saids s fs fs1 raw hw (hd fs (by simp)) hs hm).2
      refine ⟨by rw [checkElems, hv]; simp only [i1], ?_, by simp [i3], ?_⟩
      · intro gs hg
        rw [List.mem_cons] at hg
        rcases hg with hg | hg
        · injection hg with hg
          subst hg
          unfold Dict
          rw [h2, filled_keys]
          exact hd fs (by simp)
        · exact i2 gs hg
      · intro t ht
        rw [List.mem_cons] at ht
        rcases ht with ht | ht
        · exact absurd ht (by simp)
        · exact i4 t ht
    | text t =>
      rw [makeElems] at h
      split at h
      · exact absurd h (by simp)
      next q hq =>
      split at h
      · exact absurd h (by simp)
      next c' a' hr =>
      simp only [Except.ok.injEq, Prod.mk.injEq] at h
      obtain ⟨rfl, rfl⟩ := h
      obtain ⟨i1, i2, i3, i4⟩ := ih hd.tail hr
      have hdig := digElem_isDig hq
      refine ⟨by rw [checkElems, isDig_digElem hdig]; simp only [i1], ?_, by simp [i3], ?_⟩
      · intro gs hg
        rw [List.mem_cons] at hg
        rcases hg with hg | hg
        · exact absurd hg (by simp)
        · exact i2 gs hg
      · intro u hu
        rw [List.mem_cons] at hu
        rcases hu with hu | hu
        · injection hu with hu; subst hu; exact hdig
        · exact i4 u hu
    | null => simp [makeElems] at h
    | bool _ => simp [makeElems] at h
    | num _ => simp [makeElems] at h
    | list _ => simp [makeElems] at h

/-! ## Serialization -/

theorem dig_escape : ∀ c ∈ digDex, c ∉ escapeDex := by decide +kernel

theorem serText_dig {t : List Char} (h : IsDig t) : serText t = .ok t := by
  obtain ⟨m, h1, h2, h3, _⟩ := h
  unfold serText
  rw [h3]
  simp only [h1.text]
  rw [if_neg (by simp), if_neg (dig_escape _ h2)]

theorem serFlds_field {l : List Char} {v : Val} : ∀ {fs : Flds} {b : List Char}, (l, v) ∈ fs → serFlds strict fs = .ok b →
    ∃ a, serVal strict v = .ok a ∧ a.length ≤ b.length
  | [], _, h, _ => absurd h (by simp)
  | (k, u) :: r, b, h, hb => by
    rw [serFlds] at hb
    split at hb
    · exact absurd hb (by simp)
    split at hb
    · exact absurd hb (by simp)
    next a ha =>
    split at hb
    · exact absurd hb (by simp)
    next b' hb' =>
    injection hb with hb
    subst hb
    rw [List.mem_cons] at h
    rcases h with h | h
    · injection h with h1 h2
      subst h2
      exact ⟨a, ha, by simp; omega⟩
    · obtain ⟨a', h1, h2⟩ := serFlds_field h hb'
      exact ⟨a', h1, by simp; omega⟩

theorem enclose_ok {x : Char} (hx : x = 'I' ∨ x = 'J') {b t : List Char} (h : Ctr.encloseText .v2 ['-', x] b = .ok t) :
    b.length % 4 = 0 ∧ ∀ b', b'.length % 4 = 0 → b'.length ≤ b.length → ∃ t', Ctr.encloseText .v2 ['-', x] b' = .ok t' := by
  unfold Ctr.encloseText at h
  split at h
  · exact absurd h (by simp)
  next hl =>
  split at h
  · exact absurd h (by simp)
  next m hm =>
  refine ⟨by simpa using hl, ?_⟩
  intro b' h1 h2
  have hsz : (∃ s, Ctr.sizes? .v2 ['-', x] = some s) ∧ ∃ s, Ctr.sizes? .v2 ['-', '-', x] = some s := by
    rcases hx with rfl | rfl <;> exact ⟨⟨⟨2, 2, 4⟩, by decide +kernel⟩, ⟨⟨3, 5, 8⟩, by decide +kernel⟩⟩
  obtain ⟨⟨s1, e1⟩, ⟨s2, e2⟩⟩ := hsz
  have key := Ctr.c81_promotion_partial .v2 x (by rcases hx with rfl | rfl <;> decide) s1 s2 e1 e2
  have h3 := ((key _ _).1 hm).1
  have h4 := (key ((b'.length / 4 : Nat) : Int) _).2 ⟨⟨by omega, by omega⟩, rfl⟩
  obtain ⟨t', t1, _⟩ := Ctr.c81_text _ _ _ _ h4
  refine ⟨t' ++ b', ?_⟩
  unfold Ctr.encloseText
  rw [if_neg (by simpa using h1), h4]
  dsimp only
  rw [if_neg (by simp), t1]

theorem enclose_injx {x : Char} {b1 b2 t : List Char} (h1 : Ctr.encloseText .v2 ['-', x] b1 = .ok t) (h2 : Ctr.encloseText .v2 ['-', x] b2 = .ok t) : b1 = b2 := by
  obtain ⟨m1, e1⟩ := Ctr.c82_text _ _ _ _ h1
  obtain ⟨m2, e2⟩ := Ctr.c82_text _ _ _ _ h2
  have hm : m1 = m2 := by
    have := (e1 []).1.symm.trans (e2 []).1
    injection this
  subst hm
  rw [← (e1 []).2.2.1, ← (e2 []).2.2.1]

theorem exhale_length {fs : Flds} {raw t l : List Char} (h : exhale strict fs = .ok raw) :
    raw.length % 4 = 0 ∧ ((l, Val.text t) ∈ fs → IsDig t → t.length ≤ raw.length) := by
  unfold exhale at h
  rw [serVal] at h
  split at h
  · exact absurd h (by simp)
  next b hb =>
  obtain ⟨c, hd, g⟩ := group_reads (.inl rfl) h
  have h4 := (enclose_ok (.inl rfl) h).1
  refine ⟨by rw [g.eq, List.length_append]; have := g.quads; omega, ?_⟩
  intro hm ht
  obtain ⟨a, h1, h2⟩ := serFlds_field hm hb
  rw [serVal, serText_dig ht] at h1
  injection h1 with h1
  subst h1
  rw [g.eq, List.length_append]
  omega

/-! ## Disclosure -/

/-- The second list shows the elements of the first with the given indices, and the others as they are if they are texts, or else by their first said. -/
def DisclosesFrom (saids : Saids) (indices : List Int) (i : Nat) (a d : List Val) : Prop :=
  d.length = a.length ∧ ∀ k, (((i + k : Nat) : Int) ∈ indices → d[k]? = a[k]?) ∧
    (∀ t, a[k]? = some (.text t) → d[k]? = some (.text t)) ∧
    (((i + k : Nat) : Int) ∉ indices → ∀ fs, a[k]? = some (.map fs) → ∃ p s t, saids = p :: s ∧ (p.1, Val.text t) ∈ fs ∧ d[k]? = some (.text t))

theorem disclose_facts (hw : HashOk w.toWorld) (hs : Dict saids) (indices : List Int) : ∀ {a c : List Val} (i : Nat), DictElems a →
    (∀ t, Val.text t ∈ a → IsDig t) → (∀ v ∈ c, Shown v) → checkElems w kind strict saids a = .ok c →
    ∃ d, discloseFrom w kind strict saids indices i a = .ok d ∧ checkElems w kind strict saids d = .ok c ∧ DisclosesFrom saids indices i a d ∧
      ∀ b, kind = .cesr → exhaleElems strict a = .ok b → b.length % 4 = 0 ∧ ∃ b', exhaleElems strict d = .ok b' ∧ b'.length % 4 = 0 ∧ b'.length ≤ b.length := by
  intro a
  induction a with
  | nil =>
    intro c i _ _ _ h
    simp only [checkElems, Except.ok.injEq] at h
    subst h
    refine ⟨[], by simp [discloseFrom], by simp [checkElems], by simp [DisclosesFrom], ?_⟩
    intro b _ hb
    simp only [exhaleElems, Except.ok.injEq] at hb
    subst hb
    exact ⟨rfl, [], by simp [exhaleElems], rfl, Nat.le_refl _⟩
  | cons e r ih =>
    intro c i hd ht hsh h
    cases e with
    | map fs =>
      rw [checkElems] at h
      split at h
      · exact absurd h (by simp)
      next raw hf =>
      split at h
      · exact absurd h (by simp)
      next c' hc =>
      injection h with h
      subst h
      obtain ⟨d, d1, d2, ⟨d3, d4⟩, d5⟩ := ih (i + 1) hd.tail (fun t h => ht t (by simp [h])) (fun v h => hsh v (by simp [h])) hc
      obtain ⟨q, hq, hdig⟩ := hsh (saidVal saids fs) (by simp)
      obtain ⟨p, s, hps, hmem⟩ : ∃ p s, saids = p :: s ∧ (p.1, Val.text q) ∈ fs := by
        rcases said_isDig hw hs (hd fs (by simp)) (fromMad_verify hf).1 with h | ⟨t, h1, _, p, s, h3, h4⟩
        · rw [hq] at h; exact absurd h (by simp)
        · rw [hq] at h1; injection h1 with h1; subst h1; exact ⟨p, s, h3, h4⟩
      refine ⟨(if indices.contains (i : Int) then .map fs else saidVal saids fs) :: d, by rw [discloseFrom, hf]; simp only [d1], ?_, ⟨by simp [d3], ?_⟩, ?_⟩
      · by_cases hi : indices.contains (i : Int) = true
        · rw [if_pos hi, checkElems, hf]; simp only [d2]
        · rw [if_neg hi, hq, checkElems, isDig_digElem hdig]; simp only [d2]
      · intro k
        cases k with
        | zero =>
          simp only [List.getElem?_cons_zero, Nat.add_zero]
          refine ⟨fun hi => by rw [if_pos (by simpa using hi)], fun t ht => by simp at ht, ?_⟩
          intro hi gs hg
          simp only [Option.some.injEq, Val.map.injEq] at hg
          subst hg
          exact ⟨p, s, q, hps, hmem, by rw [if_neg (by simpa using hi), hq]⟩
        | succ k =>
          simp only [List.getElem?_cons_succ]
          have := d4 k
          rwa [show i + 1 + k = i + (k + 1) by omega] at this
      · intro b hk hb
        subst hk
        rw [exhaleElems] at hb
        split at hb
        · exact absurd hb (by simp)
        next x hx =>
        split at hb
        · exact absurd hb (by simp)
        next y hy =>
        injection hb with hb
        subst hb
        obtain ⟨y1, z, z1, z2, z3⟩ := d5 y rfl hy
        obtain ⟨x1, x2⟩ := exhale_length (l := p.1) (t := q) hx
        have x3 := x2 hmem hdig
        refine ⟨by rw [List.length_append]; omega, ?_⟩
        by_cases hi : indices.contains (i : Int) = true
        · rw [if_pos hi, exhaleElems, hx]
          simp only [z1]
          exact ⟨_, rfl, by rw [List.length_append]; omega, by simp only [List.length_append]; omega⟩
        · obtain ⟨_, _, _, _, q4⟩ := hdig
          rw [if_neg hi, hq, exhaleElems]
          simp only [z1]
          exact ⟨_, rfl, by rw [List.length_append]; omega, by simp only [List.length_append]; omega⟩
    | text t =>
      rw [checkElems] at h
      split at h
      · exact absurd h (by simp)
      next q hq =>
      split at h
      · exact absurd h (by simp)
      next c' hc =>
      injection h with h
      subst h
      obtain ⟨d, d1, d2, ⟨d3, d4⟩, d5⟩ := ih (i + 1) hd.tail (fun t h => ht t (by simp [h])) (fun v h => hsh v (by simp [h])) hc
      have hdig := ht t (by simp)
      have hqt : q = t := by rw [isDig_digElem hdig] at hq; injection hq with hq; exact hq.symm
      subst hqt
      refine ⟨.text q :: d, by rw [discloseFrom, hq]; simp only [d1], by rw [checkElems, hq]; simp only [d2], ⟨by simp [d3], ?_⟩, ?_⟩
      · intro k
        cases k with
        | zero =>
          simp only [List.getElem?_cons_zero, Nat.add_zero]
          exact ⟨fun _ => by simp, fun t ht => ht, fun _ gs hg => by simp at hg⟩
        | succ k =>
          simp only [List.getElem?_cons_succ]
          have := d4 k
          rwa [show i + 1 + k = i + (k + 1) by omega] at this
      · intro b hk hb
        rw [exhaleElems] at hb
        split at hb
        · exact absurd hb (by simp)
        next y hy =>
        injection hb with hb
        subst hb
        obtain ⟨y1, z, z1, z2, z3⟩ := d5 y hk hy
        obtain ⟨_, _, _, _, q4⟩ := hdig
        refine ⟨by rw [List.length_append]; omega, q ++ z, by rw [exhaleElems]; simp only [z1], by rw [List.length_append]; omega, by simp only [List.length_append]; omega⟩
    | null => simp [checkElems] at h
    | bool _ => simp [checkElems] at h
    | num _ => simp [checkElems] at h
    | list _ => simp [checkElems] at h

/-! ## What the aggregate determines -/

theorem exhaleElems_inj : ∀ {c1 c2 : List Val} {b : List Char}, (∀ v ∈ c1, Shown v) → (∀ v ∈ c2, Shown v) →
    exhaleElems strict c1 = .ok b → exhaleElems strict c2 = .ok b → c1 = c2 := by
  intro c1
  induction c1 with
  | nil =>
    intro c2 b _ h2 e1 e2
    simp only [exhaleElems, Except.ok.injEq] at e1
    subst e1
    cases c2 with
    | nil => rfl
    | cons v r =>
      obtain ⟨q, rfl, m, hr, _⟩ := h2 v (by simp)
      rw [exhaleElems] at e2
      split at e2
      · exact absurd e2 (by simp)
      injection e2 with e2
      have := congrArg List.length e2
      have hp := hr.pos
      rw [List.length_append, List.length_nil] at this
      omega
  | cons v1 r1 ih =>
    intro c2 b h1 h2 e1 e2
    obtain ⟨q1, rfl, m1, hr1, _, _, _⟩ := h1 v1 (by simp)
    rw [exhaleElems] at e1
    split at e1
    · exact absurd e1 (by simp)
    next b1 hb1 =>
    injection e1 with e1
    subst e1
    cases c2 with
    | nil =>
      simp only [exhaleElems, Except.ok.injEq] at e2
      have := congrArg List.length e2
      have hp := hr1.pos
      rw [List.length_append, List.length_nil] at this
      omega
    | cons v2 r2 =>
      obtain ⟨q2, rfl, m2, hr2, _⟩ := h2 v2 (by simp)
      rw [exhaleElems] at e2
      split at e2
      · exact absurd e2 (by simp)
      next b2 hb2 =>
      injection e2 with e2
      have t1 := hr1.take b1
      have t2 := hr2.take b2
      rw [← e2, t2] at t1
      injection t1 with t1
      injection t1 with t1 t3
      subst t1 t3
      have hq : q1 = q2 := by
        have := hr1.text.symm.trans hr2.text
        injection this
      subst hq
      rw [ih (fun v h => h1 v (by simp [h])) (fun v h => h2 v (by simp [h])) hb1 hb2]

theorem checkElems_get : ∀ {r c : List Val}, checkElems w kind strict saids r = .ok c → c.length = r.length ∧
    ∀ (k : Nat) (e : Val), r[k]? = some e →
      (∃ fs, e = .map fs ∧ verify w.toWorld kind strict saids fs = .ok () ∧ c[k]? = some (saidVal saids fs)) ∨
      (∃ t q, e = .text t ∧ digElem t = .ok q ∧ c[k]? = some (.text q)) := by
  intro r
  induction r with
  | nil => intro c h; simp only [checkElems, Except.ok.injEq] at h; subst h; simp
  | cons e r ih =>
    intro c h
    cases e with
    | map fs =>
      rw [checkElems] at h
      split at h
      · exact absurd h (by simp)
      next raw hf =>
      split at h
      · exact absurd h (by simp)
      next c' hc =>
      injection h with h
      subst h
      obtain ⟨i1, i2⟩ := ih hc
      refine ⟨by simp [i1], ?_⟩
      intro k e he
      cases k with
      | zero => simp at he; subst he; exact .inl ⟨fs, rfl, (fromMad_verify hf).1, by simp⟩
      | succ k => simp only [List.getElem?_cons_succ] at he ⊢; exact i2 k e he
    | text t =>
      rw [checkElems] at h
      split at h
      · exact absurd h (by simp)
      next q hq =>
      split at h
      · exact absurd h (by simp)
      next c' hc =>
      injection h with h
      subst h
      obtain ⟨i1, i2⟩ := ih hc
      refine ⟨by simp [i1], ?_⟩
      intro k e he
      cases k with
      | zero => simp at he; subst he; exact .inr ⟨t, q, rfl, hq, by simp⟩
      | succ k => simp only [List.getElem?_cons_succ] at he ⊢; exact i2 k e he
    | null => simp [checkElems] at h
    | bool _ => simp [checkElems] at h
    | num _ => simp [checkElems] at h
    | list _ => simp [checkElems] at h

/-! ## Reading back -/

theorem inhaleElems_back (env : Env) : ∀ {a : List Val} {b : List Char}, (∀ fs, Val.map fs ∈ a → Good env (.map fs)) → (∀ t, Val.text t ∈ a → IsDig t) →
    exhaleElems strict a = .ok b → ∀ n, b.length + 1 ≤ n → inhaleElems env strict n b = .ok a := by
  intro a
  induction a with
  | nil =>
    intro b _ _ h n hn
    simp only [exhaleElems, Except.ok.injEq] at h
    subst h
    obtain ⟨n, rfl⟩ : ∃ k, n = k + 1 := ⟨n - 1, by omega⟩
    rfl
  | cons e r ih =>
    intro b hm ht h n hn
    obtain ⟨n, rfl⟩ : ∃ k, n = k + 1 := ⟨n - 1, by omega⟩
    cases e with
    | map fs =>
      rw [exhaleElems] at h
      split at h
      · exact absurd h (by simp)
      next x hx =>
      split at h
      · exact absurd h (by simp)
      next y hy =>
      injection h with h
      subst h
      have hx' := hx
      unfold exhale at hx'
      rw [serVal] at hx'
      split at hx'
      · exact absurd hx' (by simp)
      next bb hbb =>
      obtain ⟨c, hd, g⟩ := group_reads (.inl rfl) hx'
      have hb := c116_text_partial env strict fs x (hm fs (by simp)) hx y
      have hpk := g.peek (bb ++ y)
      rw [← List.append_assoc, ← g.eq] at hpk
      have hhd : (x ++ y).head? = some '-' := by
        rw [g.eq, List.append_assoc, List.head?_append, g.head]; rfl
      have hxl : 0 < x.length := by rw [g.eq, List.length_append]; have := g.long; omega
      have hisM : isMapCtr c = true := by unfold isMapCtr; rcases g.code with e | e <;> rw [e] <;> decide
      have hi := ih (fun fs h => hm fs (by simp [h])) (fun t h => ht t (by simp [h])) hy n (by rw [List.length_append] at hn; omega)
      generalize hz : x ++ y = z at *
      cases z with
      | nil => simp at hhd
      | cons c0 r0 =>
        simp only [List.head?_cons, Option.some.injEq] at hhd
        rw [inhaleElems, if_pos hhd, hpk]
        simp only [hisM, Bool.not_true, Bool.false_eq_true, if_false, hb, hi]
    | text t =>
      rw [exhaleElems] at h
      split at h
      · exact absurd h (by simp)
      next y hy =>
      injection h with h
      subst h
      obtain ⟨m, hr, hc, _, _⟩ := ht t (by simp)
      have hp := hr.pos
      have htk := hr.take y
      have hnm := hr.notMinus
      have hi := ih (fun fs h => hm fs (by simp [h])) (fun t h => ht t (by simp [h])) hy n (by rw [List.length_append] at hn; omega)
      cases t with
      | nil => simp at hp
      | cons c0 r0 =>
        simp only [List.head?_cons, ne_eq, Option.some.injEq] at hnm
        rw [List.cons_append] at htk ⊢
        rw [inhaleElems, if_neg hnm, htk]
        dsimp only
        rw [if_neg (by simpa using hc), hr.text]
        simp only [hi]
    | null => simp [exhaleElems] at h
    | bool _ => simp [exhaleElems] at h
    | num _ => simp [exhaleElems] at h
    | list _ => simp [exhaleElems] at h
end

end Verif.Mad
