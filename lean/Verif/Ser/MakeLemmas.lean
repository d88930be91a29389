import Verif.Ser.SaidLemmas
import Verif.Prs.Frames

/-! # Making messages, and computing again what has been computed -/

namespace Verif.Ser

open Verif.B64 Verif.Matter
open Verif.Mad hiding Kind verify makify Digested Collision
open Verif.Prs (Proto Kind Smellage asc chars versify deversify smell sniff)

theorem digest_b64 {lib : Lib} (hw : DigestsOk lib) {code ser t : List Char} (h : digestOf lib.world code ser = .ok t) : reb64 t = true := by
  unfold digestOf at h
  split at h
  · exact absurd h (by simp)
  split at h
  · exact absurd h (by simp)
  unfold qb64Of at h
  split at h
  · exact absurd h (by simp)
  next m hm =>
  have h1 := (hw code ser).1
  obtain ⟨t', t1, _, _, t4⟩ := c03_text_roundtrip _ _ _ _ _ (show AllLt 256 _ from h1) hm
  rw [h] at t1
  injection t1 with t1
  rw [t1]; exact t4

theorem esc_b64 : ∀ c ∈ alphabet, esc c = [c] := by decide +kernel

theorem mem_alphabet {c : Char} (h : (idx c).isSome = true) : c ∈ alphabet := by
  simp only [idx] at h
  split at h
  · exact List.idxOf_lt_length_iff.1 (by have : alphabet.length = 64 := by decide +kernel
                                         omega)
  · exact absurd h (by simp)

theorem bare_b64 {t : List Char} (h : reb64 t = true) : Bare t := by
  intro c hc
  unfold reb64 at h
  rw [List.all_eq_true] at h
  exact esc_b64 c (mem_alphabet (h c hc))

theorem bare_hash (n : Nat) : Bare (List.replicate n '#') := by
  intro c hc
  rw [List.mem_replicate] at hc
  rw [hc.2]; decide +kernel

/-- A dict by labels and values, of any type. -/
theorem dict_ext {α : Type} {a b : List (List Char × α)} (ha : (a.map (·.1)).Nodup) (hk : a.map (·.1) = b.map (·.1)) (hg : ∀ l, getKey a l = getKey b l) : a = b := by
  induction a generalizing b with
  | nil => cases b with
    | nil => rfl
    | cons q b => simp at hk
  | cons p a ih =>
    cases b with
    | nil => simp at hk
    | cons q b =>
      obtain ⟨m, v⟩ := p
      obtain ⟨n, w⟩ := q
      simp only [List.map_cons, List.cons.injEq] at hk
      obtain ⟨rfl, hk⟩ := hk
      simp only [List.map_cons, List.nodup_cons] at ha
      have h0 := hg m
      simp only [getKey_cons, if_true, Option.some.injEq] at h0
      rw [h0, ih ha.2 hk]
      intro l
      have h1 := hg l
      simp only [getKey_cons] at h1
      by_cases hl : m = l
      · subst hl
        rw [getKey_none.2 ha.1, getKey_none.2 (by rw [← hk]; exact ha.1)]
      · simpa [hl] using h1

/-! ## Version strings -/

theorem versify_plain {proto : Proto} {pvrsn : Nat × Nat} {kind : Kind} {size : Nat} {gvrsn : Option (Nat × Nat)} {vs : List Nat}
    (h : versify proto pvrsn kind size gvrsn = .ok vs) : ∀ c ∈ vs, Prs.isB64 c = true ∨ c = 46 := by
  have hp : ∀ c ∈ proto.text, Prs.isB64 c = true := by cases proto <;> decide
  have hk : ∀ c ∈ kind.text, Prs.isB64 c = true := by cases kind <;> decide
  have hx : ∀ w n, ∀ c ∈ Prs.hexPad w n, Prs.isB64 c = true := by
    intro w n c hc
    have := List.all_eq_true.1 (Prs.hexPad_isHex w n) c hc
    simp [Prs.isHex] at this
    simp [Prs.isB64]; omega
  have hb : ∀ n l, 0 < l → ∀ c ∈ asc (intToB64 n l), Prs.isB64 c = true := by
    intro n l hl c hc
    unfold asc at hc
    rw [List.mem_map] at hc
    obtain ⟨ch, hch, rfl⟩ := hc
    have h1 := (c01_int_roundtrip n l hl).2.1
    unfold reb64 at h1
    rw [List.all_eq_true] at h1
    have h2 : ∀ c ∈ alphabet, Prs.isB64 c.toNat = true := by decide +kernel
    exact h2 ch (mem_alphabet (h1 ch hch))
  unfold versify at h
  split at h
  · split at h
    · exact absurd h (by simp)
    split at h
    · exact absurd h (by simp)
    injection h with h
    subst h
    intro c hc
    simp only [List.mem_append, List.mem_singleton] at hc
    rcases hc with ((((h | h) | h) | h) | h) | h
    · exact .inl (hp c h)
    · exact .inl (hx _ _ c h)
    · exact .inl (hx _ _ c h)
    · exact .inl (hk c h)
    · exact .inl (hx _ _ c h)
    · left; rw [h]; decide
  · split at h
    · dsimp only at h
      split at h
      · exact absurd h (by simp)
      injection h with h
      subst h
      intro c hc
      simp only [List.mem_append, List.mem_singleton] at hc
      rcases hc with ((((((h | h) | h) | h) | h) | h) | h) | h
      · exact .inl (hp c h)
      · exact .inl (hb _ _ (by omega) c h)
      · exact .inl (hb _ _ (by omega) c h)
      · exact .inl (hb _ _ (by omega) c h)
      · exact .inl (hb _ _ (by omega) c h)
      · exact .inl (hk c h)
      · exact .inl (hb _ _ (by omega) c h)
      · exact .inr h
    · exact absurd h (by simp)

theorem chars_plain {vs : List Nat} (h : ∀ c ∈ vs, Prs.isB64 c = true ∨ c = 46) : asc (chars vs) = vs ∧ Bare (chars vs) ∧ ∀ c ∈ chars vs, c.toNat < 128 := by
  have hl : ∀ c ∈ vs, c < 128 := by
    intro c hc
    rcases h c hc with h | h
    · exact Prs.isB64_lt h
    · omega
  refine ⟨Prs.asc_chars hl, ?_, ?_⟩
  · intro c hc
    unfold chars at hc
    rw [List.mem_map] at hc
    obtain ⟨n, hn, rfl⟩ := hc
    have key : ∀ n < 128, (Prs.isB64 n = true ∨ n = 46) → esc (Char.ofNat n) = [Char.ofNat n] := by decide +kernel
    exact key n (hl n hn) (h n hn)
  · intro c hc
    unfold chars at hc
    rw [List.mem_map] at hc
    obtain ⟨n, hn, rfl⟩ := hc
    have key : ∀ n < 128, (Char.ofNat n).toNat < 128 := by decide +kernel
    exact key n (hl n hn)

/-- The genus version that makes sense: none for version 1, some for version 2. -/
def GenOk (a : Attrs) : Prop := if a.pvrsn.1 < 2 then a.gvrsn = none else a.gvrsn.isSome = true

theorem versifyText_facts {a : Attrs} {n : Nat} {v : Val} (h : versifyText a n = .ok v) (hf : Prs.Fits a.pvrsn n a.gvrsn) (hg : GenOk a) :
    ∃ t, v = .text t ∧ Bare t ∧ t.length = Prs.vsLen a.pvrsn.1 ∧ (∀ c ∈ t, c.toNat < 128) ∧
      deversifyVal v = .ok ⟨a.proto, a.pvrsn, a.kind, n, a.gvrsn⟩ := by
  unfold versifyText at h
  split at h
  · exact absurd h (by simp)
  next b hb =>
  injection h with h
  obtain ⟨p1, p2, p3⟩ := chars_plain (versify_plain hb)
  obtain ⟨q1, q2⟩ := Prs.c84_roundtrip _ _ _ _ _ _ hb hf []
  rw [List.append_nil] at q2
  refine ⟨chars b, h.symm, p2, by rw [Prs.chars_length, q1], p3, ?_⟩
  rw [← h]
  simp only [deversifyVal, p1, q2]
  congr 2
  unfold Prs.foundGenus
  unfold GenOk at hg
  split
  · next h2 => rw [if_pos h2] at hg; exact hg.symm
  · next h2 =>
    rw [if_neg h2] at hg
    obtain ⟨g, e⟩ := Option.isSome_iff_exists.1 hg
    rw [e]; rfl

/-! ## Computing -/

theorem compute_other {lib : Lib} {a : Attrs} {sad sad' : Flds} {saids : Saids} {raw : List Char} {size : Nat} (hk : a.kind ≠ .cesr) :
    compute lib a sad saids = .ok (sad', raw, size) ↔ ∃ raw0 vs ser, dumps lib a sad = .ok raw0 ∧ versifyText a raw0.length = .ok vs ∧ size = raw0.length ∧
      dumps lib a (setField sad ['v'] vs) = .ok ser ∧ putDigests lib ser saids (setField sad ['v'] vs) = .ok sad' ∧ dumps lib a sad' = .ok raw := by
  unfold compute sizify
  rw [if_neg hk]
  constructor
  · intro h
    split at h
    · exact absurd h (by simp)
    next sad2 n hs =>
    split at hs
    · exact absurd hs (by simp)
    next raw0 h0 =>
    split at hs
    · exact absurd hs (by simp)
    next vs hv =>
    simp only [Except.ok.injEq, Prod.mk.injEq] at hs
    obtain ⟨rfl, rfl⟩ := hs
    split at h
    · exact absurd h (by simp)
    next ser hser =>
    split at h
    · exact absurd h (by simp)
    next sad3 hp =>
    split at h
    · exact absurd h (by simp)
    next raw' hraw =>
    rw [if_neg hk] at h
    simp only [Except.ok.injEq, Prod.mk.injEq] at h
    obtain ⟨rfl, rfl, rfl⟩ := h
    exact ⟨raw0, vs, ser, h0, hv, rfl, hser, hp, hraw⟩
  · rintro ⟨raw0, vs, ser, h0, hv, rfl, hser, hp, hraw⟩
    simp only [h0, hv, hser, hp, hraw]
    rw [if_neg hk]

theorem compute_cesr {lib : Lib} {a : Attrs} {sad sad' : Flds} {saids : Saids} {raw : List Char} {size : Nat} (hk : a.kind = .cesr) :
    compute lib a sad saids = .ok (sad', raw, size) ↔ ∃ ser sad3 vs, dumps lib a sad = .ok ser ∧ putDigests lib ser saids sad = .ok sad3 ∧
      dumps lib a sad3 = .ok raw ∧ versifyText a raw.length = .ok vs ∧ sad' = setField sad3 ['v'] vs ∧ size = raw.length := by
  unfold compute sizify
  rw [if_pos hk]
  constructor
  · intro h
    dsimp only at h
    split at h
    · exact absurd h (by simp)
    next ser hser =>
    split at h
    · exact absurd h (by simp)
    next sad3 hp =>
    split at h
    · exact absurd h (by simp)
    next raw' hraw =>
    rw [if_pos hk] at h
    split at h
    · exact absurd h (by simp)
    next vs hv =>
    simp only [Except.ok.injEq, Prod.mk.injEq] at h
    obtain ⟨rfl, rfl, rfl⟩ := h
    exact ⟨ser, sad3, vs, hser, hp, hraw, hv, rfl, rfl⟩
  · rintro ⟨ser, sad3, vs, hser, hp, hraw, hv, rfl, rfl⟩
    simp only [hser, hp, hraw]
    rw [if_pos hk]
    simp only [hv]

/-- What the digests are. -/
def digs (lib : Lib) (ser c : List Char) : List Char :=
  match digestOf lib.world c ser with
  | .ok t => t
  | .error _ => []

theorem digs_eq (lib : Lib) (ser c t : List Char) (h : digestOf lib.world c ser = .ok t) : digs lib ser c = t := by
  unfold digs; rw [h]

end Verif.Ser
