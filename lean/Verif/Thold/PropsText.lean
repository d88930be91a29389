import Verif.Thold.TextLemmas
import Verif.Thold.Props

/-! # Threshold text forms: property C14 -/

namespace Verif.Thold

open Verif.Matter

/-- **C14.** The `.sith` form of a weighted threshold reads back as the same threshold. -/
theorem c14_sith_roundtrip (cs : List (List Elt)) (h : WellFormed cs) : ofSith (sith (.wtd cs)) = .ok (.wtd cs) := by
  obtain ⟨hne, _⟩ := h.nonempty
  have helt : ∀ e, sithElt e ≠ .other := by intro e; cases e <;> simp [sithElt]
  have hread : mapE (fun c => mapE readSElt c) (cs.map fun c => c.map sithElt) = .ok cs :=
    mapE_ok (fun c => mapE readSElt c) (fun c => c.map sithElt) cs
      (fun c hc => mapE_ok readSElt sithElt c (fun e he => readSElt_sithElt e (h.2.2 c hc e he)))
  have hother : (cs.map fun c => c.map sithElt).any (fun c => c.any (· = .other)) = false := by
    simp only [List.any_eq_false, List.mem_map, Bool.not_eq_true]
    rintro _ ⟨c, _, rfl⟩
    simp only [List.mem_map]
    rintro _ ⟨e, _, rfl⟩
    simpa using helt e
  have key : ∀ items, items ≠ [] → clausesOf items = (cs.map fun c => c.map sithElt) →
      ofSith (.seq items) = .ok (.wtd cs) := by
    intro items hi hcl
    simp only [ofSith]
    rw [if_neg hi, hcl, hother, if_neg (by simp), hread]
    simp [make, h.2.1]
  unfold sith
  simp only
  split
  · rename_i c hc
    have hcs : cs.length = 1 := by simpa using congrArg List.length hc
    obtain ⟨c0, rfl⟩ : ∃ c0, cs = [c0] := by
      match cs, hcs with
      | [c0], _ => exact ⟨c0, rfl⟩
    simp at hc
    subst hc
    have hne0 := hne c0 (by simp)
    apply key
    · simpa using hne0
    · cases c0 with
      | nil => exact absurd rfl hne0
      | cons e c1 => simp [clausesOf, Function.comp_def]
  · apply key
    · simpa using h.1
    · simp [clausesOf, Function.comp_def]

/-- **C14.** The `.limen` form of a weighted threshold (short enough for the longest text code) reads back as the same
threshold. -/
theorem c14_limen_roundtrip (cs : List (List Elt)) (h : WellFormed cs)
    (hlen : (bextOfClauses cs).length < 4 * (64 ^ 4 - 1)) :
    ∃ t, limen (.wtd cs) = .ok t ∧ ofLimen t = .ok (.wtd cs) := by
  obtain ⟨m, t, b, m1, m2, m3, m4, _⟩ := c44_bexter_roundtrip (bextOfClauses cs) (reb64_bext cs h.2.2) hlen
  refine ⟨t, by simp only [limen, m1, m3], ?_⟩
  unfold bexterOfText at m4
  split at m4
  · exact absurd m4 (by simp)
  · rename_i m' hex
    split at m4
    · rename_i hmem
      injection m4 with m4
      subst m4
      have hnum : m'.code ∉ numDex := by
        have : ∀ c ∈ bexDex, c ∉ numDex := by decide +kernel
        exact this _ hmem
      unfold ofLimen
      simp only [hex, if_neg hnum, if_pos hmem, m2]
      exact readBext_bext cs h
    · exact absurd m4 (by simp)

/-- **C14.** Numeric thresholds round trip through both forms (the text form up to the largest number code). -/
theorem c14_numeric_roundtrip (n : Nat) :
    ofSith (sith (.num n)) = .ok (.num n) ∧
    (n < 256 ^ 17 → ∃ t, limen (.num n) = .ok t ∧ ofLimen t = .ok (.num n)) := by
  constructor
  · simp only [sith, ofSith]
    rw [if_neg (natText_ne_nil 16 n), parseNat_natText 16 n (by omega) (by omega)]
    rfl
  · intro hn
    obtain ⟨m, t, k, m1, m2, m3, m4, _⟩ := (c45_number_auto n).1 hn
    refine ⟨t, by simp only [limen, m1, m3], ?_⟩
    unfold numberOfText at m4
    split at m4
    · exact absurd m4 (by simp)
    · rename_i m' hex
      split at m4
      · rename_i hmem
        injection m4 with m4
        subst m4
        simp only [ofLimen, hex, if_pos hmem, m2, make]
      · exact absurd m4 (by simp)

/-- **C14.** Hence the read-back threshold is satisfied by exactly the same signer positions. -/
theorem c14_same_satisfaction (cs : List (List Elt)) (h : WellFormed cs) (t' : Thold)
    (hr : ofSith (sith (.wtd cs)) = .ok t') (is : List Nat) : satisfy t' is = satisfy (.wtd cs) is := by
  rw [c14_sith_roundtrip cs h] at hr
  injection hr with hr
  rw [hr]

/-- Everything read from text is well formed: `WellFormed` is what the readers guarantee. -/
theorem weight_unit {w : List Char} {q : Rat} (h : weight w = .ok q) : Unit01 q := by
  have nn : ∀ n : Nat, (0 : Rat) ≤ (n : Rat) := fun n => Rat.natCast_nonneg
  unfold weight at h
  split at h
  · split at h
    · rename_i hle
      injection h with h; subst h
      exact ⟨nn _, hle⟩
    · exact absurd h (by simp)
  · simp only at h
    split at h
    · split at h
      · exact absurd h (by simp)
      · split at h
        · rename_i n d _ _ _ hle
          injection h with h; subst h
          refine ⟨?_, hle⟩
          have h := Rat.divInt_nonneg (a := (n : Int)) (b := (d : Int)) (by omega) (by omega)
          rw [Rat.divInt_eq_div] at h
          exact h
        · exact absurd h (by simp)
    · exact absurd h (by simp)

theorem mapE_mem {α β : Type} {f : α → Except Err β} {l : List α} {r : List β} (h : mapE f l = .ok r) :
    r.length = l.length ∧ ∀ b ∈ r, ∃ a ∈ l, f a = .ok b := by
  induction l generalizing r with
  | nil => injection h with h; subst h; simp
  | cons a l ih =>
    rw [mapE] at h
    split at h
    · exact absurd h (by simp)
    · rename_i b hb
      split at h
      · exact absurd h (by simp)
      · rename_i bs hbs
        injection h with h; subst h
        obtain ⟨i1, i2⟩ := ih hbs
        refine ⟨by simp [i1], ?_⟩
        intro x hx
        rcases List.mem_cons.mp hx with rfl | hx
        · exact ⟨a, by simp, hb⟩
        · obtain ⟨y, hy, hf⟩ := i2 x hx
          exact ⟨y, by simp [hy], hf⟩

/-- Whatever `Tholder(sith=…)` accepts as a weighted threshold is well formed, so the round trip theorems apply to it:
reading, writing and reading again gives the same threshold. -/
theorem c14_sith_wellFormed (s : Sith) (cs : List (List Elt)) (h : ofSith s = .ok (.wtd cs)) : WellFormed cs := by
  cases s with
  | int n =>
    simp only [ofSith] at h
    split at h <;> simp [make] at h
  | hex t =>
    simp only [ofSith] at h
    split at h
    · simp at h
    · split at h <;> simp [make] at h
  | seq items =>
    simp only [ofSith] at h
    split at h
    · simp at h
    rename_i hne
    split at h
    · simp at h
    split at h
    · simp at h
    rename_i cs' hcs'
    simp only [make] at h
    split at h
    · rename_i hck
      injection h with h; injection h with h; subst h
      obtain ⟨l1, l2⟩ := mapE_mem hcs'
      refine ⟨?_, hck, ?_⟩
      · intro he
        subst he
        have : clausesOf items = [] := by
          have := l1; simp at this; exact List.eq_nil_of_length_eq_zero this.symm
        unfold clausesOf at this
        split at this
        · simp at this; exact hne this
        · simp at this
      · intro c hc e he
        obtain ⟨c', _, hc'⟩ := l2 c hc
        obtain ⟨_, k2⟩ := mapE_mem hc'
        obtain ⟨se, _, hse⟩ := k2 e he
        unfold readSElt at hse
        split at hse
        · split at hse
          · simp at hse
          · rename_i w hw
            injection hse with hse; subst hse
            exact weight_unit hw
        · split at hse
          · simp at hse
          · simp at hse
          · rename_i w ws hw hws
            injection hse with hse; subst hse
            refine ⟨weight_unit hw, ?_⟩
            intro w' hw'
            obtain ⟨_, _, hx⟩ := (mapE_mem hws).2 w' hw'
            exact weight_unit hx
        · simp at hse
        · simp at hse
    · simp at h

/-- The one weighted threshold the constructor takes that has no readable text form: no clauses at all. -/
theorem c14_no_clauses : make (.wtd []) = .ok (.wtd []) ∧ ofSith (sith (.wtd [])) = .error .valueError ∧
    satisfy (.wtd []) [] = false ∧ ∃ t, limen (.wtd []) = .ok t ∧ ofLimen t = .error .valueError :=
  ⟨by decide +kernel, by decide +kernel, by decide +kernel, "4AAA".toList, by decide +kernel⟩

/-- Weights above one are taken from `thold=` and lose their fraction in the text forms. -/
theorem c14_above_one : make (.wtd [[.wt (3/2)]]) = .ok (.wtd [[.wt (3/2)]]) ∧
    ofSith (sith (.wtd [[.wt (3/2)]])) = .ok (.wtd [[.wt 1]]) := by
  decide +kernel

example : WellFormed sampleW := by
  refine ⟨by simp [sampleW], by decide +kernel, ?_⟩
  intro c hc e he
  simp only [sampleW, List.mem_cons, List.not_mem_nil, or_false] at hc
  rcases hc with rfl | rfl <;> simp only [List.mem_cons, List.not_mem_nil, or_false] at he <;>
    (try rcases he with rfl | rfl | rfl) <;> (try rcases he with rfl | rfl) <;> simp only [Elt.Unit, Unit01] <;>
    (try decide +kernel)
example : limen (.wtd sampleW) = .ok "4AAHA1s2c1s2c1s2a1s2c1s2k1s2v1s2".toList := by decide +kernel
example : ofSith (.seq [.bare (.str "1/2".toList), .bare (.map [("1/2".toList, ["1".toList, "0".toList])])])
    = .ok (.wtd [[.wt (1/2), .grp (1/2) [1, 0]]]) := by decide +kernel
example : ofSith (.seq [.bare (.str "1/0".toList)]) = .error .zeroDivision := by decide +kernel

end Verif.Thold
