import Verif.Mad.PropsSaid
import Verif.Mad.Beq

/-! # Cases that meet the hypotheses, and what is false -/

namespace Verif.Mad.Demo

open Verif.B64 Verif.Matter

/-- Every text decodes and every number is printed as it was. -/
def env : Env := ⟨fun _ => true, some⟩

theorem textOk {t : List Char} (h : t.all (fun c => decide (c.toNat < 256)) = true) : TextOk env t := by
  refine ⟨fun c hc => ?_, rfl⟩
  have := List.all_eq_true.1 h c hc
  simpa using this

theorem plain {t : List Char} (h : t.all (fun c => decide (c ≠ '+' ∧ c ≠ '/')) = true) : Plain t := by
  intro _
  constructor <;> intro hc <;> have := List.all_eq_true.1 h _ hc <;> simp at this

/-- A map with a value of each kind, one in another. -/
def mad : Flds :=
  [(['d'], .null), (['n', 'a', 'm', 'e'], .text ['J', 'o', '+', ' ', 'x']), (['n'], .list [.num ['-', '1', '.', '5'], .bool true, .text ['M', 'A', 'A', 'B']]),
   (['m'], .map [(['a'], .text ['1', 'A', 'A', 'K']), (['b'], .bool false), (['c'], .list [])])]

def raw : List Char := match exhale true mad with
  | .ok r => r
  | .error _ => []

theorem exhale_mad : exhale true mad = .ok raw ∧ raw.length = 92 := by decide +kernel

theorem good_mad : Good env (.map mad) := by
  simp only [mad, Good, GoodFlds, GoodVals]
  refine ⟨by decide, textOk (by decide), trivial, textOk (by decide), ⟨textOk (by decide), ?_⟩, textOk (by decide), ⟨⟨rfl, by decide +kernel, by decide⟩, trivial, ⟨textOk (by decide), plain (by decide)⟩, trivial⟩,
    textOk (by decide), ⟨by decide, textOk (by decide), ⟨textOk (by decide), plain (by decide)⟩, textOk (by decide), trivial, textOk (by decide), trivial, trivial⟩, trivial⟩
  rintro ⟨m, h1, h2⟩
  have : (match exfil ['J', 'o', '+', ' ', 'x'] with | .ok _ => true | .error _ => false) = false := by decide +kernel
  rw [h1] at this
  simp at this

example : ∀ rest, fromText env true (raw ++ rest) = .ok (mad, rest) := c116_text_partial env true mad raw good_mad exhale_mad.1

theorem based_mad : reb64 raw = true := by decide +kernel

example : ∃ b, qb2Of raw = .ok b ∧ ∀ rest, AllLt 256 rest → fromBinary env true (b ++ rest) = .ok (mad, rest) :=
  c116_binary_partial env true mad raw good_mad exhale_mad.1 based_mad

/-- C116 is false of texts that are a primitive spelled with `+`, and of numbers printed with a `+`: different maps are written alike, and so one of them
is read as the other. -/
theorem c116_counterexamples :
    (∃ r, exhale true [(['a'], .text ['M', 'A', '+', 'A'])] = .ok r ∧ exhale true [(['a'], .text ['M', 'A', '-', 'A'])] = .ok r ∧
      fromText env true r = .ok ([(['a'], .text ['M', 'A', '-', 'A'])], [])) ∧
    (∃ r, exhale true [(['a'], .num ['1', 'e', '+', '1', '6'])] = .ok r ∧ exhale true [(['a'], .num ['1', 'e', '-', '1', '6'])] = .ok r ∧
      fromText env true r = .ok ([(['a'], .num ['1', 'e', '-', '1', '6'])], [])) := by
  refine ⟨⟨"-IAC0J_aMA-A".toList, ?_⟩, ⟨"-IAE0J_a6HACAAA1e-16".toList, ?_⟩⟩ <;> decide +kernel

/-- Reading is lenient: a label that occurs twice counts with its last value, a group may claim more than is left, and strict reading admits a label that
strict writing refuses.  So different serializations are read as the same map, and `Mapper(raw=…)` keeps the one it was given. -/
theorem c116_lenient :
    fromText env true "-IAE0J_aMAAB0J_aMAAC".toList = .ok ([(['a'], .text ['M', 'A', 'A', 'C'])], []) ∧
    fromText env true "-IAC0J_aMAAC".toList = .ok ([(['a'], .text ['M', 'A', 'A', 'C'])], []) ∧
    fromText env true "-IAC0J_a-JAF".toList = .ok ([(['a'], .list [])], []) ∧
    (∃ r, exhale false [(['a', '\n'], .null)] = .ok r ∧ fromText env true r = .ok ([(['a', '\n'], .null)], []) ∧
      exhale true [(['a', '\n'], .null)] = .error .invalidSoft) := by
  refine ⟨by decide +kernel, by decide +kernel, by decide +kernel, ⟨"-IACWGEK1AAK".toList, ?_⟩⟩
  decide +kernel

/-- A text that is a primitive by `Matter(qb64=…)` and not Base64: the serialization has no binary form. -/
theorem c116_not_base64 : exhale true [(['a'], .text ['X', ' ', 'a', '\n'])] = .ok "-IAD0J_a1AAOX a\n".toList ∧
    (∃ e, qb2Of "-IAD0J_a1AAOX a\n".toList = .error e) := by
  refine ⟨by decide +kernel, .binasciiError, ?_⟩
  decide +kernel

/-! ## SAIDs -/

/-- A digest that can be computed. -/
def world : World := ⟨fun code ser => List.replicate (if code.length = 1 then 32 else 64) ((ser.foldl (fun a c => a * 31 + c.toNat) 7) % 256), fun _ => .ok ['x']⟩

theorem hashOk : HashOk world := by
  intro code ser
  refine ⟨?_, by simp [world]⟩
  intro b hb
  simp only [world, List.mem_replicate] at hb
  rw [hb.2]
  exact Nat.mod_lt _ (by omega)

def saids : Saids := [(['d'], ['E'])]

/-- The map made, and its serialization. -/
def made : Flds × List Char := match makify world .cesr true saids mad with
  | .ok (r, m, _) => (m, r)
  | .error _ => ([], [])

theorem made_ok : makify world .cesr true saids mad = .ok (made.2, made.1, saids) ∧ made.1 ≠ mad ∧ made.2.length = 132 := by
  refine ⟨by decide +kernel, by decide +kernel, by decide +kernel⟩

theorem dict_mad : Dict mad := by unfold Dict; decide

def madeSaid : List Char := match made.1 with
  | (_, .text t) :: _ => t
  | _ => []

theorem made_eq : made.1 = (['d'], .text madeSaid) :: mad.tail := by decide +kernel

theorem good_made : Good env (.map made.1) := by
  have h := good_mad
  rw [made_eq]
  simp only [mad, List.tail_cons, Good, GoodFlds] at h ⊢
  refine ⟨h.1, h.2.1, ⟨textOk ?_, plain ?_⟩, h.2.2.2⟩
  · decide +kernel
  · decide +kernel

example : verify world .cesr true saids made.1 = .ok () ∧ fromMad world .cesr true saids made.1 = .ok made.2 :=
  c117_made_verifies world .cesr true saids saids mad made.1 made.2 hashOk dict_mad (by unfold Dict; decide) made_ok.1

example : verify world .cesr true saids mad ≠ .ok () := by decide +kernel

example : ∀ rest, fromRaw env world true saids (made.2 ++ rest) = .ok (made.1, rest) :=
  c117_received_partial env world true saids saids mad made.1 made.2 hashOk (by unfold Dict; decide) dict_mad good_made made_ok.1

/-- A SAID does not say which codes the other SAIDs have: two maps that verify, with the same SAID, that differ in the code of the other. -/
theorem c118_other_saids :
    ∃ m1 m2 : Flds, verify world .cesr true [(['d'], ['E']), (['i'], ['E'])] m1 = .ok () ∧ verify world .cesr true [(['d'], ['E']), (['i'], ['E'])] m2 = .ok () ∧
      getKey m1 ['d'] = getKey m2 ['d'] ∧ m1 ≠ m2 := by
  refine ⟨(match makify world .cesr true [(['d'], ['E']), (['i'], ['E'])] [(['d'], .null), (['i'], .null)] with | .ok (_, m, _) => m | .error _ => []),
    (match makify world .cesr true [(['d'], ['E']), (['i'], ['E'])] [(['d'], .null), (['i'], .text ('F' :: List.replicate 43 'A'))] with
      | .ok (_, m, _) => m | .error _ => []), ?_⟩
  decide +kernel

/-- C118 is false of the maps excluded from it: a number printed with a `+` has the SAID of another number. -/
theorem c118_counterexample :
    ∃ t, verify world .cesr true saids [(['d'], .text t), (['n'], .num ['1', 'e', '+', '1', '6'])] = .ok () ∧
      verify world .cesr true saids [(['d'], .text t), (['n'], .num ['1', 'e', '-', '1', '6'])] = .ok () := by
  refine ⟨(match makify world .cesr true saids [(['d'], .null), (['n'], .num ['1', 'e', '+', '1', '6'])] with | .ok (_, (_, .text t) :: _, _) => t | _ => []), ?_⟩
  decide +kernel

/-- A field of another kind of primitive cannot be a SAID, and for the other kinds the report of that is itself an error. -/
example : verify world .cesr true saids [(['d'], .text ['M', 'A', 'A', 'A'])] = .error .serialize ∧
    verify world .other true saids [(['d'], .text ['M', 'A', 'A', 'A'])] = .error .unboundLocal := by decide +kernel

end Verif.Mad.Demo
