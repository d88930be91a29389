import Verif.Mad.PropsCompact
import Verif.Mad.Demo

/-! # Compaction: cases that meet the hypotheses, and what is false -/

namespace Verif.Mad.Demo

open Verif.B64 Verif.Matter

theorem ascii : Ascii env := fun _ _ => rfl

/-- A map with SAIDs, two deep. -/
def inner : Flds := [(['d'], .null), (['x'], .text ['s', 'e', 'c', 'r', 'e', 't'])]
def outer : Flds := [(['d'], .null), (['a'], .map [(['d'], .null), (['n'], .map inner), (['y'], .text ['o', 'p', 'e', 'n'])]), (['z'], .map [(['k'], .map inner)])]

/-- The SAID of the inner one, and the map with the inner one hidden and the SAID of the middle one a false one. -/
def innerSaid : Val := match rolledV world .cesr saids (.map inner) with
  | .ok x => x
  | .error _ => .null
def partly : Flds := [(['d'], .null), (['a'], .map [(['d'], .text ('E' :: List.replicate 43 'A')), (['n'], innerSaid), (['y'], .text ['o', 'p', 'e', 'n'])]), (['z'], .map [(['k'], .map inner)])]

def innerText : List Char := match innerSaid with
  | .text t => t
  | _ => []

theorem innerSaid_text : innerSaid = .text innerText ∧ innerText.length = 44 ∧ rolledV world .cesr saids (.map inner) = .ok innerSaid := by
  refine ⟨by decide +kernel, by decide +kernel, by decide +kernel⟩

/-- Its compact form. -/
def rolled : Flds := match compacted world .cesr saids outer with
  | .ok r => r
  | .error _ => []

theorem rolled_ok : compacted world .cesr saids outer = .ok rolled ∧ rolled.map (·.1) = [['d'], ['a'], ['z']] ∧ rolled ≠ outer := by
  refine ⟨by decide +kernel, by decide +kernel, by decide +kernel⟩

theorem tidy_outer : Tidy (.map outer) := by simp [outer, inner, Tidy, TidyF]

theorem dict_saids : Dict saids := by unfold Dict; decide

/-- With one said, a map with any has the first. -/
theorem primary_one (l d : List Char) (b : Flds) : Primary [(l, d)] b := by
  intro h
  simp only [anySaid, List.any_cons, List.any_nil, Bool.or_false, Option.isSome_iff_exists] at h
  obtain ⟨v, hv⟩ := h
  exact ⟨(l, d), [], v, rfl, hv⟩

example : (∀ n, mapsF outer < n → compactLoop world .cesr saids n outer [] = compactLoop world .cesr saids (mapsF outer + 1) outer []) ∧
    (∀ r, compacted world .cesr saids outer = .ok r ↔ rolledTop world .cesr saids outer = .ok r) :=
  c119_compacts_partial world .cesr saids outer hashOk dict_saids tidy_outer (primary_one _ _ _)

example : verify world .cesr true saids rolled = .ok () :=
  (c119_compact_verifies_partial world .cesr saids outer rolled hashOk dict_saids tidy_outer (primary_one _ _ _) rolled_ok.1).1 (by decide)

/-- C120: what is not checked.  The SAID stated in the middle map is false, and the compact form is the same. -/
theorem variant_partly : VariantF world .cesr saids outer partly := by
  refine .said (by decide) rfl rfl (fun _ _ => rfl) (.field (by decide) (.map (.said (by decide) rfl rfl ?_ (.field (by decide) ?_ (.field (by decide) (.same _) .nil)))) (.field (by decide) (.same _) .nil))
  · intro d hd
    have : d = ['E'] := by
      have h : getKey saids ['d'] = some ['E'] := by decide
      rw [h] at hd
      injection hd with hd
      exact hd.symm
    subst this
    decide +kernel
  · exact .hidden inner innerSaid (by decide) innerSaid_text.2.2


example : compacted world .cesr saids partly = .ok rolled :=
  (c120_disclosures_partial world .cesr saids outer partly rolled hashOk dict_saids tidy_outer (primary_one _ _ _) variant_partly).1 rolled_ok.1

example : ∃ r p s, compacted world .cesr saids inner = .ok r ∧ saids = p :: s ∧ (p.1, innerSaid) ∈ r :=
  c120_hidden_partial world .cesr saids inner innerSaid hashOk dict_saids (by simp [inner, Tidy, TidyF]) (primary_one _ _ _) (by decide) innerSaid_text.2.2

theorem text_good {t : List Char} (h : t.all (fun c => decide (c.toNat < 256)) = true) (h' : t.all (fun c => decide (c ≠ '+' ∧ c ≠ '/')) = true) :
    Good env (.text t) := by
  rw [Good]
  exact ⟨textOk h, plain h'⟩

theorem good_inner : Good env (.map inner) := by
  rw [inner, Good]
  refine ⟨by decide, ?_⟩
  simp only [GoodFlds]
  exact ⟨textOk (by decide), by simp [Good], textOk (by decide), text_good (by decide) (by decide), trivial⟩

theorem good_outer : Good env (.map outer) := by
  have h := good_inner
  rw [outer, Good]
  refine ⟨by decide, ?_⟩
  simp only [GoodFlds]
  refine ⟨textOk (by decide), by simp [Good], textOk (by decide), ?_, textOk (by decide), ?_, trivial⟩
  · rw [Good]
    refine ⟨by decide, ?_⟩
    simp only [GoodFlds]
    exact ⟨textOk (by decide), by simp [Good], textOk (by decide), h, textOk (by decide), text_good (by decide) (by decide), trivial⟩
  · rw [Good]
    refine ⟨by decide, ?_⟩
    simp only [GoodFlds]
    exact ⟨textOk (by decide), h, trivial⟩

theorem good_partly : Good env (.map partly) := by
  have h := good_inner
  rw [partly, Good]
  refine ⟨by decide, ?_⟩
  simp only [GoodFlds]
  refine ⟨textOk (by decide), by simp [Good], textOk (by decide), ?_, textOk (by decide), ?_, trivial⟩
  · rw [Good]
    refine ⟨by decide, ?_⟩
    simp only [GoodFlds]
    refine ⟨textOk (by decide), text_good (by decide) (by decide), textOk (by decide), ?_, textOk (by decide), text_good (by decide) (by decide), trivial⟩
    rw [innerSaid_text.1]
    exact text_good (by decide +kernel) (by decide +kernel)
  · rw [Good]
    refine ⟨by decide, ?_⟩
    simp only [GoodFlds]
    exact ⟨textOk (by decide), h, trivial⟩

theorem tidy_partly : Tidy (.map partly) := variant_tidy dict_saids hashOk (.map variant_partly) tidy_outer

def rolledSaid : Val := saidVal saids rolled

example : AgreeF world .cesr saids outer partly ∨ CollisionIn world .cesr saids (.map outer) (.map partly) :=
  c121_agree_partial env world saids outer partly rolled rolled hashOk dict_saids ascii tidy_outer tidy_partly good_outer good_partly
    (fun b _ => primary_one _ _ b) (fun b _ => primary_one _ _ b) rolled_ok.1
    ((c120_disclosures_partial world .cesr saids outer partly rolled hashOk dict_saids tidy_outer (primary_one _ _ _) variant_partly).1 rolled_ok.1)
    ['d'] ['E'] rolledSaid (by decide) (by decide +kernel) (by decide +kernel)

/-- Agreement says something: maps that differ in what both show do not agree. -/
example : ¬ AgreeF world .cesr saids [(['z'], .map [(['x'], .null)])] [(['z'], .map [(['x'], .bool true)])] := by
  intro h
  cases h with
  | said h _ => exact absurd h (by decide)
  | field h _ => cases h with
    | left _ _ h => exact absurd h (by decide)
    | right _ _ h => exact absurd h (by decide)
    | maps h => cases h with
      | said h _ => exact absurd h (by decide)
      | field h _ => cases h

/-! ## What is false -/

/-- Rounds that change nothing never end. -/
theorem loops {w : World} {kind : Kind} {sd : Saids} {m0 m1 : Flds} {l0 l1 : Leaves} (h0 : compactOnce w kind sd m0 l0 = .ok (m1, l1, false))
    (h1 : compactOnce w kind sd m1 l1 = .ok (m1, l1, false)) : ∀ n, compactLoop w kind sd n m0 l0 = .error .recursion := by
  have hl : ∀ n, compactLoop w kind sd n m1 l1 = .error .recursion := by
    intro n
    induction n with
    | zero => rfl
    | succ n ih => simp only [compactLoop, h1]; exact ih
  intro n
  cases n with
  | zero => rfl
  | succ n => simp only [compactLoop, h0]; exact hl n

instance : DecidableEq Flds := inferInstanceAs (DecidableEq (List (List Char × Val)))
instance : DecidableEq Leaves := inferInstanceAs (DecidableEq (List (List Char × Flds)))

/-- The result of a round. -/
def once (sd : Saids) (m : Flds) (l : Leaves) : Flds × Leaves := match compactOnce world .cesr sd m l with
  | .ok (m1, l1, _) => (m1, l1)
  | .error _ => ([], [])

def dotted : Flds := [(['a', '.', 'b'], .map [(['d'], .null)])]
def second : Flds := [(['i'], .null)]
def two : Saids := [(['d'], ['E']), (['i'], ['E'])]

/-- C119 is false without its hypotheses: with a dot in the label of a map with a SAID, or with a second SAID and not the first, `compact` does not end. -/
theorem c119_counterexamples :
    (∀ n, compactLoop world .cesr saids n dotted [] = .error .recursion) ∧ (∀ n, compactLoop world .cesr two n second [] = .error .recursion) := by
  constructor
  · refine loops (m1 := (once saids dotted []).1) (l1 := (once saids dotted []).2) ?_ ?_ <;> decide +kernel
  · refine loops (m1 := (once two second []).1) (l1 := (once two second []).2) ?_ ?_ <;> decide +kernel

/-- C121 is false without its hypotheses: a map that has the second SAID and not the first is replaced by null, and so any other such map has the same
compact form, with the same SAID. -/
theorem c121_counterexample :
    ∃ r v, compacted world .cesr two [(['d'], .null), (['a'], .map [(['i'], .null), (['x'], .text ['1'])])] = .ok r ∧
      compacted world .cesr two [(['d'], .null), (['a'], .map [(['i'], .null), (['y'], .bool true)])] = .ok r ∧ r = [(['d'], v), (['a'], .null)] := by
  refine ⟨(match compacted world .cesr two [(['d'], .null), (['a'], .map [(['i'], .null), (['x'], .text ['1'])])] with | .ok r => r | .error _ => []),
    (match compacted world .cesr two [(['d'], .null), (['a'], .map [(['i'], .null), (['x'], .text ['1'])])] with | .ok ((_, v) :: _) => v | _ => .null), ?_, ?_, ?_⟩ <;> decide +kernel

end Verif.Mad.Demo
