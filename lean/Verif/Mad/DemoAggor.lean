import Verif.Mad.PropsAggor
import Verif.Mad.DemoCompact

/-! # Aggregates: cases that meet the hypotheses, and what is false -/

namespace Verif.Mad.Demo

open Verif.B64 Verif.Matter

/-- The world of `Demo`; the other kinds write the length and the texts, enough to tell the lists below apart. -/
def aworld : AWorld := ⟨world, fun vs => .ok (vs.flatMap fun v => match v with
  | .text t => '"' :: t
  | .null => ['n']
  | _ => ['m'])⟩

theorem ahashOk : HashOk aworld.toWorld := hashOk

def el1 : Flds := [(['d'], .null), (['u'], .text ['s', 'a', 'l', 't']), (['a'], .num ['1'])]
def el2 : Flds := [(['d'], .null), (['u'], .text ['s', 'a', 'l', 't']), (['b'], .bool true)]
def said3 : List Char := 'E' :: List.replicate 43 'A'
def elems : List Val := [.text [], .map el1, .map el2, .text said3]

def aggregate (kind : Kind) : List Char × List Val := match aggMake aworld kind true saids ['E'] elems with
  | .ok x => x
  | .error _ => ([], [])

theorem aggregate_ok : aggMake aworld .cesr true saids ['E'] elems = .ok (aggregate .cesr) ∧ (aggregate .cesr).2.length = 4 ∧
    aggMake aworld .other true saids ['E'] elems = .ok (aggregate .other) ∧ (aggregate .other).2.length = 4 := by
  refine ⟨by decide +kernel, by decide +kernel, by decide +kernel, by decide +kernel⟩

theorem dict_elems : DictElems elems := by
  intro fs hf
  simp only [elems, List.mem_cons, List.not_mem_nil, or_false, reduceCtorEq, false_or, Val.map.injEq] at hf
  rcases hf with rfl | rfl <;> (unfold Dict; decide)

theorem first_elems : HasFirst saids elems := by
  intro fs hf
  simp only [elems, List.mem_cons, List.not_mem_nil, or_false, reduceCtorEq, false_or, Val.map.injEq] at hf
  rcases hf with rfl | rfl <;> exact ⟨_, _, .null, rfl, by simp [el1, el2]⟩

example (indices : List Int) : ∃ d, disclose aworld .cesr true saids (aggregate .cesr).2 indices = .ok d ∧ verifyDisclosure aworld .cesr saids ['E'] d = .ok true ∧
    Discloses saids indices (aggregate .cesr).2 d ∧ d.head? = (aggregate .cesr).2.head? :=
  c122_selective_partial aworld .cesr saids ['E'] (aggregate .cesr).1 elems _ ahashOk dict_saids dict_elems (by decide) (by simp) aggregate_ok.1 indices

example (indices : List Int) : ∃ d, disclose aworld .other true saids (aggregate .other).2 indices = .ok d ∧ verifyDisclosure aworld .other saids ['E'] d = .ok true ∧
    Discloses saids indices (aggregate .other).2 d ∧ d.head? = (aggregate .other).2.head? :=
  c122_selective_partial aworld .other saids ['E'] (aggregate .other).1 elems _ ahashOk dict_saids dict_elems (by decide)
    (fun _ => ⟨first_elems, fun vs _ => ⟨_, rfl⟩⟩) aggregate_ok.2.2.1 indices

/-- With the second element disclosed, the first hidden. -/
def shown : List Val := match disclose aworld .cesr true saids (aggregate .cesr).2 [2] with
  | .ok d => d
  | .error _ => []

def said1 : List Char := match (shown[1]? : Option Val) with
  | some (.text t) => t
  | _ => []
def said2 : List Char := match (shown[2]? : Option Val) with
  | some (.map ((_, .text t) :: _)) => t
  | _ => []
def agid : List Char := match (shown[0]? : Option Val) with
  | some (.text t) => t
  | _ => []

theorem shown_eq : shown = [.text agid, .text said1, .map ((['d'], .text said2) :: el2.tail), .text said3] ∧
    (aggregate .cesr).2 = [.text agid, .map ((['d'], .text said1) :: el1.tail), .map ((['d'], .text said2) :: el2.tail), .text said3] := by
  refine ⟨by decide +kernel, by decide +kernel⟩

theorem good_two : Good env (.map ((['d'], .text said2) :: el2.tail)) := by
  simp only [el2, List.tail_cons, Good, GoodFlds]
  exact ⟨by decide, textOk (by decide), ⟨textOk (by decide +kernel), plain (by decide +kernel)⟩, textOk (by decide), ⟨textOk (by decide), plain (by decide)⟩,
    textOk (by decide), trivial, trivial⟩

theorem good_one : Good env (.map ((['d'], .text said1) :: el1.tail)) := by
  simp only [el1, List.tail_cons, Good, GoodFlds]
  exact ⟨by decide, textOk (by decide), ⟨textOk (by decide +kernel), plain (by decide +kernel)⟩, textOk (by decide), ⟨textOk (by decide), plain (by decide)⟩,
    textOk (by decide), ⟨rfl, by decide +kernel, by decide⟩, trivial⟩

/-- The whole list and the disclosure have the same aggregate. -/
example : let r1 := (aggregate .cesr).2.tail; let r2 := shown.tail
    (r1.length = r2.length ∧ ∀ (k : Nat) e1 e2, r1[k]? = some e1 → r2[k]? = some e2 → SameElem aworld .cesr true saids e1 e2) ∨
      AggCollision aworld .cesr true saids ['E'] r1 r2 := by
  intro r1 r2
  refine c123_commits_partial env aworld true saids ['E'] agid (aggregate .cesr).1
    (match aggFrom aworld .cesr true saids ['E'] shown with | .ok r => r | .error _ => []) r1 r2 ahashOk dict_saids ?_ ?_ (by decide +kernel) (by decide +kernel)
  · intro f hf
    simp only [r1, shown_eq.2, List.tail_cons, List.mem_cons, Val.map.injEq, reduceCtorEq, List.not_mem_nil, or_false] at hf
    rcases hf with rfl | rfl
    · exact good_one
    · exact good_two
  · intro f hf
    simp only [r2, shown_eq.1, List.tail_cons, List.mem_cons, Val.map.injEq, reduceCtorEq, List.not_mem_nil, or_false, false_or] at hf
    subst hf
    exact good_two

example : ∀ rest, aggFromRaw env aworld true saids ['E'] ((aggregate .cesr).1 ++ rest) = .ok ((aggregate .cesr).2, rest) := by
  refine c124_made_partial env aworld true saids ['E'] (aggregate .cesr).1 elems _ ahashOk dict_saids dict_elems ?_ aggregate_ok.1
  intro f hf
  simp only [shown_eq.2, List.mem_cons, Val.map.injEq, reduceCtorEq, List.not_mem_nil, or_false, false_or] at hf
  rcases hf with rfl | rfl
  · exact good_one
  · exact good_two

/-- A world whose other kinds write one map, and lists of two texts, the first as long as a digest. -/
def tinyList : List Val → Except Err (List Char)
  | [.text a, .text b] => if a.length = 44 then .ok (a ++ b) else .error .serialize
  | _ => .error .serialize

def tiny : AWorld := ⟨⟨world.hash, fun a => if a = [(['d'], .text (List.replicate 44 '#'))] then .ok ['m'] else .error .serialize⟩, tinyList⟩

theorem tinyList_ok {vs : List Val} {s : List Char} (h : tinyList vs = .ok s) : ∃ a b, vs = [.text a, .text b] ∧ a.length = 44 ∧ s = a ++ b := by
  unfold tinyList at h
  split at h
  · split at h
    · injection h with h; exact ⟨_, _, rfl, by assumption, h.symm⟩
    · exact absurd h (by simp)
  · exact absurd h (by simp)

def tinyMade : List Char × List Char := match aggMake tiny .other true saids ['E'] [.text [], .text said3] with
  | .ok (r, .text t :: _) => (r, t)
  | _ => ([], [])

example : let r := [Val.text said3]
    (r.length = r.length ∧ ∀ (k : Nat) e1 e2, r[k]? = some e1 → r[k]? = some e2 → SameElem tiny .other true saids e1 e2) ∨
      AggCollision tiny .other true saids ['E'] r r := by
  intro r
  refine c123_commits_other_partial tiny true saids ['E'] tinyMade.2 tinyMade.1 tinyMade.1 r r hashOk dict_saids (by simp [r, DictElems]) (by simp [r, DictElems])
    (by simp [r, HasFirst]) ?_ ?_ (by decide +kernel) (by decide +kernel)
  · intro a b s h1 h2
    simp only [tiny] at h1 h2
    split at h1
    · next e1 =>
      split at h2
      · next e2 => rw [e1, e2]
      · exact absurd h2 (by simp)
    · exact absurd h1 (by simp)
  · intro a b s h1 h2
    obtain ⟨a1, b1, rfl, l1, rfl⟩ := tinyList_ok h1
    obtain ⟨a2, b2, rfl, l2, e⟩ := tinyList_ok h2
    obtain ⟨rfl, rfl⟩ := List.append_inj e (by omega)
    rfl

/-- C122 and C123 are false of elements without the first said field in kinds other than CESR: such a map counts as null, so any other may be put in its place,
and hidden it does not verify. -/
theorem c122_counterexample :
    ∃ agid, verifyDisclosure aworld .other saids ['E'] [.text agid, .map [(['a'], .text ['y', 'e', 's'])]] = .ok true ∧
      verifyDisclosure aworld .other saids ['E'] [.text agid, .map [(['a'], .text ['n', 'o'])]] = .ok true ∧
      disclose aworld .other true saids [.text agid, .map [(['a'], .text ['y', 'e', 's'])]] [] = .ok [.text agid, .null] ∧
      verifyDisclosure aworld .other saids ['E'] [.text agid, .null] = .ok false := by
  refine ⟨(match aggMake aworld .other true saids ['E'] [.text [], .map [(['a'], .text ['y', 'e', 's'])]] with | .ok (_, .text t :: _) => t | _ => []), ?_⟩
  refine ⟨by decide +kernel, by decide +kernel, by decide +kernel, by decide +kernel⟩

/-- Verifying a disclosure takes the strict rule for labels whatever the aggregate was made with, so one made otherwise does not verify; a digest with
something after it, or spelled with `+`, passes for the digest; and the empty list raises. -/
theorem c122_lenient :
    (∃ raw ael, aggMake aworld .cesr false saids ['E'] [.text [], .map [(['d'], .null), (['a', ' ', 'b'], .null)]] = .ok (raw, ael) ∧
      aggFrom aworld .cesr false saids ['E'] ael = .ok raw ∧ verifyDisclosure aworld .cesr saids ['E'] ael = .ok false) ∧
    verifyDisclosure aworld .cesr saids ['E'] [.text agid, .text said1, .text said2, .text (said3 ++ ['x', 'y', 'z', '!'])] = .ok true ∧
    digElem ('E' :: 'A' :: '+' :: List.replicate 41 'A') = .ok ('E' :: 'A' :: '-' :: List.replicate 41 'A') ∧
    verifyDisclosure aworld .cesr saids ['E'] [] = .error .indexError := by
  refine ⟨⟨(match aggMake aworld .cesr false saids ['E'] [.text [], .map [(['d'], .null), (['a', ' ', 'b'], .null)]] with | .ok (r, _) => r | _ => []),
    (match aggMake aworld .cesr false saids ['E'] [.text [], .map [(['d'], .null), (['a', ' ', 'b'], .null)]] with | .ok (_, a) => a | _ => []),
    by decide +kernel, by decide +kernel, by decide +kernel⟩, by decide +kernel, by decide +kernel, by decide +kernel⟩

end Verif.Mad.Demo
