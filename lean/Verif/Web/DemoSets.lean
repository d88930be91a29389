import Verif.Web.PropsSets
/-! # Cases of sets in browsers, and witnesses of what fails -/

namespace Verif.Web.Demo

open Verif.Db

def setOps : List SetOp := [.put [65] [[1], [2], [1]], .add [66] [7], .add [65] [3], .remVal [65] [2], .pin [66] [[8], [8], [9]], .put [65] [[2], [1]],
  .get [65], .last [66], .cnt [65], .rem [66], .get [66]]

/-- The hypotheses of `c236_refines_partial` and `c236_same_partial` are met. -/
example : SepOk 46 ∧ (∀ o ∈ setOps, o.key ≠ []) ∧ Apart37 46 setOps ∧ (∀ o ∈ setOps, o.sepOk 46) ∧ (setOps.map SetOp.size).sum < 16 ^ 31 := by
  refine ⟨by unfold SepOk; decide, by decide, ?_, ?_, by decide⟩
  · intro o ho o' ho'
    simp only [setOps, List.mem_cons, List.not_mem_nil, or_false] at ho ho'
    rcases ho with rfl | rfl | rfl | rfl | rfl | rfl | rfl | rfl | rfl | rfl | rfl <;>
      rcases ho' with rfl | rfl | rfl | rfl | rfl | rfl | rfl | rfl | rfl | rfl | rfl <;> simp [SetOp.key]
  · intro o ho
    simp only [setOps, List.mem_cons, List.not_mem_nil, or_false] at ho
    rcases ho with rfl | rfl | rfl | rfl | rfl | rfl | rfl | rfl | rfl | rfl | rfl <;> first | trivial | rfl

/-- … and what is read is not empty. -/
example : setAnswers 46 [] setOps = [.ok (.bool true), .ok (.bool true), .ok (.bool true), .ok (.bool true), .ok (.bool true), .ok (.bool true),
    .ok (.vals [[1], [3], [2]]), .ok (.val (some [9])), .ok (.num 3), .ok (.bool true), .ok (.vals [])] := by decide +kernel

/-- **C236 fails for nested keys.** A value added under `A.00000000000000000000000000000000` hides the later values of `A`; and where the database on disk refuses the value after those it does not see,
the one in browsers writes over one of them: adding `3` is answered with True and `2` is lost. -/
theorem c236_nested_keys :
    let k : Bytes := [65]
    let k' : Bytes := suffix 46 k 0
    let ops : List SetOp := [.add k [1], .add k' [9], .add k [2], .add k [3], .rem k', .get k]
    setAnswers 46 [] ops = [.ok (.bool true), .ok (.bool true), .ok (.bool true), .ok (.bool true), .ok (.bool true), .ok (.vals [[1], [3]])] ∧
    implRun 46 [] ops = [.ok (.bool true), .ok (.bool true), .ok (.bool true), .ok (.bool false), .ok (.bool true), .ok (.vals [[1], [2]])] := by decide +kernel

/-- **Other separators.** The last value is found in browsers and not on disk, which looks from the key with `.` on. -/
theorem c236_last_separator :
    setAnswers 33 [] [.add [65] [1], .last [65]] = [.ok (.bool true), .ok (.val (some [1]))] ∧
    implRun 33 [] [.add [65] [1], .last [65]] = [.ok (.bool true), .ok (.val none)] := by decide +kernel

end Verif.Web.Demo
