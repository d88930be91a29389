import Verif.Web.PropsOnSets
/-! # Cases of what the database in browsers keeps of sets, and witnesses of what fails -/

namespace Verif.Web.Demo

open Verif.Db (Bytes Tbl suffix onKey SetOp SetOut)

/-- A history as in `c239_kept_partial`. -/
def setHistory : List SInp := [.base (.openDb false), .set (.put (onKey 46 [65] 0) [[1], [2]]), .base .flush, .base .synced, .set (.get (onKey 46 [65] 0)), .set (.remVal (onKey 46 [65] 0) [1]),
  .base .flush, .base .failed, .base .flush, .base .synced, .set (.add (onKey 46 [65] 0) [2])]

theorem key_bytes : BytesOk (onKey 46 [65] 0) := onKey_ok (by decide) (by simp [BytesOk]) 0

/-- The hypotheses of `c239_kept_partial` are met. -/
example : (∀ i ∈ setHistory, i.Bytes) ∧ (∀ i ∈ setHistory, i.marked = true) ∧ CalmS 46 fresh setHistory ∧ (fresh.runS 46 setHistory).dirty = false ∧
    (fresh.runS 46 setHistory).items = [(suffix 46 (onKey 46 [65] 0) 1, [2])] := by
  refine ⟨?_, ?_, ?_, by decide +kernel, by decide +kernel⟩
  · intro i hi
    simp only [setHistory, List.mem_cons, List.not_mem_nil, or_false] at hi
    rcases hi with rfl | rfl | rfl | rfl | rfl | rfl | rfl | rfl | rfl | rfl | rfl <;>
      first | trivial | exact ⟨key_bytes, by simp [vals, BytesOk]⟩
  · intro i hi
    simp only [setHistory, List.mem_cons, List.not_mem_nil, or_false] at hi
    rcases hi with rfl | rfl | rfl | rfl | rfl | rfl | rfl | rfl | rfl | rfl | rfl <;> rfl
  · unfold setHistory
    iterate 11 (refine ⟨by decide +kernel, ?_⟩)
    trivial

/-- A store that has been flushed, with a set in it. -/
def flushed : Store := fresh.runS 46 [.base (.openDb false), .set (.add (onKey 46 [65] 0) [1]), .base .flush, .base .synced]

/-- The hypotheses of `c239_append_lost` and `c239_rem_lost` are met. -/
example : TblOk flushed.items ∧ flushed.dirty = false ∧ flushed.sync = none ∧ flushed.kept = ⟨pack flushed.items, some flushed.dup⟩ := by
  refine ⟨?_, by decide +kernel, by decide +kernel, by decide +kernel⟩
  have : flushed.items = [(suffix 46 (onKey 46 [65] 0) 0, [1])] := by decide +kernel
  rw [this]
  exact ⟨by simp [Db.Sorted], fun e he => by
    simp only [List.mem_singleton] at he; subst he
    exact ⟨suffix_ok (by decide) key_bytes 0, by simp [BytesOk]⟩⟩

/-- … and something is appended, and removed. -/
theorem c239_changed :
    (appendSet 46 flushed.items [65] [[7], [8]]).2 = .ok 1 ∧ (appendSet 46 flushed.items [65] [[7], [8]]).1.length = 3 ∧ (remOnAllSet 46 flushed.items [65] 0) = ([], .ok true) := by decide +kernel

/-- … and the hypotheses of `c239_append_same`. -/
example : Db.SepOk 46 ∧ Db.Sorted flushed.items ∧ (Db.appendOnIoSetVals 46 flushed.items [65] [[7], [8]]).2 = .ok 1 ∧ 1 ≤ Db.maxON := by
  refine ⟨by unfold Db.SepOk; decide, ?_, by decide +kernel, by decide⟩
  have : flushed.items = [(suffix 46 (onKey 46 [65] 0) 0, [1])] := by decide +kernel
  rw [this]
  simp [Db.Sorted]

/-- … and those of `c239_mended`, with a value added to another set. -/
example : BytesOk [65] ∧ (∀ v ∈ [[7], [8]], BytesOk v) ∧ SetBytes (.add (onKey 46 [65] 0) [5]) ∧
    (setCall 46 (appendSet 46 flushed.items [65] [[7], [8]]).1 (.add (onKey 46 [65] 0) [5])).1 ≠ (appendSet 46 flushed.items [65] [[7], [8]]).1 :=
  ⟨by simp [BytesOk], by simp [BytesOk], ⟨key_bytes, by simp [vals, BytesOk]⟩, by decide +kernel⟩

/-- **Half of an append.** With other keys that begin alike an append runs into keys that are there. On disk nothing is written then; in browsers the values before stay, though the call raises. -/
theorem c239_half_append :
    let k : Bytes := [65]
    let t : Tbl := (setCall 46 (appendSet 46 (appendSet 46 [] k [[1], [2]]).1 (onKey 46 k 5) [[9]]).1 (.remVal (onKey 46 k 0) [1])).1
    (appendSet 46 t k [[3], [4]]).2 = .error .valueError ∧ (appendSet 46 t k [[3], [4]]).1.get (suffix 46 (onKey 46 k 0) 0) = some [3] ∧
    Db.appendOnIoSetVals 46 t k [[3], [4]] = (t, .error .valueError) ∧ t.get (suffix 46 (onKey 46 k 0) 0) = none := by decide +kernel

end Verif.Web.Demo
