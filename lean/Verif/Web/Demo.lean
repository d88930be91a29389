import Verif.Web.PropsKeep
/-! # Cases of the database in browsers, and witnesses of what fails -/

namespace Verif.Web.Demo

open Verif.Db (Bytes Entry Tbl onKey maxON Sorted SepOk)

/-- The separator in use, `.`. -/
abbrev dot : Nat := 46

instance : DecidablePred Fine := fun o => by unfold Fine; cases o <;> infer_instance

/-- Calls of all kinds, those that find something and those that do not. -/
def calls : List Op :=
  [.appendOn [97] [1], .appendOn [97] [2], .appendOn [98] [3], .putOn [97] 1 [9], .pinOn [97] 1 [8], .getOn [97] 1, .itemOn [97] 5, .itemOn [98] 0, .cntOnAll [97] 0, .itemsOn [97] 0, .top [97],
   .remOn [97] 0, .appendOn [97] [4], .remOnAll [97] 2, .cntTop [97], .cntAll, .remTop [98], .remTop [99], .get (onKey dot [97] 1), .rem (onKey dot [97] 1), .put (onKey dot [98] 3) [7], .cntAll]

/-- The hypotheses of `c234_same_partial` are met, with answers that are not all alike. -/
example : SepOk dot ∧ (∀ o ∈ calls, o.key ≠ some [] ∧ o.value ≠ some []) ∧ (∀ a ∈ answers (fun t o => o.lmdb dot t) [] calls, Fine a) ∧
    (answers (fun t o => o.lmdb dot t) [] calls).take 6 = [.num 0, .num 1, .num 0, .bool false, .bool true, .val (some [8])] := by
  refine ⟨by unfold SepOk; decide, ?_, ?_, ?_⟩ <;> decide +kernel

/-- **C234 fails of empty values.** In browsers an empty value is an item; on disk it is taken for none. -/
theorem c234_empty_value :
    answers (fun t o => o.web dot t) [] [.putOn [97] 0 [], .itemOn [97] 0] = [.bool true, .item (some ([97], 0, []))] ∧
    answers (fun t o => o.lmdb dot t) [] [.putOn [97] 0 [], .itemOn [97] 0] = [.bool true, .item none] := by decide +kernel

/-- **C234 fails beside a key without a number.** On disk appending looks at the entry after and raises if that has none; in browsers it is appended. -/
theorem c234_append_neighbour :
    answers (fun t o => o.web dot t) [] [.put [98] [1], .appendOn [97] [2]] = [.bool true, .num 0] ∧
    answers (fun t o => o.lmdb dot t) [] [.put [98] [1], .appendOn [97] [2]] = [.bool true, .raised .valueError] := by decide +kernel

/-! ## What is kept -/

def hist : List Inp :=
  [.openDb false, .call (.put [99] [1]), .call (.appendOn [98] [255, 0]), .flush, .call (.get [99]), .synced, .call (.rem [99]), .flush, .failed, .flush, .synced]

theorem bytes_lit {l : List Nat} (h : l.all (· < 256) = true) : BytesOk l := fun x hx => by simpa using (List.all_eq_true.mp h) x hx

theorem hist_bytes : ∀ i ∈ hist, i.Bytes := by
  intro i hi
  simp only [hist, List.mem_cons, List.not_mem_nil, or_false] at hi
  rcases hi with rfl | rfl | rfl | rfl | rfl | rfl | rfl | rfl | rfl | rfl | rfl <;>
    first
    | trivial
    | exact ⟨fun k h => by cases h; exact bytes_lit rfl, fun v h => by cases h <;> exact bytes_lit rfl⟩

instance calmDec (sep : Nat) : (s : Store) → (is : List Inp) → Decidable (Calm sep s is)
  | _, [] => .isTrue trivial
  | s, i :: is =>
    have := calmDec sep (s.step sep i) is
    inferInstanceAs (Decidable ((s.sync ≠ none → (s.step sep i).items = s.items ∧ (s.step sep i).dup = s.dup) ∧ Calm sep (s.step sep i) is))

/-- The hypotheses of `c235_reopens` and `c235_kept_partial` are met, and something is there. -/
example : (∀ i ∈ hist, i.Bytes) ∧ Calm dot fresh hist ∧ (fresh.run dot hist).dirty = false ∧ (fresh.run dot hist).items.map (·.2) = [[255, 0]] := by
  refine ⟨hist_bytes, ?_, ?_, ?_⟩
  · decide +kernel
  · decide +kernel
  · decide +kernel

/-- The hypotheses of `c235_flushed` are met. -/
example : TblOk (fresh.run dot [.openDb false, .call (.put [99] [1])]).items ∧ (fresh.run dot [.openDb false, .call (.put [99] [1])]).dirty = true ∧
    (fresh.run dot [.openDb false, .call (.put [99] [1])]).sync.isNone = true ∧ Inp.synced ∉ [Inp.call (.rem [99]), .flush] ∧ Inp.failed ∉ [Inp.call (.rem [99]), .flush] := by
  refine ⟨(good_fresh.run (by decide) _ ?_).items, ?_, ?_, ?_, ?_⟩
  · exact fun i hi => hist_bytes i (List.mem_of_mem_take (i := 2) (by simpa [hist] using hi))
  all_goals decide +kernel

/-- A case of `c235_lost`: what is put while the first flush is under way is in memory, and gone when the store is opened again, though it was flushed twice more. -/
theorem c235_lost_case :
    let s := fresh.run dot [.openDb false, .call (.put [97] [1]), .flush, .call (.put [98] [2]), .synced, .flush, .synced, .flush, .synced]
    s.items = [([97], [1]), ([98], [2])] ∧ s.dirty = false ∧ (openStore s.kept).toOption.map (·.items) = some [([97], [1])] := by decide +kernel

/-- A case of `c235_not_cleared`: what was kept is there when the store is opened again. -/
theorem c235_not_cleared_case :
    let s := fresh.run dot [.openDb false, .call (.put [97] [1]), .flush, .synced]
    (flushAll dot (close [s] true).2).length = 0 ∧ (close [s] true).1.map (fun s => (openStore s.kept).toOption.map (·.items)) = [some [([97], [1])]] := by decide +kernel

end Verif.Web.Demo
