import Verif.Db.IoSetWrite

/-!
# C37: insertion-ordered sets

Specification: a map from keys to lists of values without repetition (`Sets`), with the operations below.  The theorem says
that the database functions and the specification give the same answers, and never raise, under every sequence of operations.
-/

namespace Verif.Db

/-- Operations of a user of `LMDBer`'s ioset functions. -/
inductive SetOp where
  | put (k : Bytes) (vs : List Bytes)
  | add (k v : Bytes)
  | pin (k : Bytes) (vs : List Bytes)
  | rem (k : Bytes)
  | remVal (k v : Bytes)
  | get (k : Bytes)
  | last (k : Bytes)
  | cnt (k : Bytes)

/-- Answers. -/
inductive SetOut where
  | bool (b : Bool)
  | vals (l : List Bytes)
  | val (o : Option Bytes)
  | num (n : Nat)
  deriving DecidableEq

/-! ## Specification -/

/-- Contents of all keys. -/
abbrev Sets := Bytes → List Bytes

def Sets.set (S : Sets) (k : Bytes) (l : List Bytes) : Sets := fun x => if x = k then l else S x

/-- Add at the end unless present. -/
def addEnd (l : List Bytes) (v : Bytes) : List Bytes := if v ∈ l then l else l ++ [v]

/-- One operation on the abstract sets. -/
def SetOp.spec (S : Sets) : SetOp → Sets × SetOut
  | .put k vs => (S.set k (vs.foldl addEnd (S k)), .bool (vs.any (fun v => decide (v ∉ S k))))
  | .add k v => (S.set k (addEnd (S k) v), .bool (decide (v ∉ S k)))
  | .pin k vs => if vs = [] then (S, .bool false) else (S.set k (vs.foldl addEnd []), .bool true)
  | .rem k => (S.set k [], .bool (!(S k).isEmpty))
  | .remVal k v => (S.set k ((S k).filter (fun w => decide (w ≠ v))), .bool (decide (v ∈ S k)))
  | .get k => (S, .vals (S k))
  | .last k => (S, .val (S k).getLast?)
  | .cnt k => (S, .num (S k).length)

/-- A sequence of operations and its answers. -/
def specRun (S : Sets) : List SetOp → List SetOut
  | [] => []
  | o :: os => (o.spec S).2 :: specRun (o.spec S).1 os

/-! ## Implementation -/

/-- One operation on the database table. -/
def SetOp.impl (sep : Nat) (t : Tbl) : SetOp → Tbl × Except Err SetOut
  | .put k vs => let (t', r) := putIoSetVals sep t k vs; (t', r.map .bool)
  | .add k v => let (t', r) := addIoSetVal sep t k v; (t', r.map .bool)
  | .pin k vs => let (t', r) := pinIoSetVals sep t k vs; (t', r.map .bool)
  | .rem k => let (t', r) := remIoSet sep t k; (t', r.map .bool)
  | .remVal k v => let (t', r) := remIoSetVal sep t k v; (t', r.map .bool)
  | .get k => (t, (getIoSet sep t k 0).map .vals)
  | .last k => (t, (getIoSetLast sep t k).map .val)
  | .cnt k => (t, (cntIoSet sep t k 0).map .num)

def implRun (sep : Nat) (t : Tbl) : List SetOp → List (Except Err SetOut)
  | [] => []
  | o :: os => (o.impl sep t).2 :: implRun sep (o.impl sep t).1 os

/-- Key of an operation. -/
def SetOp.key : SetOp → Bytes
  | .put k _ | .add k _ | .pin k _ | .rem k | .remVal k _ | .get k | .last k | .cnt k => k

/-- Number of values written. -/
def SetOp.size : SetOp → Nat
  | .put _ vs | .pin _ vs => vs.length
  | .add _ _ => 1
  | _ => 0

/-- `getIoSetLastItem` is used with the default separator. -/
def SetOp.sepOk (sep : Nat) : SetOp → Prop
  | .last _ => sep = 46
  | _ => True

/-! ## Refinement -/

/-- The table holds the sets `S`. -/
structure Holds (sep : Nat) (K : Bytes → Prop) (b : Nat) (t : Tbl) (S : Sets) : Prop where
  wf : WF sep K b t
  vals : ∀ k, valsAt sep k t = S k
  nodup : ∀ k, (S k).Nodup

theorem mem_oset {v : Bytes} {vs : List Bytes} : v ∈ oset vs ↔ v ∈ vs := by
  induction vs with
  | nil => simp [oset]
  | cons w vs ih =>
    simp only [oset, List.mem_cons, List.mem_filter, ih, decide_eq_true_eq]
    constructor
    · rintro (h | ⟨h, _⟩) <;> simp [h]
    · intro h
      by_cases hw : v = w
      · exact .inl hw
      · exact .inr ⟨h.resolve_left hw, hw⟩

theorem oset_length (vs : List Bytes) : (oset vs).length ≤ vs.length := by
  induction vs with
  | nil => simp [oset]
  | cons w vs ih =>
    have := List.length_filter_le (fun x => decide (x ≠ w)) (oset vs)
    simp only [oset, List.length_cons]; omega

theorem foldl_addEnd (vs : List Bytes) : ∀ l : List Bytes, vs.foldl addEnd l = l ++ (oset vs).filter (fun v => decide (v ∉ l)) := by
  induction vs with
  | nil => intro l; simp [oset]
  | cons w vs ih =>
    intro l
    rw [List.foldl_cons, ih]
    rw [show oset (w :: vs) = w :: (oset vs).filter (fun x => decide (x ≠ w)) from rfl]
    unfold addEnd
    by_cases hw : w ∈ l
    · rw [if_pos hw, List.filter_cons_of_neg (by simpa using hw), List.filter_filter]
      congr 1
      apply List.filter_congr
      intro x _
      by_cases hx : x ∈ l
      · simp [hx]
      · have : x ≠ w := fun h => hx (h ▸ hw)
        simp [hx, this]
    · rw [if_neg hw, List.filter_cons_of_pos (by simpa using hw), List.filter_filter]
      rw [List.append_assoc]
      congr 1
      simp only [List.singleton_append]
      congr 1
      apply List.filter_congr
      intro x _
      simp [not_or, Bool.and_comm]

theorem addEnd_nodup {l : List Bytes} (h : l.Nodup) (v : Bytes) : (addEnd l v).Nodup := by
  unfold addEnd
  split
  · exact h
  · rename_i hv
    refine List.nodup_append.2 ⟨h, by simp, ?_⟩
    intro a ha b hb hab
    simp at hb; subst hb; subst hab; exact hv ha

theorem foldl_addEnd_nodup (vs : List Bytes) : ∀ {l : List Bytes}, l.Nodup → (vs.foldl addEnd l).Nodup := by
  induction vs with
  | nil => intro l h; exact h
  | cons w vs ih => intro l h; exact ih (addEnd_nodup h w)

theorem Holds.set {sep : Nat} {K : Bytes → Prop} {b b' : Nat} {t t' : Tbl} {S : Sets} (h : Holds sep K b t S) {k : Bytes} {l : List Bytes}
    (hw : WF sep K b' t') (hv : valsAt sep k t' = l) (ho : ∀ x, x ≠ k → ents sep x t' = ents sep x t) (hn : l.Nodup) :
    Holds sep K b' t' (S.set k l) := by
  refine ⟨hw, ?_, ?_⟩
  · intro x
    unfold Sets.set
    by_cases hx : x = k
    · rw [if_pos hx, hx]; exact hv
    · rw [if_neg hx]; unfold valsAt; rw [ho x hx]; exact h.vals x
  · intro x
    unfold Sets.set
    by_cases hx : x = k
    · rw [if_pos hx]; exact hn
    · rw [if_neg hx]; exact h.nodup x

/-- One step: same answer, and the relation is kept. -/
theorem step_refines {sep : Nat} (hs : SepOk sep) {g : Bytes} {B : Nat} (hg : Guard sep g B) {K : Bytes → Prop} (hn : NoNest sep g K)
    (hne : ∀ k, K k → k ≠ []) {b : Nat} {t : Tbl} {S : Sets} (h : Holds sep K b t S) (o : SetOp) (hk : K o.key) (hsep : o.sepOk sep)
    (hb : b + o.size < B) :
    (o.impl sep t).2 = .ok (o.spec S).2 ∧ Holds sep K (b + o.size) (o.impl sep t).1 (o.spec S).1 := by
  have hle := hg.le
  have hwB : WF sep K B t := h.wf.mono (by omega)
  have hscan : ∀ k, K k → scan sep k (t.fro (suffix sep k 0)) = .ok (ents sep k t) := fun k hk => scan_zero hs hg hn hk (by omega) hwB
  have hinc : ∀ k, (ents sep k t).Pairwise (fun a b => a.1 < b.1) := ents_increasing hs hle hwB
  have hlast : ∀ k, ∀ p ∈ ents sep k t, p.1 < nextIon (ents sep k t) := fun k => nextIon_last (hinc k)
  have hnle : ∀ k, nextIon (ents sep k t) ≤ b := fun k => nextIon_le (ents_lt hs h.wf k)
  have hv : ∀ k, (ents sep k t).map (·.2) = S k := h.vals
  have hmk : ∀ k l, K k → l.Nodup → valsAt sep k t = l → Holds sep K b t (S.set k l) := fun k l _ hn hl => h.set h.wf hl (fun _ _ => rfl) hn
  cases o with
  | put k vs =>
    simp only [SetOp.key] at hk
    simp only [SetOp.size] at hb
    simp only [SetOp.impl, SetOp.spec, SetOp.size, putIoSetVals]
    by_cases hvs : vs = []
    · subst hvs
      rw [if_pos (.inr rfl)]
      refine ⟨rfl, ?_⟩
      exact hmk k _ hk (h.nodup k) (h.vals k)
    · rw [if_neg (by simp [hne k hk, hvs]), hscan k hk]
      simp only
      rw [hv k]
      have hlen : ((oset vs).filter (fun v => decide (v ∉ S k))).length ≤ vs.length :=
        Nat.le_trans (List.length_filter_le _ _) (oset_length vs)
      have hn1 := hnle k
      obtain ⟨h1, h2, h3, h4⟩ := putSeq_ents hs (B := b + vs.length) (by omega) hk false ((oset vs).filter (fun v => decide (v ∉ S k)))
        (nextIon (ents sep k t)) t (h.wf.mono (by omega)) (by omega) (hlast k)
      refine ⟨?_, h.set h1 ?_ h4 (foldl_addEnd_nodup vs (h.nodup k))⟩
      · show Except.ok (SetOut.bool _) = _
        rw [h2]
        congr 2
        rw [Bool.eq_iff_iff]
        simp only [Bool.not_eq_true', List.isEmpty_eq_false_iff, List.any_eq_true, decide_eq_true_eq]
        constructor
        · intro hq
          obtain ⟨x, hx⟩ := List.exists_mem_of_ne_nil _ hq
          simp only [List.mem_filter, mem_oset, decide_eq_true_eq] at hx
          exact ⟨x, hx⟩
        · rintro ⟨x, hx⟩ hq
          have : x ∈ (oset vs).filter (fun v => decide (v ∉ S k)) := by simp [mem_oset, hx.1, hx.2]
          rw [hq] at this; simp at this
      · rw [h3, h.vals k, foldl_addEnd]
  | add k v =>
    simp only [SetOp.key] at hk
    simp only [SetOp.size] at hb
    simp only [SetOp.impl, SetOp.spec, SetOp.size, addIoSetVal]
    rw [if_neg (hne k hk), hscan k hk]
    simp only
    rw [hv k]
    by_cases hm : v ∈ S k
    · rw [if_pos hm]
      refine ⟨by simp [hm, Except.map], ?_⟩
      unfold addEnd; rw [if_pos hm]
      exact h.set (h.wf.mono (by omega)) (h.vals k) (fun _ _ => rfl) (h.nodup k)
    · rw [if_neg hm]
      have hn1 := hnle k
      obtain ⟨h1, h2, h3, h4⟩ := insert_ents hs (B := b + 1) (by omega) (h.wf.mono (by omega)) hk (i := nextIon (ents sep k t)) (by omega) v (hlast k)
      have hp : t.put (suffix sep k (nextIon (ents sep k t))) v false = (t.insert (suffix sep k (nextIon (ents sep k t))) v, true) := by
        unfold Tbl.put; rw [h1]; simp
      rw [hp]
      refine ⟨by simp [hm, Except.map], ?_⟩
      refine h.set h2 ?_ h4 (addEnd_nodup (h.nodup k) v)
      unfold valsAt addEnd; rw [h3, if_neg hm, ← hv k]; simp
  | pin k vs =>
    simp only [SetOp.key] at hk
    simp only [SetOp.size] at hb
    simp only [SetOp.impl, SetOp.spec, SetOp.size, pinIoSetVals]
    by_cases hvs : vs = []
    · subst hvs
      rw [if_pos (.inr rfl), if_pos rfl]
      exact ⟨rfl, h⟩
    · rw [if_neg (by simp [hne k hk, hvs]), if_neg hvs, remIoSet_eq hs hg hn hk (hne k hk) (by omega) hwB]
      obtain ⟨r1, r2⟩ := removed_ents hs hwB k
      have hw' : WF sep K b (t.filter (fun e => (ent sep k e).isNone)) := h.wf.sublist List.filter_sublist
      have hlen := oset_length vs
      obtain ⟨h1, h2, h3, h4⟩ := putSeq_ents hs (B := b + vs.length) (by omega) hk true (oset vs) 0 _ (hw'.mono (by omega)) (by omega)
        (by rw [r1]; simp)
      refine ⟨?_, h.set h1 ?_ (fun x hx => (h4 x hx).trans (r2 x hx)) (foldl_addEnd_nodup vs List.nodup_nil)⟩
      · show Except.ok (SetOut.bool _) = _
        rw [h2]
        cases vs with
        | nil => exact absurd rfl hvs
        | cons w vs => rfl
      · rw [h3, foldl_addEnd]
        unfold valsAt; rw [r1]
        simp [List.filter_eq_self.2]
  | rem k =>
    simp only [SetOp.key] at hk
    simp only [SetOp.impl, SetOp.spec, SetOp.size]
    rw [remIoSet_eq hs hg hn hk (hne k hk) (by omega) hwB]
    obtain ⟨r1, r2⟩ := removed_ents hs hwB k
    refine ⟨?_, h.set (h.wf.sublist List.filter_sublist) (by unfold valsAt; rw [r1]; rfl) r2 List.nodup_nil⟩
    show Except.ok (SetOut.bool _) = _
    rw [← hv k]; simp
  | remVal k v =>
    simp only [SetOp.key] at hk
    simp only [SetOp.impl, SetOp.spec, SetOp.size]
    obtain ⟨r, h1, h2, h3, h4⟩ := remIoSetVal_eq hs hg hn hk (hne k hk) v (by omega) hwB
    rw [h1]
    refine ⟨?_, h.set (h.wf.sublist h2) ?_ h4 ((h.nodup k).sublist List.filter_sublist)⟩
    · show Except.ok (SetOut.bool _) = _
      rw [h.vals k]
    · rw [h3, h.vals k, (h.nodup k).erase_eq_filter]
      apply List.filter_congr
      intro x _
      by_cases hx : x = v <;> simp [hx]
  | get k =>
    simp only [SetOp.key] at hk
    simp only [SetOp.impl, SetOp.spec, SetOp.size, getIoSet]
    rw [if_neg (hne k hk), hscan k hk]
    exact ⟨by simp [hv k, Except.map], h⟩
  | last k =>
    simp only [SetOp.key] at hk
    simp only [SetOp.sepOk] at hsep
    subst hsep
    simp only [SetOp.impl, SetOp.spec, SetOp.size, getIoSetLast]
    rw [if_neg (hne k hk), hscan k hk]
    exact ⟨by simp [hv k, Except.map], h⟩
  | cnt k =>
    simp only [SetOp.key] at hk
    simp only [SetOp.impl, SetOp.spec, SetOp.size, cntIoSet]
    rw [if_neg (hne k hk), hscan k hk]
    exact ⟨by simp [← hv k, Except.map], h⟩

theorem runs_agree {sep : Nat} (hs : SepOk sep) {g : Bytes} {B : Nat} (hg : Guard sep g B) {K : Bytes → Prop} (hn : NoNest sep g K)
    (hne : ∀ k, K k → k ≠ []) (os : List SetOp) : ∀ {b : Nat} {t : Tbl} {S : Sets}, Holds sep K b t S →
    (∀ o ∈ os, K o.key ∧ o.sepOk sep) → b + (os.map SetOp.size).sum < B → implRun sep t os = (specRun S os).map .ok := by
  induction os with
  | nil => intros; rfl
  | cons o os ih =>
    intro b t S h hk hb
    simp only [List.map_cons, List.sum_cons] at hb
    obtain ⟨h1, h2⟩ := step_refines hs hg hn hne h o (hk o (by simp)).1 (hk o (by simp)).2 (by omega)
    simp only [implRun, specRun, List.map_cons]
    rw [h1, ih h2 (fun o ho => hk o (by simp [ho])) (by omega)]

/-- No key of the operations is another one continued by the separator and `0`. -/
def Apart37 (sep : Nat) (os : List SetOp) : Prop := ∀ o ∈ os, ∀ o' ∈ os, ¬ (o.key ++ [sep, 48]) <+: o'.key

/-- **C37 (partial).** From an empty sub-database, under every sequence of put, add, pin, remove and read operations on non-empty
keys, none of which is another one followed by the separator and `0`, and with fewer than 16^31 values in total, every answer
is the one of abstract insertion-ordered sets and no operation raises.  Missing: keys that are other keys followed by a
separator and `0`, for which the statement is false (`c37_nested_keys`). -/
theorem c37_refines_partial {sep : Nat} (hs : SepOk sep) (os : List SetOp) (hne : ∀ o ∈ os, o.key ≠ []) (hap : Apart37 sep os)
    (hsep : ∀ o ∈ os, o.sepOk sep) (hsize : (os.map SetOp.size).sum < 16 ^ 31) :
    implRun sep [] os = (specRun (fun _ => []) os).map .ok := by
  refine runs_agree hs (guard_zero hs) (K := fun k => ∃ o ∈ os, o.key = k) ?_ ?_ os (b := 0) ⟨⟨List.Pairwise.nil, by simp⟩, fun _ => rfl, fun _ => List.nodup_nil⟩
    (fun o ho => ⟨⟨o, ho, rfl⟩, hsep o ho⟩) (by omega)
  · rintro k k' ⟨o, ho, rfl⟩ ⟨o', ho', rfl⟩
    exact hap o ho o' ho'
  · rintro k ⟨o, ho, rfl⟩
    exact hne o ho

/-- The specification keeps each key to itself: no operation changes another key's values. -/
theorem c37_spec_local (S : Sets) (o : SetOp) (k : Bytes) (h : k ≠ o.key) : (o.spec S).1 k = S k := by
  cases o <;> simp only [SetOp.key] at h <;> simp only [SetOp.spec] <;> (try split) <;> simp [Sets.set, h]

/-- **C37 fails for nested keys.** With the keys `A` and `A.00000000000000000000000000000000`, an addition under the second
hides the later values of the first: the value `2` added to `A` is not read, and the value `3` is refused as if it were there. -/
theorem c37_nested_keys :
    let k : Bytes := [65]
    let k' : Bytes := suffix 46 k 0
    implRun 46 [] [.add k [1], .add k' [9], .add k [2], .add k [3], .get k] =
      [.ok (.bool true), .ok (.bool true), .ok (.bool true), .ok (.bool false), .ok (.vals [[1]])] := by decide +kernel

namespace Demo37
def ops : List SetOp := [.put [65] [[1], [2], [1]], .add [66] [7], .add [65] [3], .remVal [65] [2], .pin [66] [[8], [8], [9]], .put [65] [[2], [1]],
  .get [65], .last [66], .cnt [65], .rem [66], .get [66]]
/-- The hypotheses of the refinement hold of a mixed run on two keys … -/
example : SepOk 46 ∧ (∀ o ∈ ops, o.key ≠ []) ∧ Apart37 46 ops ∧ (∀ o ∈ ops, o.sepOk 46) ∧ (ops.map SetOp.size).sum < 16 ^ 31 := by
  refine ⟨by unfold SepOk; decide, by decide, ?_, ?_, by decide⟩
  · unfold Apart37; decide
  · intro o ho
    simp only [ops, List.mem_cons, List.not_mem_nil, or_false] at ho
    rcases ho with rfl | rfl | rfl | rfl | rfl | rfl | rfl | rfl | rfl | rfl | rfl <;> simp [SetOp.sepOk]
/-- … whose answers are these. -/
example : specRun (fun _ => []) ops = [.bool true, .bool true, .bool true, .bool true, .bool true, .bool true,
  .vals [[1], [3], [2]], .val (some [9]), .num 3, .bool true, .vals []] := by decide +kernel
end Demo37

end Verif.Db
