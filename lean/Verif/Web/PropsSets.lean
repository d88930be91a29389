import Verif.Web.Sets
import Verif.Web.Props
/-!
# C236: sets in order of insertion in browsers

The specification is that of C37: a map from keys to lists of values without repetition.
-/

namespace Verif.Web

open Verif.Db

theorem nextOf_eq {l : List (Nat × Bytes)} (h : l.Pairwise (fun a b => a.1 < b.1)) : nextOf l = nextIon l := by
  have hgen : ∀ (l : List (Nat × Bytes)) (m : Nat), l.Pairwise (fun a b => a.1 < b.1) → (∀ p ∈ l, m ≤ p.1) →
      l.foldl (fun m p => if p.1 + 1 > m then p.1 + 1 else m) m = (match l.getLast? with
        | none => m
        | some (i, _) => i + 1) := by
    intro l
    induction l with
    | nil => intro m _ _; rfl
    | cons p l ih =>
      intro m h hm
      rw [List.pairwise_cons] at h
      have h1 := hm p (by simp)
      rw [List.foldl_cons, if_pos (by omega), ih (p.1 + 1) h.2 fun q hq => h.1 q hq]
      cases l with
      | nil => rfl
      | cons q l =>
        rw [List.getLast?_cons_cons]
        cases hq : (q :: l).getLast? with
        | none => simp at hq
        | some x => rfl
  exact hgen l 0 h fun p _ => Nat.zero_le _

theorem assignSeq_true (sep : Nat) (key : Bytes) (vs : List Bytes) : ∀ (i : Nat) (t : Tbl), assignSeq sep key i vs t = (putSeq sep key true i vs t).1 := by
  induction vs with
  | nil => intro i t; rfl
  | cons v vs ih =>
    intro i t
    simp only [assignSeq, putSeq, Tbl.put, assign, ih]
    simp

theorem assignSeq_false {sep : Nat} (hs : SepOk sep) {K : Bytes → Prop} {B : Nat} (hB : B ≤ 16 ^ 32) {key : Bytes} (hk : K key) (vs : List Bytes) :
    ∀ (i : Nat) (t : Tbl), WF sep K B t → i + vs.length ≤ B → (∀ p ∈ ents sep key t, p.1 < i) → assignSeq sep key i vs t = (putSeq sep key false i vs t).1 := by
  induction vs with
  | nil => intro i t _ _ _; rfl
  | cons v vs ih =>
    intro i t hw hi hl
    simp only [List.length_cons] at hi
    obtain ⟨h1, h2, h3, _⟩ := insert_ents hs hB hw hk (i := i) (by omega) v hl
    simp only [assignSeq, putSeq, Tbl.put, assign, h1]
    simp only [Option.isSome_none, Bool.false_eq_true, and_false, if_false]
    exact ih (i + 1) _ h2 (by omega) fun p hp => by
      rw [h3] at hp
      rcases List.mem_append.mp hp with hp | hp
      · have := hl p hp; omega
      · simp only [List.mem_singleton] at hp; subst hp; simp

theorem remSet_eq {sep : Nat} {t : Tbl} (h : Sorted t) (k : Bytes) : remSet sep t k = remIoSet sep t k := by
  unfold remSet remIoSet
  split
  · rfl
  · rcases doomed_loop sep k (t.fro (suffix sep k 0)) with ⟨e, h1, h2⟩ | ⟨b, c, h1, h2, h3⟩
    · rw [h1, h2]
    · rw [h2, h3]
      dsimp only
      have hsp : t = t.before (suffix sep k 0) ++ (b ++ c) := by rw [← h1, before_fro]
      generalize t.before (suffix sep k 0) = a at hsp ⊢
      cases hb : b.map (·.1) with
      | nil =>
        rw [List.map_eq_nil_iff] at hb
        subst hb
        simp only [List.nil_append] at hsp
        simp [hsp]
      | cons d ds =>
        dsimp only
        rw [← hb, hsp, delAll_mid (hsp ▸ h)]
        cases b with
        | nil => cases hb
        | cons _ _ => rfl

theorem find_first (sep : Nat) (k val : Bytes) (l : List Entry) :
    (∃ e, findVal sep k val l = .error e ∧ remFirst sep k val l = .error e) ∨
    (findVal sep k val l = .ok none ∧ remFirst sep k val l = .ok (l, false)) ∨
    ∃ a x c, l = a ++ ([x] ++ c) ∧ findVal sep k val l = .ok (some x.1) ∧ remFirst sep k val l = .ok (a ++ c, true) := by
  induction l with
  | nil => exact .inr (.inl ⟨rfl, rfl⟩)
  | cons x l ih =>
    obtain ⟨x, v⟩ := x
    unfold findVal remFirst
    cases unsuffix sep x with
    | error e => exact .inl ⟨e, rfl, rfl⟩
    | ok p =>
      obtain ⟨ck, cn⟩ := p
      dsimp only
      by_cases hc : ck ≠ k
      · rw [if_pos hc, if_pos hc]
        exact .inr (.inl ⟨rfl, rfl⟩)
      · rw [if_neg hc, if_neg hc]
        by_cases hv : v = val
        · rw [if_pos hv, if_pos hv.symm]
          exact .inr (.inr ⟨[], (x, v), l, rfl, rfl, rfl⟩)
        · rw [if_neg hv, if_neg (Ne.symm hv)]
          rcases ih with ⟨e, h1, h2⟩ | ⟨h1, h2⟩ | ⟨a, y, c, h1, h2, h3⟩
          · rw [h1, h2]
            exact .inl ⟨e, rfl, rfl⟩
          · rw [h1, h2]
            exact .inr (.inl ⟨rfl, rfl⟩)
          · rw [h2, h3]
            exact .inr (.inr ⟨(x, v) :: a, y, c, by rw [h1]; rfl, rfl, rfl⟩)

theorem remSetVal_eq {sep : Nat} {t : Tbl} (h : Sorted t) (k val : Bytes) : remSetVal sep t k val = remIoSetVal sep t k val := by
  unfold remSetVal remIoSetVal
  split
  · rfl
  · rcases find_first sep k val (t.fro (suffix sep k 0)) with ⟨e, h1, h2⟩ | ⟨h1, h2⟩ | ⟨a, x, c, h1, h2, h3⟩
    · rw [h1, h2]
    · rw [h1, h2]
      dsimp only
      rw [before_fro]
    · rw [h2, h3]
      dsimp only
      have hsp : t = (t.before (suffix sep k 0) ++ a) ++ ([x] ++ c) := by rw [List.append_assoc, ← h1, before_fro]
      rw [← List.append_assoc]
      generalize t.before (suffix sep k 0) ++ a = a' at hsp ⊢
      rw [hsp]
      have := delAll_mid (a := a') (b := [x]) (c := c) (hsp ▸ h)
      simp only [List.map_cons, List.map_nil] at this
      rw [this]

theorem last_fold (l : List (Nat × Bytes)) : l.foldl (fun _ p => some p.2) none = (l.map (·.2)).getLast? := by
  have hgen : ∀ (l : List (Nat × Bytes)) (m : Option Bytes), l.foldl (fun _ p => some p.2) m = ((l.map (·.2)).getLast?.or m) := by
    intro l
    induction l with
    | nil => intro m; simp
    | cons p l ih =>
      intro m
      rw [List.foldl_cons, ih]
      cases l with
      | nil => simp
      | cons q l =>
        simp only [List.map_cons, List.getLast?_cons_cons]
        cases hq : (q.2 :: l.map (·.2)).getLast? with
        | none => simp at hq
        | some x => rfl
  rw [hgen]
  simp

/-- One call: the answer of the sets, and the relation is kept. -/
theorem set_step {sep : Nat} (hs : SepOk sep) {g : Bytes} {B : Nat} (hg : Guard sep g B) {K : Bytes → Prop} (hn : NoNest sep g K)
    (hne : ∀ k, K k → k ≠ []) {b : Nat} {t : Tbl} {S : Sets} (h : Holds sep K b t S) (o : SetOp) (hk : K o.key) (hb : b + o.size < B) :
    (setCall sep t o).2 = .ok (o.spec S).2 ∧ Holds sep K (b + o.size) (setCall sep t o).1 (o.spec S).1 := by
  have hle := hg.le
  have hwB : WF sep K B t := h.wf.mono (by omega)
  have hscan : ∀ k, K k → scan sep k (t.fro (suffix sep k 0)) = .ok (ents sep k t) := fun k hk => scan_zero hs hg hn hk (by omega) hwB
  have hinc : ∀ k, (ents sep k t).Pairwise (fun a b => a.1 < b.1) := ents_increasing hs hle hwB
  have hlast : ∀ k, ∀ p ∈ ents sep k t, p.1 < nextIon (ents sep k t) := fun k => nextIon_last (hinc k)
  have hnle : ∀ k, nextIon (ents sep k t) ≤ b := fun k => nextIon_le (ents_lt hs h.wf k)
  have heq : o.sepOk sep → setCall sep t o = o.impl sep t := by
    intro hsep
    cases o with
    | put k vs =>
      simp only [SetOp.key] at hk
      simp only [SetOp.size] at hb
      simp only [setCall, SetOp.impl, putSet, putIoSetVals]
      by_cases hc : k = [] ∨ vs = []
      · rw [if_pos hc, if_pos hc]
      · rw [if_neg hc, if_neg hc, hscan k hk]
        dsimp only
        rw [nextOf_eq (hinc k)]
        have hlen : ((oset vs).filter (fun v => decide (v ∉ (ents sep k t).map (·.2)))).length ≤ vs.length :=
          Nat.le_trans (List.length_filter_le _ _) (oset_length vs)
        generalize (oset vs).filter (fun v => decide (v ∉ (ents sep k t).map (·.2))) = new at hlen ⊢
        have hn1 := hnle k
        cases new with
        | nil => rfl
        | cons v new =>
          rw [if_neg (by simp), assignSeq_false hs (B := B) (by omega) hk (v :: new) _ t hwB (by omega) (hlast k)]
          have := (putSeq_ents hs (B := B) (by omega) hk false (v :: new) _ t hwB (by omega) (hlast k)).2.1
          dsimp only
          rw [this]
          rfl
    | add k v =>
      simp only [SetOp.key] at hk
      simp only [SetOp.size] at hb
      simp only [setCall, SetOp.impl, addSet, addIoSetVal]
      rw [if_neg (hne k hk), if_neg (hne k hk), hscan k hk]
      dsimp only
      rw [nextOf_eq (hinc k)]
      have hn1 := hnle k
      have := (insert_ents hs (B := B) (by omega) hwB hk (i := nextIon (ents sep k t)) (by omega) v (hlast k)).1
      split
      · rfl
      · simp [Tbl.put, this, assign]
    | pin k vs =>
      simp only [setCall, SetOp.impl, pinSet, pinIoSetVals]
      by_cases hc : k = [] ∨ vs = []
      · rw [if_pos hc, if_pos hc]
      · rw [if_neg hc, if_neg hc, remSet_eq h.wf.sorted]
        rcases remIoSet sep t k with ⟨t1, r⟩
        cases r with
        | error e => rfl
        | ok r =>
          dsimp only
          rw [assignSeq_true]
          have : (putSeq sep k true 0 (oset vs) t1).2 = true := by
            cases vs with
            | nil => exact absurd (.inr rfl) hc
            | cons v vs => simp [oset, putSeq, Tbl.put]
          rw [this]
    | rem k => simp only [setCall, SetOp.impl, remSet_eq h.wf.sorted]
    | remVal k v => simp only [setCall, SetOp.impl, remSetVal_eq h.wf.sorted]
    | get k => rfl
    | last k =>
      simp only [SetOp.sepOk] at hsep
      subst hsep
      simp only [SetOp.key] at hk
      simp only [setCall, SetOp.impl, lastSet, getIoSetLast]
      rw [if_neg (hne k hk), if_neg (hne k hk), hscan k hk]
      dsimp only
      rw [last_fold]
    | cnt k => rfl
  by_cases ho : o.sepOk sep
  · rw [heq ho]
    exact step_refines hs hg hn hne h o hk ho hb
  · cases o with
    | last k =>
      simp only [SetOp.key] at hk
      simp only [setCall, SetOp.spec, SetOp.size, lastSet]
      rw [if_neg (hne k hk), hscan k hk]
      dsimp only
      rw [last_fold]
      have : (ents sep k t).map (·.2) = S k := h.vals k
      rw [this]
      exact ⟨rfl, h⟩
    | _ => exact absurd trivial ho

/-- **C236 (partial).** From an empty sub-database, under every sequence of calls on keys that are not empty, none of which is another one followed by the separator and `0`, and with fewer than 16^31
values in total, every answer is the one of abstract sets in order of insertion and no call raises. Missing: keys that are other keys followed by the separator and `0` (`c236_nested_keys`). -/
theorem c236_refines_partial {sep : Nat} (hs : SepOk sep) (os : List SetOp) (hne : ∀ o ∈ os, o.key ≠ []) (hap : Apart37 sep os) (hsize : (os.map SetOp.size).sum < 16 ^ 31) :
    setAnswers sep [] os = (specRun (fun _ => []) os).map .ok := by
  have hrun : ∀ {g : Bytes} {B : Nat}, Guard sep g B → ∀ {K : Bytes → Prop}, NoNest sep g K → (∀ k, K k → k ≠ []) → ∀ (os : List SetOp) {b : Nat} {t : Tbl} {S : Sets}, Holds sep K b t S →
      (∀ o ∈ os, K o.key) → b + (os.map SetOp.size).sum < B → setAnswers sep t os = (specRun S os).map .ok := by
    intro g B hg K hn hne os
    induction os with
    | nil => intros; rfl
    | cons o os ih =>
      intro b t S h hk hb
      simp only [List.map_cons, List.sum_cons] at hb
      obtain ⟨h1, h2⟩ := set_step hs hg hn hne h o (hk o (by simp)) (by omega)
      simp only [setAnswers, specRun, List.map_cons]
      rw [h1, ih h2 (fun o ho => hk o (by simp [ho])) (by omega)]
  refine hrun (guard_zero hs) (K := fun k => ∃ o ∈ os, o.key = k) ?_ ?_ os (b := 0) ⟨⟨List.Pairwise.nil, by simp⟩, fun _ => rfl, fun _ => List.nodup_nil⟩
    (fun o ho => ⟨o, ho, rfl⟩) (by omega)
  · rintro k k' ⟨o, ho, rfl⟩ ⟨o', ho', rfl⟩
    exact hap o ho o' ho'
  · rintro k ⟨o, ho, rfl⟩
    exact hne o ho

/-- C236: with the separator that is used by default, answers in browsers are those on disk. -/
theorem c236_same_partial {sep : Nat} (hs : SepOk sep) (os : List SetOp) (hne : ∀ o ∈ os, o.key ≠ []) (hap : Apart37 sep os) (hsep : ∀ o ∈ os, o.sepOk sep)
    (hsize : (os.map SetOp.size).sum < 16 ^ 31) : setAnswers sep [] os = implRun sep [] os :=
  (c236_refines_partial hs os hne hap hsize).trans (c37_refines_partial hs os hne hap hsep hsize).symm

end Verif.Web
