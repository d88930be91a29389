import Verif.Web.OnSets
import Verif.Web.PropsKeep
import Verif.Db.PropsBack
/-! # C239: what the database in browsers keeps of sets -/

namespace Verif.Web

open Verif.Db (Bytes Entry Tbl suffix split2 onKey maxON SetOp SetOut oset Sorted)

/-- C239: a call for sets that changes anything answers with True, whereupon the store is marked. -/
theorem c239_marked (sep : Nat) (t : Tbl) (o : SetOp) : (setCall sep t o).1 = t ∨ (setCall sep t o).2 = .ok (.bool true) := by
  have hrem : ∀ k, (remSet sep t k).1 = t ∨ (remSet sep t k).2 = .ok true := by
    intro k
    unfold remSet
    split
    · exact .inl rfl
    · split
      · exact .inl rfl
      · exact .inl rfl
      · exact .inr rfl
  have hlift : ∀ (q : Tbl × Except Err Bool), (q.1 = t ∨ q.2 = .ok true) → (q.1 = t ∨ q.2.map SetOut.bool = .ok (.bool true)) := by
    rintro ⟨a, b⟩ (h | h)
    · exact .inl h
    · right; dsimp only at h ⊢; rw [h]; rfl
  cases o with
  | put k vs =>
    refine hlift (putSet sep t k vs) ?_
    unfold putSet
    split
    · exact .inl rfl
    · split
      · exact .inl rfl
      · dsimp only
        split
        · exact .inl rfl
        · exact .inr rfl
  | add k v =>
    refine hlift (addSet sep t k v) ?_
    unfold addSet
    split
    · exact .inl rfl
    · split
      · exact .inl rfl
      · split
        · exact .inl rfl
        · exact .inr rfl
  | pin k vs =>
    refine hlift (pinSet sep t k vs) ?_
    unfold pinSet
    split
    · exact .inl rfl
    · have := hrem k
      split
      · rename_i h; rw [h] at this
        rcases this with h | h
        · exact .inl h
        · cases h
      · exact .inr rfl
  | rem k => exact hlift _ (hrem k)
  | remVal k v =>
    refine hlift (remSetVal sep t k v) ?_
    unfold remSetVal
    split
    · exact .inl rfl
    · split
      · exact .inl rfl
      · exact .inl rfl
      · exact .inr rfl
  | get k => exact .inl rfl
  | last k => exact .inl rfl
  | cnt k => exact .inl rfl

theorem suffix_ok {sep : Nat} (hsep : sep < 256) {k : Bytes} (hk : BytesOk k) (n : Nat) : BytesOk (suffix sep k n) := onKey_ok hsep hk n

theorem assign_ok {t : Tbl} (h : TblOk t) {k v : Bytes} (hk : BytesOk k) (hv : BytesOk v) : TblOk (assign t k v) := by
  refine ⟨(Db.sorted_insert h.1 k v).1, fun e he => ?_⟩
  rcases (Db.mem_insert_iff h.1 k v e).mp he with he | he
  · rw [he]; exact ⟨hk, hv⟩
  · exact h.2 e he.1

theorem delAll_ok {t : Tbl} (h : TblOk t) (ds : List Bytes) : TblOk (delAll t ds) :=
  ⟨h.1.sublist List.filter_sublist, fun e he => h.2 e (List.mem_filter.mp he).1⟩

theorem assignSeq_ok {sep : Nat} (hsep : sep < 256) {k : Bytes} (hk : BytesOk k) (vs : List Bytes) (hv : ∀ v ∈ vs, BytesOk v) :
    ∀ (i : Nat) (t : Tbl), TblOk t → TblOk (assignSeq sep k i vs t) := by
  induction vs with
  | nil => intro i t h; exact h
  | cons v vs ih =>
    intro i t h
    exact ih (fun w hw => hv w (by simp [hw])) (i + 1) _ (assign_ok h (suffix_ok hsep hk i) (hv v (by simp)))

/-- The values that a call writes. -/
def vals : SetOp → List Bytes
  | .put _ vs | .pin _ vs => vs
  | .add _ v => [v]
  | _ => []

/-- The arguments of a call are bytes. -/
def SetBytes (o : SetOp) : Prop := BytesOk o.key ∧ ∀ v ∈ vals o, BytesOk v

theorem setCall_ok {sep : Nat} (hsep : sep < 256) {t : Tbl} (h : TblOk t) {o : SetOp} (ho : SetBytes o) : TblOk (setCall sep t o).1 := by
  have hrem : ∀ k, TblOk (remSet sep t k).1 := by
    intro k
    unfold remSet
    split
    · exact h
    · split
      · exact h
      · exact h
      · exact delAll_ok h _
  obtain ⟨hk, hv⟩ := ho
  cases o with
  | put k vs =>
    show TblOk (putSet sep t k vs).1
    unfold putSet
    split
    · exact h
    · split
      · exact h
      · dsimp only
        split
        · exact h
        · exact assignSeq_ok hsep hk _ (fun v hv' => hv v (Db.mem_oset.mp (List.mem_filter.mp hv').1)) _ _ h
  | add k v =>
    show TblOk (addSet sep t k v).1
    unfold addSet
    split
    · exact h
    · split
      · exact h
      · split
        · exact h
        · exact assign_ok h (suffix_ok hsep hk _) (hv v (by simp [vals]))
  | pin k vs =>
    show TblOk (pinSet sep t k vs).1
    unfold pinSet
    have := hrem k
    split
    · exact h
    · split
      · rename_i h'; rw [h'] at this; exact this
      · rename_i h'; rw [h'] at this
        exact assignSeq_ok hsep hk _ (fun v hv' => hv v (Db.mem_oset.mp hv')) _ _ this
  | rem k => exact hrem k
  | remVal k v =>
    show TblOk (remSetVal sep t k v).1
    unfold remSetVal
    split
    · exact h
    · split
      · exact h
      · exact h
      · exact delAll_ok h _
  | get k => exact h
  | last k => exact h
  | cnt k => exact h

/-- What happens in a history is with bytes. -/
def SInp.Bytes : SInp → Prop
  | .base i => i.Bytes
  | .set o => SetBytes o
  | _ => True

/-- Neither appended to nor removed from some number on. -/
def SInp.marked : SInp → Bool
  | .append _ _ | .remAll _ _ => false
  | _ => true

/-- Nothing is changed between start and end of a flush. -/
def CalmS (sep : Nat) : Store → List SInp → Prop
  | _, [] => True
  | s, i :: is => (s.sync ≠ none → (s.stepS sep i).items = s.items ∧ (s.stepS sep i).dup = s.dup) ∧ CalmS sep (s.stepS sep i) is

theorem Good.stepS {sep : Nat} (hsep : sep < 256) {s : Store} (h : Good s) {i : SInp} (hi : i.Bytes) (hm : i.marked = true) : Good (s.stepS sep i) := by
  cases i with
  | base i => exact h.step hsep hi
  | set o => exact ⟨setCall_ok hsep h.items hi, h.kept, h.sync⟩
  | append k vs => cases hm
  | remAll k n => cases hm

theorem Kpt.stepS {sep : Nat} {s : Store} (h : Kpt s) {i : SInp} (hm : i.marked = true) (hc : s.sync ≠ none → (s.stepS sep i).items = s.items ∧ (s.stepS sep i).dup = s.dup) :
    Kpt (s.stepS sep i) := by
  cases i with
  | base i => exact h.step hc
  | set o =>
    refine ⟨fun k hk => ?_, fun hd => ?_⟩
    · have hk' : s.sync = some k := hk
      have := hc (by rw [hk']; simp)
      rw [h.sync k hk', this.1, this.2]
    · simp only [Store.stepS, Bool.or_eq_false_iff, decide_eq_false_iff_not] at hd
      have hit : (setCall sep s.items o).1 = s.items := (c239_marked sep s.items o).resolve_right hd.2
      obtain ⟨h1, h2⟩ := h.clean hd.1
      refine ⟨h1, ?_⟩
      simp only [Store.stepS, hit]
      exact h2
  | append k vs => cases hm
  | remAll k n => cases hm

/-- C239, if sets at numbered keys are neither appended nor removed from some number on, and nothing is changed while a flush is under way: a store that is not marked is kept, so that opening it again gives
what there is. -/
theorem c239_kept_partial {sep : Nat} (hsep : sep < 256) (is : List SInp) (hi : ∀ i ∈ is, i.Bytes) (hm : ∀ i ∈ is, i.marked = true) (hc : CalmS sep fresh is)
    (hd : (fresh.runS sep is).dirty = false) : ∃ s', openStore (fresh.runS sep is).kept = .ok s' ∧ s'.items = (fresh.runS sep is).items ∧ s'.dup = (fresh.runS sep is).dup := by
  have hk : ∀ (is : List SInp) (s : Store), (∀ i ∈ is, i.Bytes) → (∀ i ∈ is, i.marked = true) → Good s → Kpt s → CalmS sep s is → Good (s.runS sep is) ∧ Kpt (s.runS sep is) := by
    intro is
    induction is with
    | nil => intro s _ _ hg h _; exact ⟨hg, h⟩
    | cons i is ih =>
      intro s hb hm hg h hc
      exact ih _ (fun j hj => hb j (by simp [hj])) (fun j hj => hm j (by simp [hj])) (hg.stepS hsep (hb i (by simp)) (hm i (by simp))) (h.stepS (hm i (by simp)) hc.1) hc.2
  obtain ⟨hg, hk⟩ := hk is fresh hi hm good_fresh ⟨fun k hk => (by cases hk), fun _ => ⟨rfl, .inr ⟨rfl, rfl, rfl⟩⟩⟩ hc
  rcases (hk.clean hd).2 with h | ⟨h, h1, h2⟩
  · rw [h, open_pack hg.items]
    exact ⟨_, rfl, rfl, rfl⟩
  · rw [h, h1, h2]
    exact ⟨_, fresh_open, rfl, rfl⟩

/-- Flushes of a store that is not marked do nothing. -/
theorem idle {sep : Nat} (later : List SInp) : ∀ (u : Store), (∀ i ∈ later, i = .base .flush ∨ i = .base .synced ∨ i = .base .failed) → u.dirty = false → u.sync = none → u.runS sep later = u := by
  induction later with
  | nil => intro u _ _ _; rfl
  | cons i later ih =>
    intro u hl h1 h2
    have : u.stepS sep i = u := by
      rcases hl i (by simp) with rfl | rfl | rfl
      · simp [Store.stepS, Store.step, h1, h2]
      · simp [Store.stepS, Store.step, h2]
      · cases u; simp only at h2; simp only [Store.stepS, Store.step, h2]
    show (u.stepS sep i).runS sep later = u
    rw [this]
    exact ih u (fun j hj => hl j (by simp [hj])) h1 h2

/-- **C239 fails of appending.** Whatever is appended to a store that has been flushed, and however often it is flushed afterwards: opening it again gives what there was before. -/
theorem c239_append_lost {sep : Nat} {s : Store} (h : TblOk s.items) (hd : s.dirty = false) (hn : s.sync = none) (hk : s.kept = ⟨pack s.items, some s.dup⟩) (k : Bytes) (vs : List Bytes)
    (later : List SInp) (hl : ∀ i ∈ later, i = .base .flush ∨ i = .base .synced ∨ i = .base .failed) :
    (s.runS sep (.append k vs :: later)).items = (appendSet sep s.items k vs).1 ∧ ∃ s', openStore (s.runS sep (.append k vs :: later)).kept = .ok s' ∧ s'.items = s.items := by
  have h1 : s.runS sep (.append k vs :: later) = s.stepS sep (.append k vs) := idle later (s.stepS sep (.append k vs)) hl hd hn
  rw [h1]
  refine ⟨rfl, ?_⟩
  simp only [Store.stepS]
  rw [hk]
  exact ⟨_, open_pack h _, rfl⟩

theorem assignNew_ok {sep : Nat} (hsep : sep < 256) {k : Bytes} (hk : BytesOk k) (vs : List Bytes) (hv : ∀ v ∈ vs, BytesOk v) :
    ∀ (i : Nat) (t : Tbl), TblOk t → TblOk (assignNew sep k i vs t).1 := by
  induction vs with
  | nil => intro i t h; exact h
  | cons v vs ih =>
    intro i t h
    unfold assignNew
    split
    · exact h
    · exact ih (fun w hw => hv w (by simp [hw])) (i + 1) _ (assign_ok h (suffix_ok hsep hk i) (hv v (by simp)))

theorem appendSet_ok {sep : Nat} (hsep : sep < 256) {t : Tbl} (h : TblOk t) {k : Bytes} (hk : BytesOk k) {vs : List Bytes} (hv : ∀ v ∈ vs, BytesOk v) : TblOk (appendSet sep t k vs).1 := by
  unfold appendSet
  split
  · exact h
  · split
    · exact h
    · rename_i on _
      have := assignNew_ok hsep (onKey_ok hsep hk on) vs hv 0 t h
      split
      · rename_i h'; rw [h'] at this; exact this
      · rename_i h'; rw [h'] at this; exact this

/-- C239: what was appended is kept once another call for a set that changes something is flushed. -/
theorem c239_mended {sep : Nat} (hsep : sep < 256) {s : Store} (h : TblOk s.items) (hn : s.sync = none) {k : Bytes} (hk : BytesOk k) {vs : List Bytes} (hv : ∀ v ∈ vs, BytesOk v)
    {o : SetOp} (ho : SetBytes o) (hc : (setCall sep (appendSet sep s.items k vs).1 o).1 ≠ (appendSet sep s.items k vs).1) :
    ∃ s', openStore (s.runS sep [.append k vs, .set o, .base .flush, .base .synced]).kept = .ok s' ∧ s'.items = (setCall sep (appendSet sep s.items k vs).1 o).1 := by
  have hm := (c239_marked sep (appendSet sep s.items k vs).1 o).resolve_left hc
  have h1 := setCall_ok hsep (appendSet_ok hsep h hk hv) ho
  have h2 : (s.runS sep [.append k vs, .set o, .base .flush, .base .synced]).kept = ⟨pack (setCall sep (appendSet sep s.items k vs).1 o).1, some s.dup⟩ := by
    simp only [Store.runS, List.foldl_cons, List.foldl_nil, Store.stepS, hm, decide_true, Bool.or_true, Store.step, hn, if_true]
  rw [h2, open_pack h1]
  exact ⟨_, rfl, rfl⟩

/-- **C239 fails of removing.** What is removed from some number on is there when the store is opened again. -/
theorem c239_rem_lost {sep : Nat} {s : Store} (h : TblOk s.items) (hd : s.dirty = false) (hn : s.sync = none) (hk : s.kept = ⟨pack s.items, some s.dup⟩) (k : Bytes) (hne : k ≠ []) (n : Nat)
    (later : List SInp) (hl : ∀ i ∈ later, i = .base .flush ∨ i = .base .synced ∨ i = .base .failed) :
    (s.runS sep (.remAll k n :: later)).items = (remOnAllSet sep s.items k n).1 ∧ ∃ s', openStore (s.runS sep (.remAll k n :: later)).kept = .ok s' ∧ s'.items = s.items := by
  have h0 : s.stepS sep (.remAll k n) = { s with items := (remOnAllSet sep s.items k n).1 } := by simp only [Store.stepS, if_neg hne]
  have h1 : s.runS sep (.remAll k n :: later) = s.stepS sep (.remAll k n) := idle later (s.stepS sep (.remAll k n)) hl (by rw [h0]; exact hd) (by rw [h0]; exact hn)
  rw [h1, h0]
  refine ⟨rfl, ?_⟩
  dsimp only
  rw [hk]
  exact ⟨_, open_pack h _, rfl⟩

theorem assignNew_eq (sep : Nat) (key : Bytes) (vs : List Bytes) : ∀ (i : Nat) (t t' : Tbl), Db.putFresh sep key i vs t = some t' → assignNew sep key i vs t = (t', true) := by
  induction vs with
  | nil => intro i t t' h; cases h; rfl
  | cons v vs ih =>
    intro i t t' h
    simp only [Db.putFresh, Tbl.put] at h
    unfold assignNew
    by_cases hg : (t.get (suffix sep key i)).isSome = true
    · simp [hg] at h
    · simp only [hg, Bool.false_eq_true, and_false, if_false] at h ⊢
      exact ih _ _ _ h

/-- C239: where the database on disk appends a set, the one in browsers appends the same at the same number. -/
theorem c239_append_same {sep : Nat} (hs : Db.SepOk sep) {t : Tbl} (h : Sorted t) (k : Bytes) (vs : List Bytes) {t' : Tbl} {n : Nat}
    (ha : Db.appendOnIoSetVals sep t k vs = (t', .ok n)) (hn : n ≤ maxON) : appendSet sep t k vs = (t', .ok n) := by
  unfold Db.appendOnIoSetVals at ha
  by_cases hk : k = [] ∨ vs = []
  · rw [if_pos hk] at ha; cases ha
  rw [if_neg hk] at ha
  cases hon : Db.appendSetOn sep t k with
  | error e => rw [hon] at ha; cases ha
  | ok on =>
    rw [hon] at ha
    dsimp only at ha
    cases hp : Db.putFresh sep (onKey sep k on) 0 vs t with
    | none => rw [hp] at ha; cases ha
    | some t1 =>
      rw [hp] at ha
      cases ha
      have hfree : ∀ e ∈ t, e.1 ≠ suffix sep (onKey sep k maxON) maxON := by
        intro e he hek
        unfold Db.appendSetOn at hon
        generalize hg : suffix sep (onKey sep k maxON) maxON = g at hon hek
        have hmem : e ∈ t.fro g := (Db.mem_fro h).mpr ⟨he, by rw [hek]; exact Db.lexLt_irrefl _⟩
        cases hf : t.fro g with
        | nil => rw [hf] at hmem; cases hmem
        | cons x r =>
          have hx : x = e := by
            have hso := h.fro g
            rw [hf] at hmem hso
            rcases List.mem_cons.mp hmem with h1 | h1
            · exact h1.symm
            · have h2 := hso.head e h1
              have h3 : x ∈ t.fro g := by rw [hf]; simp
              have h4 := ((Db.mem_fro h).mp h3).2
              rw [hek, h4] at h2
              cases h2
          rw [hf] at hon
          obtain ⟨x1, x2⟩ := x
          dsimp only at hon
          rw [show x1 = g by rw [← hek, ← hx], ← hg, Db.split2_eq hs] at hon
          dsimp only at hon
          rw [if_pos rfl] at hon
          cases hon
      have hat : appendSetAt sep t k = .ok n := by
        unfold appendSetAt
        rw [lastUpto_before hfree]
        unfold Db.appendSetOn at hon
        have hnext : (match (t.before (suffix sep (onKey sep k maxON) maxON)).getLast? with
            | none => .ok 0
            | some (x, _) => match split2 sep x with
              | .error e => .error e
              | .ok (ck, con) => .ok (if ck = k then con + 1 else 0) : Except Err Nat) = .ok n := by
          cases hf : t.fro (suffix sep (onKey sep k maxON) maxON) with
          | nil =>
            rw [hf] at hon
            have := Db.before_fro t (suffix sep (onKey sep k maxON) maxON)
            rw [hf, List.append_nil] at this
            rw [this]
            exact hon
          | cons x r =>
            rw [hf] at hon
            obtain ⟨x1, x2⟩ := x
            dsimp only at hon
            split at hon
            · cases hon
            · split at hon
              · cases hon
              · exact hon
        cases hl : (t.before (suffix sep (onKey sep k maxON) maxON)).getLast? with
        | none => rw [hl] at hnext; exact hnext
        | some e =>
          obtain ⟨x, v⟩ := e
          rw [hl] at hnext
          dsimp only at hnext ⊢
          cases hsp : split2 sep x with
          | error e => rw [hsp] at hnext; cases hnext
          | ok q =>
            obtain ⟨ck, con⟩ := q
            rw [hsp] at hnext
            dsimp only at hnext ⊢
            by_cases hc : ck = k
            · rw [if_pos hc] at hnext ⊢
              cases hnext
              rw [if_neg (by have : con + 1 ≤ maxON := hn; omega)]
            · rw [if_neg hc] at hnext ⊢
              exact hnext
      unfold appendSet
      rw [if_neg hk, hat]
      dsimp only
      rw [assignNew_eq sep _ vs 0 t _ hp]

end Verif.Web
