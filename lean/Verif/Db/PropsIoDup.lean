import Verif.Db.IoDup
import Verif.Db.PropsIoSet

/-!
# C39: insertion-ordered duplicates

The specification is the one of C37 (`specRun`): abstract insertion-ordered sets.
-/

namespace Verif.Db

def PSorted (t : DTbl) : Prop := t.Pairwise (fun a b => pairLt a b = true)

theorem pairLt_trans {a b c : Bytes × Bytes} (h1 : pairLt a b = true) (h2 : pairLt b c = true) : pairLt a c = true := by
  unfold pairLt at *
  simp only [Bool.or_eq_true, Bool.and_eq_true, decide_eq_true_eq] at *
  rcases h1 with h1 | ⟨e1, h1⟩ <;> rcases h2 with h2 | ⟨e2, h2⟩
  · exact .inl (lexLt_trans h1 h2)
  · exact .inl (e2 ▸ h1)
  · exact .inl (e1 ▸ h2)
  · exact .inr ⟨e1.trans e2, lexLt_trans h1 h2⟩

theorem pairLt_total (a b : Bytes × Bytes) : pairLt a b = true ∨ a = b ∨ pairLt b a = true := by
  unfold pairLt
  simp only [Bool.or_eq_true, Bool.and_eq_true, decide_eq_true_eq]
  rcases lexLt_total a.1 b.1 with h | h | h
  · exact .inl (.inl h)
  · rcases lexLt_total a.2 b.2 with h2 | h2 | h2
    · exact .inl (.inr ⟨h, h2⟩)
    · exact .inr (.inl (Prod.ext h h2))
    · exact .inr (.inr (.inr ⟨h.symm, h2⟩))
  · exact .inr (.inr (.inl h))

theorem dinsert_split {t : DTbl} (h : PSorted t) {k v : Bytes} (hn : (k, v) ∉ t) :
    ∃ a b, t = a ++ b ∧ t.insert k v = a ++ (k, v) :: b ∧ (∀ e ∈ a, pairLt e (k, v) = true) ∧ ∀ e ∈ b, pairLt (k, v) e = true := by
  induction t with
  | nil => exact ⟨[], [], rfl, rfl, by simp, by simp⟩
  | cons e t ih =>
    obtain ⟨h1, h2⟩ := List.pairwise_cons.1 h
    unfold DTbl.insert
    by_cases hlt : pairLt (k, v) e = true
    · rw [if_pos hlt]
      refine ⟨[], e :: t, rfl, rfl, by simp, ?_⟩
      intro x hx
      rcases List.mem_cons.1 hx with rfl | hx
      · exact hlt
      · exact pairLt_trans hlt (h1 x hx)
    · rw [if_neg hlt, if_neg (fun hq => hn (by rw [hq]; simp))]
      obtain ⟨a, b, e1, e2, e3, e4⟩ := ih h2 (fun hq => hn (by simp [hq]))
      refine ⟨e :: a, b, by rw [e1]; rfl, by rw [e2]; rfl, ?_, e4⟩
      intro x hx
      rcases List.mem_cons.1 hx with rfl | hx
      · rcases pairLt_total (k, v) x with hq | hq | hq
        · exact absurd hq hlt
        · exact absurd (by rw [hq]; simp) hn
        · exact hq
      · exact e3 x hx

theorem psorted_insert {t : DTbl} (h : PSorted t) {k v : Bytes} (hn : (k, v) ∉ t) : PSorted (t.insert k v) := by
  obtain ⟨a, b, e1, e2, e3, e4⟩ := dinsert_split h hn
  rw [e2]
  rw [e1] at h
  obtain ⟨p1, p2, p3⟩ := List.pairwise_append.1 h
  refine List.pairwise_append.2 ⟨p1, List.pairwise_cons.2 ⟨e4, p2⟩, ?_⟩
  intro x hx y hy
  rcases List.mem_cons.1 hy with rfl | hy
  · exact e3 x hx
  · exact p3 x hx y hy

theorem dups_append (a b : DTbl) (k : Bytes) : DTbl.dups (a ++ b) k = DTbl.dups a k ++ DTbl.dups b k := by
  simp [DTbl.dups]

theorem mem_dups {t : DTbl} {k v : Bytes} : v ∈ t.dups k ↔ (k, v) ∈ t := by
  unfold DTbl.dups
  simp only [List.mem_map, List.mem_filter, decide_eq_true_eq]
  constructor
  · rintro ⟨⟨x, w⟩, ⟨h1, h2⟩, h3⟩
    simp only at h2 h3
    rw [← h2, ← h3]; exact h1
  · intro h; exact ⟨_, ⟨h, rfl⟩, rfl⟩

/-- Value of an ordinal and a value. -/
def encDup (p : Nat × Bytes) : Bytes := proem p.1 p.2

/-- The duplicates of every key are ordinals and values, ordinals increasing and below `b`; `E` lists them. -/
structure DupInv (b : Nat) (t : DTbl) (E : Bytes → List (Nat × Bytes)) : Prop where
  sorted : PSorted t
  dups : ∀ k, t.dups k = (E k).map encDup
  inc : ∀ k, (E k).Pairwise (fun a b => a.1 < b.1)
  lt : ∀ k, ∀ p ∈ E k, p.1 < b

theorem proem_drop {i : Nat} (h : i < 16 ^ 32) (v : Bytes) : (proem i v).drop 33 = v := by
  unfold proem
  have : (hex32 i).length = 32 := hex32_length h
  rw [show (33 : Nat) = (hex32 i).length + 1 by rw [this], ← List.drop_drop, List.drop_left]
  rfl

theorem proem_take {i : Nat} (h : i < 16 ^ 32) (v : Bytes) : (proem i v).take 32 = hex32 i := by
  unfold proem
  have : (hex32 i).length = 32 := hex32_length h
  rw [← this, List.take_left]

theorem proem_lt {i j : Nat} (hi : i < 16 ^ 32) (hj : j < 16 ^ 32) (h : i < j) (v w : Bytes) : lexLt (proem i v) (proem j w) = true := by
  unfold proem
  exact (lexLt_append_len (by rw [hex32_length hi, hex32_length hj]) _ _).2 (.inl ((lexLt_hex32 hi hj).2 h))

/-- Inserting past the last ordinal of a key appends there and nowhere else. -/
theorem dinsert_inv {b : Nat} (hb : b < 16 ^ 32) {t : DTbl} {E : Bytes → List (Nat × Bytes)} (h : DupInv b t E) (key : Bytes) {i : Nat} (hi : i ≤ b)
    (hlast : ∀ p ∈ E key, p.1 < i) (v : Bytes) :
    DupInv (b + 1) (t.insert key (proem i v)) (fun k => if k = key then E key ++ [(i, v)] else E k) := by
  have hE : ∀ x, x ∈ t.dups key → ∃ p ∈ E key, x = encDup p := by
    intro x hx; rw [h.dups] at hx
    obtain ⟨p, hp, rfl⟩ := List.mem_map.1 hx
    exact ⟨p, hp, rfl⟩
  have hn : (key, proem i v) ∉ t := by
    intro hm
    obtain ⟨⟨j, w⟩, hp, hq⟩ := hE _ (mem_dups.2 hm)
    have hj := hlast _ hp
    simp only at hj
    have := proem_lt (i := j) (j := i) (by omega) (by omega) hj w v
    unfold encDup at hq
    rw [hq, lexLt_irrefl] at this
    exact absurd this (by simp)
  obtain ⟨a, c, e1, e2, e3, e4⟩ := dinsert_split h.sorted hn
  have hc : DTbl.dups c key = [] := by
    cases hq : DTbl.dups c key with
    | nil => rfl
    | cons x l =>
      exfalso
      have hm : x ∈ DTbl.dups c key := by rw [hq]; simp
      have hgt := e4 _ (mem_dups.1 hm)
      obtain ⟨⟨j, w⟩, hp, hx⟩ := hE x (by rw [e1, dups_append]; exact List.mem_append_right _ hm)
      have hj := hlast _ hp
      simp only at hj
      have := proem_lt (i := j) (j := i) (by omega) (by omega) hj w v
      unfold pairLt at hgt
      simp only [lexLt_irrefl, Bool.false_or, decide_true, Bool.true_and] at hgt
      unfold encDup at hx
      simp only at hx
      rw [← hx] at this
      rw [lexLt_asymm hgt] at this
      exact absurd this (by simp)
  have hcons : ∀ k (c : DTbl), DTbl.dups ((key, proem i v) :: c) k = (if key = k then [proem i v] else []) ++ DTbl.dups c k := by
    intro k c
    unfold DTbl.dups
    by_cases hk : key = k
    · rw [if_pos hk, List.filter_cons_of_pos (by simpa using hk)]; rfl
    · rw [if_neg hk, List.filter_cons_of_neg (by simpa using hk)]; rfl
  refine ⟨psorted_insert h.sorted hn, ?_, ?_, ?_⟩
  · intro k
    rw [e2, dups_append, hcons]
    by_cases hk : k = key
    · subst hk
      rw [if_pos rfl, hc]
      simp only [if_true]
      have := h.dups k
      rw [e1, dups_append, hc, List.append_nil] at this
      rw [this]; simp [encDup]
    · rw [if_neg (fun hq => hk hq.symm)]
      simp only [hk, if_false, List.nil_append]
      rw [← dups_append, ← e1]; exact h.dups k
  · intro k
    by_cases hk : k = key
    · subst hk
      simp only [if_true]
      refine List.pairwise_append.2 ⟨h.inc k, by simp, ?_⟩
      intro p hp q hq
      simp at hq; subst hq; exact hlast p hp
    · simp only [hk, if_false]; exact h.inc k
  · intro k p hp
    by_cases hk : k = key
    · subst hk
      simp only [if_true, List.mem_append, List.mem_singleton] at hp
      rcases hp with hp | rfl
      · have := h.lt k p hp; omega
      · simp only; omega
    · simp only [hk, if_false] at hp
      have := h.lt k p hp; omega

/-- The writing loop appends the values not in `dups`. -/
theorem putDupLoop_inv (key : Bytes) (dups : List Bytes) (vs : List Bytes) : ∀ {b : Nat} {t : DTbl} {E : Bytes → List (Nat × Bytes)} (_ : DupInv b t E) {i : Nat},
    i ≤ b → b + vs.length < 16 ^ 32 → (∀ p ∈ E key, p.1 < i) →
    ∃ E', DupInv (b + vs.length) (putDupLoop key dups i vs t).1 E' ∧ (E' key).map (·.2) = (E key).map (·.2) ++ vs.filter (fun v => decide (v ∉ dups)) ∧
      (∀ k, k ≠ key → E' k = E k) ∧ (putDupLoop key dups i vs t).2 = vs.any (fun v => decide (v ∉ dups)) := by
  induction vs with
  | nil => intro b t E h i _ _ _; exact ⟨E, h, by simp, fun _ _ => rfl, rfl⟩
  | cons v vs ih =>
    intro b t E h i hi hb hlast
    simp only [List.length_cons] at hb
    unfold putDupLoop
    by_cases hv : v ∈ dups
    · rw [if_pos hv]
      have h' : DupInv (b + 1) t E := ⟨h.sorted, h.dups, h.inc, fun k p hp => by have := h.lt k p hp; omega⟩
      obtain ⟨E', g1, g2, g3, g4⟩ := ih h' (i := i) (by omega) (by omega) hlast
      refine ⟨E', ?_, ?_, g3, ?_⟩
      · rw [List.length_cons, show b + (vs.length + 1) = b + 1 + vs.length by omega]; exact g1
      · rw [g2, List.filter_cons_of_neg (by simpa using hv)]
      · rw [g4]; simp [hv]
    · rw [if_neg hv]
      have h' := dinsert_inv (by omega) h key hi hlast v
      obtain ⟨E', g1, g2, g3, g4⟩ := ih h' (i := i + 1) (by omega) (by omega) (by
        intro p hp
        simp only [if_true, List.mem_append, List.mem_singleton] at hp
        rcases hp with hp | rfl
        · have := hlast p hp; omega
        · simp)
      refine ⟨E', ?_, ?_, ?_, ?_⟩
      · rw [List.length_cons, show b + (vs.length + 1) = b + 1 + vs.length by omega]; exact g1
      · rw [g2, List.filter_cons_of_pos (by simpa using hv)]; simp
      · intro k hk
        rw [g3 k hk, if_neg hk]
      · simp [hv]

/-- Reading a key. -/
theorem getIoDupVals_eq {b : Nat} (hb : b ≤ 16 ^ 32) {t : DTbl} {E : Bytes → List (Nat × Bytes)} (h : DupInv b t E) {key : Bytes} (hk : key ≠ []) :
    getIoDupVals t key = (E key).map (·.2) := by
  unfold getIoDupVals
  rw [if_neg hk, h.dups, List.map_map]
  apply List.map_congr_left
  intro p hp
  have := h.lt key p hp
  exact proem_drop (by omega) p.2

theorem nextDup_eq {b : Nat} (hb : b ≤ 16 ^ 32) {t : DTbl} {E : Bytes → List (Nat × Bytes)} (h : DupInv b t E) (key : Bytes) :
    nextDup t key = .ok (nextIon (E key)) := by
  unfold nextDup nextIon
  rw [h.dups, List.getLast?_map]
  cases hq : (E key).getLast? with
  | none => rfl
  | some p =>
    have := h.lt key p (List.mem_of_getLast? hq)
    simp only [Option.map_some, encDup]
    rw [proem_take (by omega), intHex_hex32]
    simp only
    congr 1; omega

/-- The table holds the sets. -/
structure HoldsD (b : Nat) (t : DTbl) (S : Sets) : Prop where
  inv : ∃ E, DupInv b t E ∧ ∀ k, (E k).map (·.2) = S k
  nodup : ∀ k, (S k).Nodup

/-- One operation on the table with duplicates. -/
def SetOp.dimpl (t : DTbl) : SetOp → DTbl × Except Err SetOut
  | .put k vs => let (t', r) := putIoDupVals t k vs; (t', r.map .bool)
  | .add k v => let (t', r) := addIoDupVal t k v; (t', r.map .bool)
  | .pin k vs => let (t', r) := pinIoDupVals t k vs; (t', r.map .bool)
  | .rem k => let (t', r) := delIoDupVals t k; (t', .ok (.bool r))
  | .remVal k v => let (t', r) := delIoDupVal t k v; (t', .ok (.bool r))
  | .get k => (t, .ok (.vals (getIoDupVals t k)))
  | .last k => (t, .ok (.val (getIoDupValLast t k)))
  | .cnt k => (t, .ok (.num (cntIoDups t k)))

def dimplRun (t : DTbl) : List SetOp → List (Except Err SetOut)
  | [] => []
  | o :: os => (o.dimpl t).2 :: dimplRun (o.dimpl t).1 os

/-- The values of one put or pin are different, and a pin has some. -/
def SetOp.distinct : SetOp → Prop
  | .put _ vs => vs.Nodup
  | .pin _ vs => vs.Nodup ∧ vs ≠ []
  | _ => True

theorem oset_nodup {vs : List Bytes} (h : vs.Nodup) : oset vs = vs := by
  induction vs with
  | nil => rfl
  | cons v vs ih =>
    obtain ⟨h1, h2⟩ := List.nodup_cons.1 h
    unfold oset
    rw [ih h2]
    congr 1
    exact List.filter_eq_self.2 fun w hw => by
      have : w ≠ v := fun hq => h1 (hq ▸ hw)
      simpa using this

theorem put_holds {b : Nat} {t : DTbl} {S : Sets} (h : HoldsD b t S) {k : Bytes} (hk : k ≠ []) (hdot : k.head? ≠ some 46) {vs : List Bytes}
    (hvs : vs.Nodup) (hb : b + vs.length < 16 ^ 32) :
    (putIoDupVals t k vs).2 = .ok (vs.any (fun v => decide (v ∉ S k))) ∧ HoldsD (b + vs.length) (putIoDupVals t k vs).1 (S.set k (vs.foldl addEnd (S k))) := by
  obtain ⟨⟨E, hE, hS⟩, hn⟩ := h
  have hnodup : ∀ x, ((S.set k (vs.foldl addEnd (S k))) x).Nodup := by
    intro x
    unfold Sets.set
    split
    · exact foldl_addEnd_nodup vs (hn k)
    · exact hn x
  by_cases he : vs = []
  · subst he
    unfold putIoDupVals
    rw [if_pos (.inr (.inl rfl))]
    refine ⟨rfl, ⟨⟨E, hE, fun x => ?_⟩, hnodup⟩⟩
    unfold Sets.set
    split
    · rename_i hq; rw [hq]; exact hS k
    · exact hS x
  · unfold putIoDupVals
    rw [if_neg (by simp [hk, he, hdot]), nextDup_eq (by omega) hE, getIoDupVals_eq (by omega) hE hk, hS k]
    simp only
    obtain ⟨E', g1, g2, g3, g4⟩ := putDupLoop_inv k (S k) vs hE (i := nextIon (E k)) (nextIon_le (hE.lt k)) hb (nextIon_last (hE.inc k))
    refine ⟨by rw [g4], ⟨⟨E', g1, fun x => ?_⟩, hnodup⟩⟩
    unfold Sets.set
    by_cases hx : x = k
    · rw [if_pos hx, hx, g2, hS k, foldl_addEnd, oset_nodup hvs]
    · rw [if_neg hx, g3 x hx]; exact hS x

theorem del_inv {b : Nat} {t : DTbl} {E : Bytes → List (Nat × Bytes)} (h : DupInv b t E) (key : Bytes) :
    DupInv b (t.filter (fun e => decide (e.1 ≠ key))) (fun k => if k = key then [] else E k) := by
  refine ⟨List.Pairwise.filter _ h.sorted, ?_, ?_, ?_⟩
  · intro k
    unfold DTbl.dups
    rw [List.filter_filter]
    by_cases hk : k = key
    · subst hk
      have : t.filter (fun a => decide (a.1 = k) && decide (a.1 ≠ k)) = [] := List.filter_eq_nil_iff.2 fun a _ => by simp
      rw [this]; simp
    · rw [if_neg hk, ← h.dups k]
      unfold DTbl.dups
      congr 1
      apply List.filter_congr
      intro a _
      by_cases ha : a.1 = k
      · simp [ha, hk]
      · simp [ha]
  · intro k
    by_cases hk : k = key
    · simp [hk]
    · simp only [hk, if_false]; exact h.inc k
  · intro k p hp
    by_cases hk : k = key
    · simp [hk] at hp
    · simp only [hk, if_false] at hp; exact h.lt k p hp

theorem delFirst_spec (key val : Bytes) (t : DTbl) : (delFirst key val t).1.Sublist t ∧ ((delFirst key val t).2 = decide (val ∈ (t.dups key).map (·.drop 33))) ∧
    (∀ k, k ≠ key → DTbl.dups (delFirst key val t).1 k = t.dups k) ∧
    ∃ a x c, (t.dups key = a ++ x ++ c ∧ DTbl.dups (delFirst key val t).1 key = a ++ c ∧ (∀ y ∈ a, y.drop 33 ≠ val) ∧
      ((∃ y, x = [y] ∧ y.drop 33 = val) ∨ (x = [] ∧ c = []))) := by
  induction t with
  | nil => exact ⟨List.Sublist.refl _, by simp [delFirst, DTbl.dups], fun _ _ => rfl, [], [], [], by simp [delFirst, DTbl.dups]⟩
  | cons e t ih =>
    obtain ⟨x, v⟩ := e
    have hcons : ∀ k (c : DTbl), DTbl.dups ((x, v) :: c) k = (if x = k then [v] else []) ++ DTbl.dups c k := by
      intro k c
      unfold DTbl.dups
      by_cases hk : x = k
      · rw [if_pos hk, List.filter_cons_of_pos (by simpa using hk)]; rfl
      · rw [if_neg hk, List.filter_cons_of_neg (by simpa using hk)]; rfl
    unfold delFirst
    by_cases hc : x = key ∧ val = v.drop 33
    · rw [if_pos hc]
      obtain ⟨rfl, hv⟩ := hc
      refine ⟨List.sublist_cons_self _ _, by simp [hcons, hv], fun k hk => by simp [hcons, Ne.symm hk], [], [v], DTbl.dups t x, ?_⟩
      simp [hcons, hv]
    · rw [if_neg hc]
      obtain ⟨i1, i2, i3, a, y, c, i4, i5, i6, i7⟩ := ih
      refine ⟨List.Sublist.cons_cons _ i1, ?_, ?_, ?_⟩
      · simp only [i2, hcons]
        by_cases hx : x = key
        · have hv : val ≠ v.drop 33 := fun hq => hc ⟨hx, hq⟩
          simp [hx, hv]
        · simp [hx]
      · intro k hk; simp only [hcons, i3 k hk]
      · by_cases hx : x = key
        · have hv : v.drop 33 ≠ val := fun hq => hc ⟨hx, hq.symm⟩
          refine ⟨v :: a, y, c, ?_, ?_, ?_, i7⟩
          · rw [hcons, if_pos hx, i4]; rfl
          · rw [hcons, if_pos hx, i5]; rfl
          · intro z hz
            rcases List.mem_cons.1 hz with rfl | hz
            · exact hv
            · exact i6 z hz
        · exact ⟨a, y, c, by rw [hcons, if_neg hx]; exact i4, by rw [hcons, if_neg hx]; exact i5, i6, i7⟩

theorem dstep_refines {b : Nat} {t : DTbl} {S : Sets} (h : HoldsD b t S) (o : SetOp) (hk : o.key ≠ []) (hdot : o.key.head? ≠ some 46) (hd : o.distinct)
    (hb : b + o.size < 16 ^ 32) : (o.dimpl t).2 = .ok (o.spec S).2 ∧ HoldsD (b + o.size) (o.dimpl t).1 (o.spec S).1 := by
  have hcopy := h
  obtain ⟨⟨E, hE, hS⟩, hn⟩ := h
  have hget : ∀ k, k ≠ [] → getIoDupVals t k = S k := fun k hk => by rw [getIoDupVals_eq (by omega) hE hk, hS k]
  cases o with
  | put k vs =>
    simp only [SetOp.key] at hk hdot
    simp only [SetOp.size] at hb
    obtain ⟨g1, g2⟩ := put_holds hcopy hk hdot hd hb
    refine ⟨?_, g2⟩
    show (putIoDupVals t k vs).2.map SetOut.bool = _
    rw [g1]; rfl
  | add k v =>
    simp only [SetOp.key] at hk hdot
    simp only [SetOp.size] at hb
    obtain ⟨g1, g2⟩ := put_holds hcopy hk hdot (vs := [v]) (by simp) hb
    refine ⟨?_, g2⟩
    show (putIoDupVals t k [v]).2.map SetOut.bool = _
    rw [g1]; simp [Except.map, SetOp.spec]
  | pin k vs =>
    simp only [SetOp.key] at hk hdot
    simp only [SetOp.size] at hb
    have hdel : HoldsD b (delIoDupVals t k).1 (S.set k []) := by
      unfold delIoDupVals
      rw [if_neg hk]
      refine ⟨⟨_, del_inv hE k, fun x => ?_⟩, fun x => ?_⟩
      · unfold Sets.set
        by_cases hx : x = k
        · simp [hx]
        · simp only [hx, if_false]; exact hS x
      · unfold Sets.set
        split
        · exact List.nodup_nil
        · exact hn x
    obtain ⟨g1, g2⟩ := put_holds hdel hk hdot hd.1 hb
    have hset : S.set k [] k = [] := by simp [Sets.set]
    have hset2 : ∀ l, (S.set k []).set k l = S.set k l := by
      intro l; funext x; unfold Sets.set; split <;> simp_all
    rw [hset, hset2] at g2
    rw [hset] at g1
    simp only [SetOp.spec]
    rw [if_neg hd.2]
    refine ⟨?_, g2⟩
    show (putIoDupVals (delIoDupVals t k).1 k vs).2.map SetOut.bool = _
    rw [g1]
    cases vs with
    | nil => exact absurd rfl hd.2
    | cons w vs => simp [Except.map]
  | rem k =>
    simp only [SetOp.key] at hk hdot
    simp only [SetOp.dimpl, SetOp.spec, SetOp.size, delIoDupVals]
    rw [if_neg hk]
    refine ⟨?_, ⟨⟨_, del_inv hE k, fun x => ?_⟩, fun x => ?_⟩⟩
    · simp only
      rw [← hS k, hE.dups k]; simp
    · unfold Sets.set
      by_cases hx : x = k
      · simp [hx]
      · simp only [hx, if_false]; exact hS x
    · unfold Sets.set
      split
      · exact List.nodup_nil
      · exact hn x
  | remVal k v =>
    simp only [SetOp.key] at hk hdot
    simp only [SetOp.dimpl, SetOp.spec, SetOp.size, delIoDupVal]
    rw [if_neg hk]
    obtain ⟨d1, d2, d3, a, x, c, d4, d5, d6, d7⟩ := delFirst_spec k v t
    have hvals : (t.dups k).map (·.drop 33) = S k := by
      have := hget k hk
      unfold getIoDupVals at this
      rw [if_neg hk] at this; exact this
    -- split the listing of the key accordingly
    have hsplit : ∃ A X C, E k = A ++ X ++ C ∧ a = A.map encDup ∧ x = X.map encDup ∧ c = C.map encDup := by
      have := hE.dups k
      rw [d4] at this
      obtain ⟨AX, C, e1, e2, e3⟩ := List.map_eq_append_iff.1 this.symm
      obtain ⟨A, X, e4, e5, e6⟩ := List.map_eq_append_iff.1 e2
      exact ⟨A, X, C, by rw [e1, e4], e5.symm, e6.symm, e3.symm⟩
    obtain ⟨A, X, C, e1, e2, e3, e4⟩ := hsplit
    have hinv : DupInv b (delFirst k v t).1 (fun y => if y = k then A ++ C else E y) := by
      have hsubl : (A ++ C).Sublist (E k) := by
        rw [e1, List.append_assoc]
        exact List.Sublist.append (List.Sublist.refl _) (List.sublist_append_right _ _)
      refine ⟨List.Pairwise.sublist d1 hE.sorted, ?_, ?_, ?_⟩
      · intro y
        by_cases hy : y = k
        · subst hy
          rw [d5, e2, e4]; simp
        · simp only [hy, if_false]; rw [d3 y hy]; exact hE.dups y
      · intro y
        by_cases hy : y = k
        · simp only [hy, if_true]; exact (hE.inc k).sublist hsubl
        · simp only [hy, if_false]; exact hE.inc y
      · intro y p hp
        by_cases hy : y = k
        · simp only [hy, if_true] at hp; exact hE.lt k p (hsubl.subset hp)
        · simp only [hy, if_false] at hp; exact hE.lt y p hp
    have hdrop : ∀ L : List (Nat × Bytes), (∀ p ∈ L, p ∈ E k) → (L.map encDup).map (·.drop 33) = L.map (·.2) := by
      intro L hL
      rw [List.map_map]
      apply List.map_congr_left
      intro p hp
      have := hE.lt k p (hL p hp)
      exact proem_drop (by omega) p.2
    refine ⟨?_, ⟨⟨_, hinv, fun y => ?_⟩, fun y => ?_⟩⟩
    · rw [d2, hvals]
    · unfold Sets.set
      by_cases hy : y = k
      · subst hy
        simp only [if_true]
        rw [← hS y, e1]
        have hA : ∀ w ∈ A.map (·.2), w ≠ v := by
          intro w hw
          rw [← hdrop A (fun p hp => by rw [e1]; simp [hp]), ← e2] at hw
          obtain ⟨z, hz, rfl⟩ := List.mem_map.1 hw
          exact d6 z hz
        have hnd := hn y
        rw [← hS y, e1] at hnd
        rcases d7 with ⟨z, hx, hz⟩ | ⟨hx, hc⟩
        · have hX : X.map (·.2) = [v] := by
            rw [← hdrop X (fun p hp => by rw [e1]; simp [hp]), ← e3, hx]; simp [hz]
          have hC : ∀ w ∈ C.map (·.2), w ≠ v := by
            rw [List.map_append, List.map_append, hX] at hnd
            intro w hw hq
            subst hq
            exact (List.nodup_append.1 hnd).2.2 w (by simp) w hw rfl
          rw [List.map_append, List.map_append, List.map_append, hX, List.filter_append, List.filter_append]
          have f1 : (A.map (·.2)).filter (fun w => decide (w ≠ v)) = A.map (·.2) := List.filter_eq_self.2 (fun w hw => by simpa using hA w hw)
          have f2 : (C.map (·.2)).filter (fun w => decide (w ≠ v)) = C.map (·.2) := List.filter_eq_self.2 (fun w hw => by simpa using hC w hw)
          rw [f1, f2]
          simp
        · have hX : X = [] := by rw [hx] at e3; simpa using e3.symm
          have hC : C = [] := by rw [hc] at e4; simpa using e4.symm
          subst hX; subst hC
          simp only [List.append_nil]
          rw [List.filter_eq_self.2 (fun w hw => by simpa using hA w hw)]
      · simp only [hy, if_false]; exact hS y
    · unfold Sets.set
      split
      · exact (hn k).sublist List.filter_sublist
      · exact hn y
  | get k =>
    simp only [SetOp.key] at hk hdot
    simp only [SetOp.dimpl, SetOp.spec, SetOp.size]
    rw [hget k hk]
    exact ⟨rfl, hcopy⟩
  | last k =>
    simp only [SetOp.key] at hk hdot
    simp only [SetOp.dimpl, SetOp.spec, SetOp.size]
    refine ⟨?_, hcopy⟩
    have := hget k hk
    unfold getIoDupVals at this
    unfold getIoDupValLast
    rw [if_neg hk] at this ⊢
    rw [← this, List.getLast?_map]
  | cnt k =>
    simp only [SetOp.key] at hk hdot
    simp only [SetOp.dimpl, SetOp.spec, SetOp.size]
    refine ⟨?_, hcopy⟩
    have := hget k hk
    unfold getIoDupVals at this
    unfold cntIoDups
    rw [if_neg hk] at this ⊢
    rw [← this, List.length_map]

theorem druns_agree (os : List SetOp) : ∀ {b : Nat} {t : DTbl} {S : Sets}, HoldsD b t S →
    (∀ o ∈ os, o.key ≠ [] ∧ o.key.head? ≠ some 46 ∧ o.distinct) → b + (os.map SetOp.size).sum < 16 ^ 32 → dimplRun t os = (specRun S os).map .ok := by
  induction os with
  | nil => intros; rfl
  | cons o os ih =>
    intro b t S h hk hb
    simp only [List.map_cons, List.sum_cons] at hb
    obtain ⟨k1, k2, k3⟩ := hk o (by simp)
    obtain ⟨h1, h2⟩ := dstep_refines h o k1 k2 k3 (by omega)
    simp only [dimplRun, specRun, List.map_cons]
    rw [h1, ih h2 (fun o ho => hk o (by simp [ho])) (by omega)]

/-- **C39 (partial).** From an empty sub-database, under every sequence of put, add, pin, delete and read operations on non-empty keys not
beginning with a dot, where no single put or pin names a value twice and no pin is empty, every answer is the one of abstract
insertion-ordered sets and no operation raises.  Missing: a put naming a new value twice stores it twice (`c39_repeated`), keys
beginning with a dot are refused (`c39_dot_key`), an empty pin deletes the values, and putting at numbered keys, where the check
looks at number 0 (`c39_numbered_put`). -/
theorem c39_refines_partial (os : List SetOp) (hk : ∀ o ∈ os, o.key ≠ [] ∧ o.key.head? ≠ some 46 ∧ o.distinct)
    (hsize : (os.map SetOp.size).sum < 16 ^ 32) : dimplRun [] os = (specRun (fun _ => []) os).map .ok :=
  druns_agree os (b := 0) ⟨⟨fun _ => [], ⟨List.Pairwise.nil, fun _ => rfl, fun _ => List.Pairwise.nil, by simp⟩, fun _ => rfl⟩, fun _ => List.nodup_nil⟩ hk (by omega)

/-- **C39 fails within one put.** A new value named twice in one put is there twice. -/
theorem c39_repeated : dimplRun [] [.put [65] [[1], [1]], .get [65]] = [.ok (.bool true), .ok (.vals [[1], [1]])] := by decide +kernel

/-- **C39, keys beginning with a dot** take no values. -/
theorem c39_dot_key : dimplRun [] [.put [46, 65] [[1]], .get [46, 65]] = [.ok (.bool false), .ok (.vals [])] := by decide +kernel

/-- **C39 fails at numbered keys.** A value at number 0 is refused at number 1, and a value at number 1 is put there a second time. -/
theorem c39_numbered_put :
    (let t := (putOnIoDupVals 46 [] [65] 0 [[1]]).1
     (putOnIoDupVals 46 t [65] 1 [[1]]).2 = .ok false ∧ getOnIoDupVals 46 (putOnIoDupVals 46 t [65] 1 [[1]]).1 [65] 1 = []) ∧
    (let t := (putOnIoDupVals 46 [] [65] 1 [[1]]).1
     getOnIoDupVals 46 (putOnIoDupVals 46 t [65] 1 [[1]]).1 [65] 1 = [[1], [1]]) := by decide +kernel

/-- **C41 fails for duplicates.** Asked to start at number 1, which is not in use, the backward iteration starts at number 5. -/
theorem c41_dup_starts_above :
    (let t := (addOnIoDupVal 46 (addOnIoDupVal 46 [] [65] 0 [1]).1 [65] 5 [2]).1
     getOnIoDupItemBackIter 46 t [65] 1 = .ok [([65], 5, [2]), ([65], 0, [1])]) := by decide +kernel

namespace Demo39
def ops : List SetOp := [.put [65] [[1], [2]], .add [66] [7], .add [65] [3], .add [65] [1], .remVal [65] [2], .pin [66] [[8], [9]], .put [65] [[2], [1]],
  .get [65], .last [66], .cnt [65], .rem [66], .get [66]]
/-- A mixed run meets the hypotheses. -/
example : (∀ o ∈ ops, o.key ≠ [] ∧ o.key.head? ≠ some 46 ∧ o.distinct) ∧ (ops.map SetOp.size).sum < 16 ^ 32 := by
  refine ⟨?_, by decide⟩
  intro o ho
  simp only [ops, List.mem_cons, List.not_mem_nil, or_false] at ho
  rcases ho with rfl | rfl | rfl | rfl | rfl | rfl | rfl | rfl | rfl | rfl | rfl | rfl <;> simp [SetOp.key, SetOp.distinct]
example : specRun (fun _ => []) ops = [.bool true, .bool true, .bool true, .bool false, .bool true, .bool true, .bool true,
  .vals [[1], [3], [2]], .val (some [9]), .num 3, .bool true, .vals []] := by decide +kernel
end Demo39

end Verif.Db
