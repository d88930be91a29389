import Verif.Db.Table
import Verif.Db.KeyLemmas

/-! # Lemmas on sorted tables -/

namespace Verif.Db

theorem Sorted.tail {e : Entry} {t : Tbl} (h : Sorted (e :: t)) : Sorted t := (List.pairwise_cons.1 h).2
theorem Sorted.head {e : Entry} {t : Tbl} (h : Sorted (e :: t)) : ∀ x ∈ t, lexLt e.1 x.1 = true := (List.pairwise_cons.1 h).1

theorem Sorted.sublist {s t : Tbl} (h : Sorted t) (hs : s.Sublist t) : Sorted s := List.Pairwise.sublist hs h

theorem Sorted.filter {t : Tbl} (h : Sorted t) (p : Entry → Bool) : Sorted (t.filter p) := h.sublist List.filter_sublist

theorem Sorted.nodup {t : Tbl} (h : Sorted t) : (t.map (·.1)).Nodup := by
  unfold Sorted at h
  rw [List.Nodup, List.pairwise_map]
  exact h.imp (by intro a b hab hc; rw [hc, lexLt_irrefl] at hab; exact absurd hab (by simp))

theorem Sorted.key_unique {t : Tbl} (h : Sorted t) {a b : Entry} (ha : a ∈ t) (hb : b ∈ t) (hk : a.1 = b.1) : a = b := by
  induction t with
  | nil => simp at ha
  | cons e t ih =>
    have hne : ∀ x ∈ t, e.1 ≠ x.1 := fun x hx hc => by
      have := h.head x hx; rw [hc, lexLt_irrefl] at this; exact absurd this (by simp)
    rcases List.mem_cons.1 ha with ha | ha <;> rcases List.mem_cons.1 hb with hb | hb
    · rw [ha, hb]
    · rw [ha] at hk; exact absurd hk (hne b hb)
    · rw [hb] at hk; exact absurd hk.symm (hne a ha)
    · exact ih h.tail ha hb

theorem get_none {t : Tbl} {k : Bytes} : t.get k = none ↔ ∀ e ∈ t, e.1 ≠ k := by
  unfold Tbl.get
  simp [List.find?_eq_none]

theorem get_some {t : Tbl} (h : Sorted t) {k v : Bytes} : t.get k = some v ↔ (k, v) ∈ t := by
  unfold Tbl.get
  constructor
  · intro hg
    cases hf : t.find? (fun e => decide (e.1 = k)) with
    | none => rw [hf] at hg; simp at hg
    | some e =>
      rw [hf] at hg; simp at hg
      have h1 := List.find?_some hf
      have h2 := List.mem_of_find?_eq_some hf
      simp at h1
      rw [← h1, ← hg]; exact h2
  · intro hm
    cases hf : t.find? (fun e => decide (e.1 = k)) with
    | none =>
      rw [List.find?_eq_none] at hf
      exact absurd (hf _ hm) (by simp)
    | some e =>
      have h1 := List.find?_some hf
      have h2 := List.mem_of_find?_eq_some hf
      simp at h1
      rw [h.key_unique h2 hm h1]; rfl

/-- A new key goes between the smaller and the larger ones. -/
theorem insert_split {t : Tbl} (h : Sorted t) {k : Bytes} (v : Bytes) (hn : ∀ e ∈ t, e.1 ≠ k) :
    ∃ a b, t = a ++ b ∧ t.insert k v = a ++ (k, v) :: b ∧ (∀ e ∈ a, lexLt e.1 k = true) ∧ ∀ e ∈ b, lexLt k e.1 = true := by
  induction t with
  | nil => exact ⟨[], [], rfl, rfl, by simp, by simp⟩
  | cons e t ih =>
    unfold Tbl.insert
    by_cases hlt : lexLt k e.1 = true
    · rw [if_pos hlt]
      refine ⟨[], e :: t, rfl, rfl, by simp, ?_⟩
      intro x hx
      rcases List.mem_cons.1 hx with rfl | hx
      · exact hlt
      · exact lexLt_trans hlt (h.head x hx)
    · rw [if_neg hlt, if_neg (Ne.symm (hn e (by simp)))]
      obtain ⟨a, b, h1, h2, h3, h4⟩ := ih h.tail (fun x hx => hn x (by simp [hx]))
      refine ⟨e :: a, b, by rw [h1]; rfl, by rw [h2]; rfl, ?_, h4⟩
      intro x hx
      rcases List.mem_cons.1 hx with rfl | hx
      · rcases lexLt_total x.1 k with g | g | g
        · exact g
        · exact absurd g (hn x (by simp))
        · exact absurd g hlt
      · exact h3 x hx

theorem sorted_insert {t : Tbl} (h : Sorted t) (k v : Bytes) : Sorted (t.insert k v) ∧
    (∀ e ∈ t.insert k v, e = (k, v) ∨ (e ∈ t ∧ e.1 ≠ k)) := by
  induction t with
  | nil => exact ⟨by simp [Tbl.insert, Sorted], by simp [Tbl.insert]⟩
  | cons e t ih =>
    unfold Tbl.insert
    by_cases hlt : lexLt k e.1 = true
    · rw [if_pos hlt]
      have hk : ∀ x ∈ e :: t, lexLt k x.1 = true := by
        intro x hx
        rcases List.mem_cons.1 hx with rfl | hx
        · exact hlt
        · exact lexLt_trans hlt (h.head x hx)
      refine ⟨List.pairwise_cons.2 ⟨hk, h⟩, ?_⟩
      intro x hx
      rcases List.mem_cons.1 hx with rfl | hx
      · exact .inl rfl
      · refine .inr ⟨hx, fun hc => ?_⟩
        have := hk x hx; rw [hc, lexLt_irrefl] at this; exact absurd this (by simp)
    · rw [if_neg hlt]
      by_cases heq : k = e.1
      · rw [if_pos heq]
        refine ⟨List.pairwise_cons.2 ⟨fun x hx => by rw [heq]; exact h.head x hx, h.tail⟩, ?_⟩
        intro x hx
        rcases List.mem_cons.1 hx with rfl | hx
        · exact .inl rfl
        · refine .inr ⟨by simp [hx], fun hc => ?_⟩
          have := h.head x hx; rw [← heq, hc, lexLt_irrefl] at this; exact absurd this (by simp)
      · rw [if_neg heq]
        obtain ⟨h1, h2⟩ := ih h.tail
        refine ⟨List.pairwise_cons.2 ⟨?_, h1⟩, ?_⟩
        · intro x hx
          rcases h2 x hx with rfl | ⟨hx, _⟩
          · rcases lexLt_total e.1 k with g | g | g
            · exact g
            · exact absurd g.symm heq
            · exact absurd g hlt
          · exact h.head x hx
        · intro x hx
          rcases List.mem_cons.1 hx with rfl | hx
          · exact .inr ⟨by simp, Ne.symm heq⟩
          · rcases h2 x hx with rfl | ⟨hx, hne⟩
            · exact .inl rfl
            · exact .inr ⟨by simp [hx], hne⟩

theorem mem_insert_self (t : Tbl) (k v : Bytes) : (k, v) ∈ t.insert k v := by
  induction t with
  | nil => simp [Tbl.insert]
  | cons e t ih => 
    unfold Tbl.insert
    split
    · simp
    · split <;> simp [ih]

theorem mem_insert_other {t : Tbl} {k : Bytes} (v : Bytes) {e : Entry} (he : e ∈ t) (hne : e.1 ≠ k) : e ∈ t.insert k v := by
  induction t with
  | nil => simp at he
  | cons x t ih =>
    unfold Tbl.insert
    rcases List.mem_cons.1 he with rfl | he
    · split
      · simp
      · rw [if_neg (Ne.symm hne)]; simp
    · split
      · simp [he]
      · split
        · simp [he]
        · simp [ih he]

theorem mem_insert_iff {t : Tbl} (h : Sorted t) (k v : Bytes) (e : Entry) :
    e ∈ t.insert k v ↔ e = (k, v) ∨ (e ∈ t ∧ e.1 ≠ k) := by
  constructor
  · exact (sorted_insert h k v).2 e
  · rintro (rfl | ⟨h1, h2⟩)
    · exact mem_insert_self ..
    · exact mem_insert_other v h1 h2

theorem before_fro (t : Tbl) (k : Bytes) : t.before k ++ t.fro k = t := by
  unfold Tbl.before Tbl.fro; exact List.takeWhile_append_dropWhile

/-- In a sorted table the entries from a key on are those with a key not below it. -/
theorem fro_eq {t : Tbl} (h : Sorted t) (k : Bytes) : t.fro k = t.filter (fun e => !lexLt e.1 k) := by
  unfold Tbl.fro
  induction t with
  | nil => rfl
  | cons e t ih =>
    rw [List.dropWhile_cons]
    split
    · rename_i hlt; rw [ih h.tail, List.filter_cons_of_neg (by simp [hlt])]
    · rename_i hlt
      rw [List.filter_eq_self.2]
      intro x hx
      simp only [Bool.not_eq_true'] at *
      rcases List.mem_cons.1 hx with rfl | hx
      · simpa using hlt
      · cases hc : lexLt x.1 k with
        | false => rfl
        | true => exact absurd (lexLt_trans (h.head x hx) hc) hlt

theorem before_eq {t : Tbl} (h : Sorted t) (k : Bytes) : t.before k = t.filter (fun e => lexLt e.1 k) := by
  unfold Tbl.before
  induction t with
  | nil => rfl
  | cons e t ih =>
    rw [List.takeWhile_cons]
    split
    · rename_i hlt; rw [ih h.tail, List.filter_cons_of_pos (by simpa using hlt)]
    · rename_i hlt
      rw [eq_comm, List.filter_eq_nil_iff]
      intro x hx hc
      rcases List.mem_cons.1 hx with rfl | hx
      · exact hlt hc
      · exact hlt (lexLt_trans (h.head x hx) hc)

theorem Sorted.fro {t : Tbl} (h : Sorted t) (k : Bytes) : Sorted (t.fro k) := by rw [fro_eq h]; exact h.filter _
theorem Sorted.before {t : Tbl} (h : Sorted t) (k : Bytes) : Sorted (t.before k) := by rw [before_eq h]; exact h.filter _

theorem mem_fro {t : Tbl} (h : Sorted t) {k : Bytes} {e : Entry} : e ∈ t.fro k ↔ e ∈ t ∧ lexLt e.1 k = false := by
  rw [fro_eq h]; simp

theorem mem_before {t : Tbl} (h : Sorted t) {k : Bytes} {e : Entry} : e ∈ t.before k ↔ e ∈ t ∧ lexLt e.1 k = true := by
  rw [before_eq h]; simp

/-- Two sorted tables with the same entries are equal. -/
theorem Sorted.ext {s t : Tbl} (hs : Sorted s) (ht : Sorted t) (h : ∀ e, e ∈ s ↔ e ∈ t) : s = t := by
  induction s generalizing t with
  | nil => cases t with
    | nil => rfl
    | cons e t => exact absurd ((h e).2 (by simp)) (by simp)
  | cons a s ih =>
    cases t with
    | nil => exact absurd ((h a).1 (by simp)) (by simp)
    | cons b t =>
      have hab : a = b := by
        have h1 := (h a).1 (by simp)
        have h2 := (h b).2 (by simp)
        rcases List.mem_cons.1 h1 with h1 | h1
        · exact h1
        · rcases List.mem_cons.1 h2 with h2 | h2
          · exact h2.symm
          · have g1 := ht.head a h1
            have g2 := hs.head b h2
            rw [lexLt_asymm g1] at g2; exact absurd g2 (by simp)
      subst hab
      congr 1
      apply ih hs.tail ht.tail
      intro e
      have := h e
      simp only [List.mem_cons] at this
      constructor
      · intro he
        rcases this.1 (.inr he) with rfl | h'
        · have := hs.head _ he; rw [lexLt_irrefl] at this; exact absurd this (by simp)
        · exact h'
      · intro he
        rcases this.2 (.inr he) with rfl | h'
        · have := ht.head _ he; rw [lexLt_irrefl] at this; exact absurd this (by simp)
        · exact h'

end Verif.Db
