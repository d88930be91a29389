import Verif.Db.IoSet
import Verif.Db.TableLemmas

/-! # Insertion-ordered sets: what the entries of a key are -/

namespace Verif.Db

theorem filterMap_congr' {α β : Type} {f g : α → Option β} {l : List α} (h : ∀ a ∈ l, f a = g a) : l.filterMap f = l.filterMap g := by
  induction l with
  | nil => rfl
  | cons a l ih =>
    rw [List.filterMap_cons, List.filterMap_cons, h a (by simp), ih (fun b hb => h b (by simp [hb]))]

/-- `g` begins the digits of all ordinals below `B`. -/
structure Guard (sep : Nat) (g : Bytes) (B : Nat) : Prop where
  sep : sep ∉ g
  dig : ∀ i, i < B → g <+: hex32 i
  le : B ≤ 16 ^ 32

theorem guard_nil (sep : Nat) : Guard sep [] (16 ^ 32) := ⟨by simp, fun _ _ => List.nil_prefix, Nat.le_refl _⟩

theorem guard_zero {sep : Nat} (hs : SepOk sep) : Guard sep [48] (16 ^ 31) := by
  refine ⟨?_, ?_, Nat.pow_le_pow_right (by omega) (by omega)⟩
  · intro h
    simp at h; subst h; exact absurd hs (by unfold SepOk; decide)
  · intro i hi
    have : i < 16 ^ 32 := Nat.lt_of_lt_of_le hi (Nat.pow_le_pow_right (by omega) (by omega))
    rw [hex32_of_lt this]
    have := toDigits_of_lt_pow (b := 16) (w1 := 1) (w2 := 31) hi
    rw [show (32 : Nat) = 1 + 31 from rfl, this]
    simp [hexChar]

/-- No key of `K` continues another one by a separator and `g`. -/
def NoNest (sep : Nat) (g : Bytes) (K : Bytes → Prop) : Prop := ∀ k k', K k → K k' → ¬ (k ++ sep :: g) <+: k'

theorem prefix_split {sep : Nat} {g k k' h : Bytes} (hg : sep ∉ g) (hh : sep ∉ h) (hp : (k ++ sep :: g) <+: (k' ++ sep :: h)) :
    k = k' ∨ (k ++ sep :: g) <+: k' := by
  obtain ⟨t, ht⟩ := hp
  rcases List.append_eq_append_iff.1 ht with ⟨a', h1, h2⟩ | ⟨c', h1, h2⟩
  · right; exact ⟨a', h1.symm⟩
  · -- k ++ sep :: g = k' ++ c', sep :: h = c' ++ _
    cases c' with
    | nil => right; rw [List.append_nil] at h1; rw [h1]; exact List.prefix_refl _
    | cons c c' =>
      simp at h2
      obtain ⟨rfl, h2⟩ := h2
      have hc : sep ∉ c' := fun hm => hh (by rw [h2]; simp [hm])
      left
      have e1 := rsplit_append k hg
      have e2 := rsplit_append k' hc
      rw [h1, e2] at e1
      injection e1 with e1
      injection e1 with e1 _
      exact e1.symm

/-- Table whose entries are suffixed keys of `K` with ordinals below `B`. -/
structure WF (sep : Nat) (K : Bytes → Prop) (B : Nat) (t : Tbl) : Prop where
  sorted : Sorted t
  keys : ∀ e ∈ t, ∃ k i, K k ∧ i < B ∧ e.1 = suffix sep k i

theorem WF.tail {sep : Nat} {K : Bytes → Prop} {B : Nat} {e : Entry} {t : Tbl} (h : WF sep K B (e :: t)) : WF sep K B t :=
  ⟨h.sorted.tail, fun x hx => h.keys x (by simp [hx])⟩

theorem WF.mono {sep : Nat} {K : Bytes → Prop} {B B' : Nat} {t : Tbl} (h : WF sep K B t) (hb : B ≤ B') : WF sep K B' t :=
  ⟨h.sorted, fun e he => by obtain ⟨k, i, h1, h2, h3⟩ := h.keys e he; exact ⟨k, i, h1, by omega, h3⟩⟩

theorem WF.sublist {sep : Nat} {K : Bytes → Prop} {B : Nat} {s t : Tbl} (h : WF sep K B t) (hs : s.Sublist t) : WF sep K B s :=
  ⟨h.sorted.sublist hs, fun e he => h.keys e (hs.subset he)⟩

/-- Ordinal and value of an entry of `key`. -/
def ent (sep : Nat) (key : Bytes) (e : Entry) : Option (Nat × Bytes) :=
  match unsuffix sep e.1 with
  | .ok (k, i) => if k = key then some (i, e.2) else none
  | .error _ => none

/-- Entries of `key` in the table. -/
def ents (sep : Nat) (key : Bytes) (t : Tbl) : List (Nat × Bytes) := t.filterMap (ent sep key)

theorem ent_suffix {sep : Nat} (hs : SepOk sep) (key k : Bytes) (i : Nat) (v : Bytes) :
    ent sep key (suffix sep k i, v) = if k = key then some (i, v) else none := by
  unfold ent; rw [unsuffix_suffix hs]

theorem ents_append (sep : Nat) (key : Bytes) (a b : Tbl) : ents sep key (a ++ b) = ents sep key a ++ ents sep key b := by
  simp [ents]

theorem mem_ents {sep : Nat} (hs : SepOk sep) {K : Bytes → Prop} {B : Nat} {t : Tbl} (h : WF sep K B t) {key : Bytes} {i : Nat} {v : Bytes} :
    (i, v) ∈ ents sep key t ↔ (suffix sep key i, v) ∈ t := by
  unfold ents
  rw [List.mem_filterMap]
  constructor
  · rintro ⟨⟨x, w⟩, he, hx⟩
    obtain ⟨k, j, hk, hj, hkey⟩ := h.keys _ he
    simp only at hkey; subst hkey
    rw [ent_suffix hs] at hx
    split at hx
    · rename_i hkk; subst hkk
      simp at hx; obtain ⟨rfl, rfl⟩ := hx; exact he
    · simp at hx
  · intro he
    exact ⟨_, he, by rw [ent_suffix hs, if_pos rfl]⟩

/-- Ordinals of a key increase. -/
theorem ents_increasing {sep : Nat} (hs : SepOk sep) {K : Bytes → Prop} {B : Nat} (hB : B ≤ 16 ^ 32) {t : Tbl} (h : WF sep K B t)
    (key : Bytes) : (ents sep key t).Pairwise (fun a b => a.1 < b.1) := by
  induction t with
  | nil => simp [ents]
  | cons e t ih =>
    obtain ⟨x, v⟩ := e
    obtain ⟨k, i, hk, hi, hx⟩ := h.keys (x, v) (by simp)
    simp only at hx; subst hx
    unfold ents
    rw [List.filterMap_cons, ent_suffix hs]
    by_cases hkk : k = key
    · subst hkk
      rw [if_pos rfl]
      refine List.pairwise_cons.2 ⟨?_, ih h.tail⟩
      rintro ⟨j, w⟩ hj
      have hm := (mem_ents hs h.tail).1 hj
      obtain ⟨k', j', _, hj', he⟩ := h.tail.keys _ hm
      have := onKey_inj hs he
      obtain ⟨rfl, rfl⟩ := this
      exact (lexLt_onKey k (by omega) (by omega)).1 (h.sorted.head _ hm)
    · rw [if_neg hkk]; exact ih h.tail

/-- An entry of another key cannot lie between two entries of `key`. -/
theorem no_gap {sep : Nat} (hs : SepOk sep) {g : Bytes} {B : Nat} (hg : Guard sep g B) {K : Bytes → Prop} (hn : NoNest sep g K)
    {key k : Bytes} (hk : K key) (hk' : K k) {i j : Nat} (hi : i < B) (hj : j < B) {m : Nat}
    (h1 : lexLt (suffix sep k m) (suffix sep key i) = false) (h2 : lexLt (suffix sep key j) (suffix sep k m) = false) : k = key := by
  have hp : ∀ i, i < B → (key ++ sep :: g) <+: suffix sep key i := by
    intro i hi
    obtain ⟨t, ht⟩ := hg.dig i hi
    exact ⟨t, by unfold suffix; rw [← ht]; simp⟩
  have := prefix_convex (hp i hi) (hp j hj) h1 h2
  rcases prefix_split hg.sep (sep_not_mem hs m) this with h | h
  · exact h.symm
  · exact absurd h (hn _ _ hk hk')

/-- Reading from a position not before any earlier entry of the key. -/
theorem scan_all {sep : Nat} (hs : SepOk sep) {g : Bytes} {B : Nat} (hg : Guard sep g B) {K : Bytes → Prop} (hn : NoNest sep g K)
    {key : Bytes} (hk : K key) {j : Nat} (hj : j < B) {t : Tbl} (h : WF sep K B t)
    (hfrom : ∀ e ∈ t, lexLt e.1 (suffix sep key j) = false) : scan sep key t = .ok (ents sep key t) := by
  induction t with
  | nil => rfl
  | cons e t ih =>
    obtain ⟨x, v⟩ := e
    obtain ⟨k, i, hkk, hi, hx⟩ := h.keys (x, v) (by simp)
    simp only at hx; subst hx
    unfold scan ents
    rw [unsuffix_suffix hs, List.filterMap_cons, ent_suffix hs]
    simp only
    by_cases hc : k = key
    · subst hc
      rw [if_pos rfl, if_pos rfl, ih h.tail (fun e he => hfrom e (by simp [he]))]
      rfl
    · rw [if_neg hc, if_neg hc]
      simp only
      have : ents sep key t = [] := by
        cases hl : ents sep key t with
        | nil => rfl
        | cons p l =>
          exfalso
          obtain ⟨i', w⟩ := p
          have hm := (mem_ents hs h.tail (key := key) (i := i') (v := w)).1 (by rw [hl]; simp)
          obtain ⟨k', j', _, hj', he⟩ := h.tail.keys _ hm
          obtain ⟨rfl, rfl⟩ := onKey_inj hs he
          exact hc (no_gap hs hg hn hk hkk hj hj' (hfrom (suffix sep k i, v) (by simp)) (lexLt_asymm (h.sorted.head _ hm)))
      show _ = Except.ok (ents sep key t)
      rw [this]

/-- **Reading loop.** From the `j`-th position of a key on, the loop reads exactly the entries of the key with ordinal at least `j`. -/
theorem scan_fro {sep : Nat} (hs : SepOk sep) {g : Bytes} {B : Nat} (hg : Guard sep g B) {K : Bytes → Prop} (hn : NoNest sep g K)
    {key : Bytes} (hk : K key) {j : Nat} (hj : j < B) {t : Tbl} (h : WF sep K B t) :
    scan sep key (t.fro (suffix sep key j)) = .ok ((ents sep key t).filter (fun p => decide (j ≤ p.1))) := by
  have hsub : (t.fro (suffix sep key j)).Sublist t := List.dropWhile_sublist _
  rw [scan_all hs hg hn hk hj (h.sublist hsub) (fun e he => ((mem_fro h.sorted).1 he).2)]
  congr 1
  rw [fro_eq h.sorted]
  unfold ents
  rw [List.filterMap_filter, List.filter_filterMap]
  apply filterMap_congr'
  rintro ⟨x, v⟩ he
  obtain ⟨k, i, hkk, hi, hx⟩ := h.keys _ he
  simp only at hx; subst hx
  simp only [ent_suffix hs]
  by_cases hc : k = key
  · subst hc
    have hle := hg.le
    have := lexLt_onKey (sep := sep) k (m := i) (n := j) (by omega) (by omega)
    by_cases hij : i < j
    · have ht : lexLt (suffix sep k i) (suffix sep k j) = true := this.2 hij
      rw [ht]; simp [Option.filter]; omega
    · have ht : lexLt (suffix sep k i) (suffix sep k j) = false := by
        cases hq : lexLt (suffix sep k i) (suffix sep k j) with
        | false => rfl
        | true => exact absurd (this.1 hq) hij
      rw [ht]; simp [Option.filter]; omega
  · rw [if_neg hc]; simp

theorem scan_zero {sep : Nat} (hs : SepOk sep) {g : Bytes} {B : Nat} (hg : Guard sep g B) {K : Bytes → Prop} (hn : NoNest sep g K)
    {key : Bytes} (hk : K key) (hB : 0 < B) {t : Tbl} (h : WF sep K B t) :
    scan sep key (t.fro (suffix sep key 0)) = .ok (ents sep key t) := by
  rw [scan_fro hs hg hn hk hB h]
  congr 1
  exact List.filter_eq_self.2 (by simp)

end Verif.Db
