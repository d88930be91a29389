import Verif.Krm.PropsPrune

/-! # C98: changes of settings take effect -/

namespace Verif.Krm

open Verif.Kel (Id Dig Sig)

/-- One entry for each cache type, as in every dict. -/
def OneEach (cf : Tab Ctype Rec) : Prop := (cf.map Prod.fst).Nodup

/-- How a cache type of the new settings is entered: with the windows of acceptance it had before (a new one: not wider than any), or with its own; the entry that waits for it. -/
structure Entered (now W : Int) (old : Tab Ctype Rec) (c : Ctype) (n r : Rec) (p p' : Option Pend) : Prop where
  d : r.d = (old.get c).elim n.d Rec.d
  psl : r.psl = n.psl
  pll : r.pll = n.pll
  pxl : r.pxl = n.pxl
  held : ∀ o, old.get c = some o → r.sl ≤ o.sl ∧ r.ll ≤ o.ll ∧ r.xl ≤ o.xl
  lags : (p' = p ∧ r.sl = n.sl ∧ r.ll = n.ll ∧ r.xl = n.xl) ∨ ∃ w, w ≤ W ∧ p' = some ⟨n.sl, n.ll, n.xl, now, w⟩

theorem foldl_min_le (l : List Int) : ∀ a : Int, l.foldl min a ≤ a ∧ (l.foldl min a = a ∨ l.foldl min a ∈ l) := by
  induction l with
  | nil => intro a; simp
  | cons b l ih =>
    intro a
    rw [List.foldl_cons]
    obtain ⟨h1, h2⟩ := ih (min a b)
    refine ⟨by omega, ?_⟩
    rcases h2 with h2 | h2
    · rw [h2]
      by_cases h : a ≤ b
      · exact Or.inl (by omega)
      · exact Or.inr (by simp; omega)
    · exact Or.inr (by simp [h2])

theorem minOf_mem {l : List Int} (h : l ≠ []) : minOf l ∈ l := by
  cases l with
  | nil => exact absurd rfl h
  | cons a l =>
    show l.foldl min a ∈ a :: l
    rcases (foldl_min_le l a).2 with h | h
    · rw [h]; simp
    · simp [h]

theorem minOf_accept {cf : Tab Ctype Rec} {p : Ctype} : minOf (accept cf p) = 0 ∨ ∃ e ∈ cf, minOf (accept cf p) = e.2.sl := by
  by_cases h : accept cf p = []
  · rw [h]; exact Or.inl rfl
  · have := minOf_mem h
    unfold accept at this
    obtain ⟨e, he, h1⟩ := List.mem_map.1 this
    exact Or.inr ⟨e, (List.mem_filter.1 he).1, h1.symm⟩

theorem valid_mem {cf : Tab Ctype Rec} {e : Ctype × Rec} (hv : validCf cf = true) (h : e ∈ cf) :
    0 ≤ e.2.d ∧ (0 < e.2.sl ∧ e.2.sl ≤ e.2.ll ∧ e.2.ll ≤ e.2.xl) ∧ e.2.sl ≤ e.2.psl ∧ e.2.ll ≤ e.2.pll ∧ e.2.xl ≤ e.2.pxl := by
  have := List.all_eq_true.1 hv _ h
  unfold validRec at this
  simp only [Bool.and_eq_true, decide_eq_true_eq] at this
  exact ⟨this.1.1.1.1, this.1.1.1.2, this.1.1.2, this.1.2, this.2⟩

theorem delta3_le {old new : Tab Ctype Rec} {W : Int} (hv : validCf old = true) (hn : validCf new = true) (h0 : 0 ≤ W) (hW : ∀ e ∈ new, e.2.xl ≤ W) : delta3 old new ≤ W := by
  unfold delta3
  have : ∀ (l : List Ctype) (a : Int), a ≤ W → l.foldl (fun acc p =>
    if differs old new p then
      max acc (max 0 (minOf (accept new p) - (if old.all (fun e => e.1 ≠ p) then 0 else minOf (accept old p))))
    else acc) a ≤ W := by
    intro l
    induction l with
    | nil => exact fun _ h => h
    | cons p l ih =>
      intro a ha
      rw [List.foldl_cons]
      refine ih _ ?_
      split
      · have h1 : minOf (accept new p) ≤ W := by
          rcases minOf_accept (cf := new) (p := p) with h | ⟨e, he, h⟩
          · omega
          · have h2 := hW e he
            have h3 := valid_mem hn he
            omega
        have h2 : 0 ≤ minOf (accept old p) := by
          rcases minOf_accept (cf := old) (p := p) with h | ⟨e, he, h⟩
          · omega
          · have h3 := valid_mem hv he
            omega
        split <;> omega
      · exact ha
  exact this _ _ h0

theorem changeOne_other {now : Int} {old : Tab Ctype Rec} {o : Option Int} {d3 : Int} {k : Krm} {e : Ctype × Rec} {c : Ctype} (h : e.1 ≠ c) :
    (changeOne now old o d3 k e).ctyp.get c = k.ctyp.get c ∧ (changeOne now old o d3 k e).pending.get c = k.pending.get c := by
  unfold changeOne
  dsimp only
  split
  · split
    · exact ⟨by dsimp only; rw [get_pin, if_neg h], rfl⟩
    · exact ⟨by dsimp only; rw [get_pin, if_neg h], by dsimp only; rw [get_pin, if_neg h]⟩
  · split
    · exact ⟨by dsimp only; rw [get_pin, if_neg h], rfl⟩
    · exact ⟨by dsimp only; rw [get_pin, if_neg h], by dsimp only; rw [get_pin, if_neg h]⟩

theorem changeOne_nodup {now : Int} {old : Tab Ctype Rec} {o : Option Int} {d3 : Int} {k : Krm} {e : Ctype × Rec} (h : (k.pending.map Prod.fst).Nodup) :
    ((changeOne now old o d3 k e).pending.map Prod.fst).Nodup := by
  unfold changeOne
  dsimp only
  split
  · split
    · exact h
    · exact nodup_pin h
  · split
    · exact h
    · exact nodup_pin h

theorem changeOne_at {now W : Int} {old : Tab Ctype Rec} {o : Option Int} {d3 : Int} {k : Krm} {c : Ctype} {n : Rec} (hv : validCf old = true) (hn : validRec n = true)
    (hW : n.xl ≤ W) (h3 : d3 ≤ W) (h0 : 0 ≤ W) (ho : ∀ x, o = some x → x ≤ W) :
    ∃ r, (changeOne now old o d3 k (c, n)).ctyp.get c = some r ∧ Entered now W old c n r (k.pending.get c) ((changeOne now old o d3 k (c, n)).pending.get c) := by
  unfold validRec at hn
  simp only [Bool.and_eq_true, decide_eq_true_eq] at hn
  have hd : o.getD d3 ≤ W := by cases o with
    | none => exact h3
    | some x => exact ho x rfl
  unfold changeOne
  dsimp only
  split
  · rename_i hg
    split
    · refine ⟨_, (get_pin ..).trans (if_pos rfl), ?_, rfl, rfl, rfl, ?_, Or.inl ⟨rfl, rfl, rfl, rfl⟩⟩
      · rw [hg]; rfl
      · intro x hx; rw [hg] at hx; simp at hx
    · refine ⟨_, (get_pin ..).trans (if_pos rfl), ?_, ?_, ?_, ?_, ?_, Or.inr ⟨_, hd, by rw [get_pin, if_pos rfl]⟩⟩
      · rw [hg]; rfl
      · show max n.psl n.sl = n.psl; omega
      · show max n.pll n.ll = n.pll; omega
      · show max n.pxl n.xl = n.pxl; omega
      · intro x hx; rw [hg] at hx; simp at hx
  · rename_i oo hg
    have hoo := valid_mem hv (get_mem hg)
    dsimp only at hoo
    split
    · rename_i hle
      refine ⟨_, (get_pin ..).trans (if_pos rfl), ?_, rfl, rfl, rfl, ?_, Or.inl ⟨rfl, rfl, rfl, rfl⟩⟩
      · rw [hg]; rfl
      · intro x hx; rw [hg] at hx; injection hx with hx; subst hx; exact ⟨hle.1, hle.2.1, hle.2.2.1⟩
    · refine ⟨_, (get_pin ..).trans (if_pos rfl), ?_, ?_, ?_, ?_, ?_, Or.inr ⟨_, ?_, by rw [get_pin, if_pos rfl]⟩⟩
      · rw [hg]; rfl
      · show max n.psl n.sl = n.psl; omega
      · show max n.pll n.ll = n.pll; omega
      · show max n.pxl n.xl = n.pxl; omega
      · intro x hx; rw [hg] at hx; injection hx with hx; subst hx; exact ⟨Int.le_refl _, Int.le_refl _, Int.le_refl _⟩
      · cases o with
        | none =>
          show max (max (max 0 (n.sl - oo.sl)) (max (max 0 (n.ll - oo.ll)) (max 0 (n.xl - oo.xl)))) d3 ≤ W
          omega
        | some x => exact ho x rfl

theorem foldChange_other {now : Int} {old : Tab Ctype Rec} {o : Option Int} {d3 : Int} {c : Ctype} : ∀ (l : Tab Ctype Rec) (k : Krm), (∀ e ∈ l, e.1 ≠ c) →
    (l.foldl (changeOne now old o d3) k).ctyp.get c = k.ctyp.get c ∧ (l.foldl (changeOne now old o d3) k).pending.get c = k.pending.get c
  | [], _, _ => ⟨rfl, rfl⟩
  | e :: l, k, h => by
    rw [List.foldl_cons]
    have h1 := foldChange_other (now := now) (old := old) (o := o) (d3 := d3) l (changeOne now old o d3 k e) (fun e he => h e (List.mem_cons_of_mem _ he))
    have h2 := changeOne_other (now := now) (old := old) (o := o) (d3 := d3) (k := k) (h e List.mem_cons_self)
    exact ⟨h1.1.trans h2.1, h1.2.trans h2.2⟩

theorem foldChange_at {now W : Int} {old : Tab Ctype Rec} {o : Option Int} {d3 : Int} {c : Ctype} {n : Rec} (hv : validCf old = true)
    (h3 : d3 ≤ W) (h0 : 0 ≤ W) (ho : ∀ x, o = some x → x ≤ W) : ∀ (l : Tab Ctype Rec) (k : Krm), OneEach l → validCf l = true → (∀ e ∈ l, e.2.xl ≤ W) → l.get c = some n →
    ∃ r, (l.foldl (changeOne now old o d3) k).ctyp.get c = some r ∧
      Entered now W old c n r (k.pending.get c) ((l.foldl (changeOne now old o d3) k).pending.get c)
  | [], _, _, _, _, h => by simp [get_nil] at h
  | e :: l, k, hn, hvl, hW, h => by
    rw [List.foldl_cons]
    unfold OneEach at hn
    rw [List.map_cons, List.nodup_cons] at hn
    have hvl' : validRec e.2 = true ∧ validCf l = true := by
      unfold validCf at hvl ⊢
      rw [List.all_cons, Bool.and_eq_true] at hvl
      exact hvl
    rw [get_cons] at h
    by_cases he : e.1 = c
    · rw [if_pos he] at h
      injection h with h
      have h4 : ∀ e' ∈ l, e'.1 ≠ c := fun e' he' h5 => hn.1 (List.mem_map.2 ⟨e', he', h5.trans he.symm⟩)
      obtain ⟨h5, h6⟩ := foldChange_other (now := now) (old := old) (o := o) (d3 := d3) l (changeOne now old o d3 k e) h4
      rw [h5, h6]
      have h7 : e = (c, n) := by rw [← he, ← h]
      rw [h7]
      exact changeOne_at hv (by rw [← h]; exact hvl'.1) (by rw [← h]; exact hW e List.mem_cons_self) h3 h0 ho
    · rw [if_neg he] at h
      have := foldChange_at (now := now) hv h3 h0 ho l (changeOne now old o d3 k e) hn.2 hvl'.2 (fun e he => hW e (List.mem_cons_of_mem _ he)) h
      rw [(changeOne_other he).2] at this
      exact this

theorem foldChange_nodup {now : Int} {old : Tab Ctype Rec} {o : Option Int} {d3 : Int} : ∀ (l : Tab Ctype Rec) (k : Krm), (k.pending.map Prod.fst).Nodup →
    ((l.foldl (changeOne now old o d3) k).pending.map Prod.fst).Nodup
  | [], _, h => h
  | e :: l, k, h => by rw [List.foldl_cons]; exact foldChange_nodup l _ (changeOne_nodup h)

theorem foldRem_at {new : Tab Ctype Rec} {c : Ctype} : ∀ (l : Tab Ctype Rec) (k : Krm),
    (l.foldl (fun (k : Krm) (e : Ctype × Rec) => if new.any (fun n => n.1 = e.1) then k else { k with ctyp := k.ctyp.rem e.1 }) k).ctyp.get c =
      (if new.get c = none ∧ l.get c ≠ none then none else k.ctyp.get c) ∧
    (l.foldl (fun (k : Krm) (e : Ctype × Rec) => if new.any (fun n => n.1 = e.1) then k else { k with ctyp := k.ctyp.rem e.1 }) k).pending = k.pending
  | [], _ => by simp [get_nil]
  | e :: l, k => by
    rw [List.foldl_cons]
    have hany : (new.any (fun n => n.1 = e.1)) = true ↔ new.get e.1 ≠ none := by
      constructor
      · intro h
        obtain ⟨x, hx, he⟩ := List.any_eq_true.1 h
        have he : x.1 = e.1 := by simpa using he
        obtain ⟨w, hw⟩ := get_of_mem (show (e.1, x.2) ∈ new from he ▸ hx)
        rw [hw]; simp
      · intro h
        cases hg : new.get e.1 with
        | none => exact absurd hg h
        | some w => exact List.any_eq_true.2 ⟨_, get_mem hg, by simp⟩
    have ih := foldRem_at (new := new) (c := c) l
    refine ⟨?_, ?_⟩
    · rw [(ih _).1, get_cons]
      by_cases h1 : new.get e.1 ≠ none
      · rw [if_pos (hany.2 h1)]
        by_cases h2 : e.1 = c
        · subst h2; simp [h1]
        · simp [h2]
      · rw [if_neg (fun h => h1 (hany.1 h))]
        have h1 : new.get e.1 = none := by simpa using h1
        by_cases h2 : e.1 = c
        · subst h2
          simp only [h1, if_true, true_and]
          rw [get_rem]
          simp
        · dsimp only
          rw [get_rem, if_neg h2, if_neg h2]
    · rw [(ih _).2]
      split <;> rfl

/-- All of an accepted change. -/
theorem change_ok {now : Int} {k k' : Krm} {new : Tab Ctype Rec} {o : Option Int} (h : changeConfig now k new o = (k', .ok ())) :
    badOverride o = false ∧ validCf new = true ∧ k'.cf = new ∧ k'.pending = (new.foldl (changeOne now k.cf o (delta3 k.cf new)) k).pending ∧
      ∀ c, k'.ctyp.get c = if new.get c = none ∧ k.cf.get c ≠ none then none else (new.foldl (changeOne now k.cf o (delta3 k.cf new)) k).ctyp.get c := by
  unfold changeConfig at h
  split at h
  · simp at h
  · rename_i hb
    split at h
    · simp at h
    · rename_i hv
      split at h
      · simp at h
      · injection h with h _
        refine ⟨by simpa using hb, by simpa using hv, by rw [← h], ?_, fun c => ?_⟩
        · rw [← h]
          dsimp only
          rw [(foldRem_at (c := .any) _ _).2]
        · rw [← h]
          dsimp only
          rw [(foldRem_at _ _).1]

theorem getNone_notMem {cf : Tab Ctype Rec} {c : Ctype} (h : cf.get c = none) : ∀ e ∈ cf, e.1 ≠ c := by
  intro e he hc
  obtain ⟨w, hw⟩ := get_of_mem (show (c, e.2) ∈ cf from hc ▸ he)
  rw [hw] at h
  simp at h

/-- C98: at once a change removes what the new settings lack, makes nothing that was there before wider, narrows what is narrower, and keeps everything as long as the
new settings say. -/
theorem c98_at_once {now : Int} {k k' : Krm} {new : Tab Ctype Rec} {o : Option Int} (hv : validCf k.cf = true) (hn : OneEach new)
    (h : changeConfig now k new o = (k', .ok ())) :
    k'.cf = new ∧ (∀ c, new.get c = none → k.cf.get c ≠ none → k'.ctyp.get c = none) ∧
    (∀ c, new.get c = none → k.cf.get c = none → k'.ctyp.get c = k.ctyp.get c) ∧
    (∀ c n, new.get c = some n → ∃ r, k'.ctyp.get c = some r ∧ (r.psl = n.psl ∧ r.pll = n.pll ∧ r.pxl = n.pxl) ∧
      ∀ o, k.cf.get c = some o → r.d = o.d ∧ r.sl ≤ o.sl ∧ r.ll ≤ o.ll ∧ r.xl ≤ o.xl) ∧
    (∀ c n o, new.get c = some n → k.cf.get c = some o → n.sl ≤ o.sl → n.ll ≤ o.ll → n.xl ≤ o.xl → n.psl ≤ o.psl → n.pll ≤ o.pll → n.pxl ≤ o.pxl →
      k'.ctyp.get c = some { n with d := o.d }) := by
  obtain ⟨_, h2, h3, _, h5⟩ := change_ok h
  obtain ⟨W, hW0, hW, ho⟩ : ∃ W : Int, 0 ≤ W ∧ (∀ e ∈ new, e.2.xl ≤ W) ∧ ∀ x, o = some x → x ≤ W := by
    have : ∀ l : Tab Ctype Rec, ∃ W : Int, 0 ≤ W ∧ ∀ e ∈ l, e.2.xl ≤ W := by
      intro l
      induction l with
      | nil => exact ⟨0, by omega, by simp⟩
      | cons e l ih =>
        obtain ⟨W, h1, h2⟩ := ih
        refine ⟨max W e.2.xl, by omega, fun e' he' => ?_⟩
        rcases List.mem_cons.1 he' with h | h
        · rw [h]; omega
        · have := h2 e' h; omega
    obtain ⟨W, h1, h2⟩ := this new
    refine ⟨max W (o.getD 0), by omega, fun e he => ?_, fun x hx => ?_⟩
    · have := h2 e he; omega
    · rw [hx]; simp; omega
  refine ⟨h3, ?_, ?_, ?_, ?_⟩
  · intro c h6 h7; rw [h5, if_pos ⟨h6, h7⟩]
  · intro c h6 h7
    rw [h5, if_neg (fun h => h.2 h7)]
    exact (foldChange_other _ _ (getNone_notMem h6)).1
  · intro c n h6
    obtain ⟨r, h7, h8⟩ := foldChange_at (now := now) hv (delta3_le hv h2 hW0 hW) hW0 ho new k hn h2 hW h6
    refine ⟨r, ?_, ⟨h8.psl, h8.pll, h8.pxl⟩, fun o h9 => ⟨?_, h8.held o h9⟩⟩
    · rw [h5, if_neg (fun h => by rw [h6] at h; simp at h)]; exact h7
    · rw [h8.d, h9]; rfl
  · intro c n oo h6 h7 l1 l2 l3 l4 l5 l6
    rw [h5, if_neg (fun h => by rw [h6] at h; simp at h)]
    have : ∀ (l : Tab Ctype Rec) (k1 : Krm), OneEach l → l.get c = some n →
        (l.foldl (changeOne now k.cf o (delta3 k.cf new)) k1).ctyp.get c = some { n with d := oo.d } := by
      intro l
      induction l with
      | nil => intro _ _ h; simp [get_nil] at h
      | cons e l ih =>
        intro k1 hn h
        unfold OneEach at hn
        rw [List.map_cons, List.nodup_cons] at hn
        rw [List.foldl_cons]
        rw [get_cons] at h
        by_cases he : e.1 = c
        · rw [if_pos he] at h
          injection h with h
          have h4 : ∀ e' ∈ l, e'.1 ≠ c := fun e' he' h5 => hn.1 (List.mem_map.2 ⟨e', he', h5.trans he.symm⟩)
          rw [(foldChange_other _ _ h4).1]
          unfold changeOne
          dsimp only
          rw [he, h7, h]
          dsimp only
          rw [if_pos ⟨l1, l2, l3, l4, l5, l6⟩, get_pin, if_pos rfl]
        · rw [if_neg he] at h
          exact ih _ hn.2 h
    exact this new k hn h6

theorem get_all_none {κ ν : Type} [DecidableEq κ] {t : Tab κ ν} (h : ∀ q, Tab.get t q = none) : t = [] := by
  cases t with
  | nil => rfl
  | cons e t => have := h e.1; rw [get_cons, if_pos rfl] at this; simp at this

/-- What waits takes effect when its time has come. -/
theorem reconcileGo_due {now : Int} : ∀ (l : Tab Ctype Pend) (k : Krm), (l.map Prod.fst).Nodup → (∀ e ∈ l, 1000 * e.2.delta ≤ now - e.2.start) → (∀ e ∈ l, k.ctyp.get e.1 ≠ none) →
    ∃ k', reconcileGo now l k = (k', .ok ()) ∧ (∀ c, k'.pending.get c = if l.get c = none then k.pending.get c else none) ∧
      (∀ c, l.get c = none → k'.ctyp.get c = k.ctyp.get c) ∧
      ∀ c p, l.get c = some p → ∃ r, k.ctyp.get c = some r ∧ k'.ctyp.get c = some { r with sl := p.sl, ll := p.ll, xl := p.xl }
  | [], k, _, _, _ => ⟨k, rfl, fun c => by simp [get_nil], fun c _ => rfl, fun c p h => by simp [get_nil] at h⟩
  | (c0, p0) :: l, k, hn, hd, hc => by
    rw [List.map_cons, List.nodup_cons] at hn
    have h1 := hd (c0, p0) List.mem_cons_self
    have h2 := hc (c0, p0) List.mem_cons_self
    dsimp only at h1 h2
    cases hr : k.ctyp.get c0 with
    | none => exact absurd hr h2
    | some r =>
      have h3 : ∀ e ∈ l, e.1 ≠ c0 := fun e he h => hn.1 (List.mem_map.2 ⟨e, he, h⟩)
      obtain ⟨k', i1, i2, i3, i4⟩ := reconcileGo_due (now := now) l
        { k with ctyp := k.ctyp.pin c0 { r with sl := p0.sl, ll := p0.ll, xl := p0.xl }, pending := k.pending.rem c0 } hn.2
        (fun e he => hd e (List.mem_cons_of_mem _ he)) (fun e he => by
          dsimp only
          rw [get_pin, if_neg (fun h => h3 e he h.symm)]
          exact hc e (List.mem_cons_of_mem _ he))
      have h4 : Tab.get l c0 = none := by
        cases hg : Tab.get l c0 with
        | none => rfl
        | some w => exact absurd rfl (h3 _ (get_mem hg))
      refine ⟨k', ?_, fun c => ?_, fun c h => ?_, fun c p h => ?_⟩
      · unfold reconcileGo
        rw [if_pos h1, hr]
        exact i1
      · rw [i2]
        dsimp only
        rw [get_rem, get_cons]
        by_cases h5 : c0 = c
        · subst h5; simp
        · simp [h5]
      · rw [get_cons] at h
        by_cases h5 : c0 = c
        · rw [if_pos h5] at h; simp at h
        · rw [if_neg h5] at h
          rw [i3 c h]
          dsimp only
          rw [get_pin, if_neg h5]
      · rw [get_cons] at h
        by_cases h5 : c0 = c
        · rw [if_pos h5] at h
          injection h with h
          subst h5 h
          refine ⟨r, hr, ?_⟩
          rw [i3 _ h4]
          dsimp only
          rw [get_pin, if_pos rfl]
        · rw [if_neg h5] at h
          obtain ⟨r', h6, h7⟩ := i4 c p h
          dsimp only at h6
          rw [get_pin, if_neg h5] at h6
          exact ⟨r', h6, h7⟩

/-- C98 (partial: changes that are not followed by others, and all but the drift of cache types that were there before).  Once as much time has passed as the widest of the
new windows (or as ordered), the settings are the new ones and nothing waits. -/
theorem c98_takes_effect_partial {now t W : Int} {k k' : Krm} {new : Tab Ctype Rec} {o : Option Int} (hv : validCf k.cf = true) (hp : k.pending = []) (hn : OneEach new)
    (h : changeConfig now k new o = (k', .ok ())) (hW0 : 0 ≤ W) (hW : ∀ e ∈ new, e.2.xl ≤ W) (ho : ∀ x, o = some x → x ≤ W) (ht : now + 1000 * W ≤ t) :
    ∃ k'', reconcile t k' = (k'', .ok ()) ∧ k''.pending = [] ∧
      (∀ c n, new.get c = some n → k''.ctyp.get c = some { n with d := (k.cf.get c).elim n.d Rec.d }) ∧ ∀ c, new.get c = none → k''.ctyp.get c = k'.ctyp.get c := by
  obtain ⟨_, h2, h3, h4, h5⟩ := change_ok h
  have hat : ∀ c n, new.get c = some n → ∃ r, k'.ctyp.get c = some r ∧ Entered now W k.cf c n r none (k'.pending.get c) := by
    intro c n h6
    obtain ⟨r, h7, h8⟩ := foldChange_at (now := now) hv (delta3_le hv h2 hW0 hW) hW0 ho new k hn h2 hW h6
    refine ⟨r, ?_, ?_⟩
    · rw [h5, if_neg (fun h => by rw [h6] at h; simp at h)]; exact h7
    · rw [h4]; rw [hp] at h8; exact h8
  have hno : ∀ c, new.get c = none → k'.pending.get c = none := by
    intro c h6
    rw [h4, (foldChange_other _ _ (getNone_notMem h6)).2, hp]
    rfl
  have hnd : (k'.pending.map Prod.fst).Nodup := by
    rw [h4]; exact foldChange_nodup _ _ (by rw [hp]; simp)
  have hmem : ∀ e ∈ k'.pending, ∃ n, new.get e.1 = some n ∧ e.2.delta ≤ W ∧ e.2.start = now ∧ k'.ctyp.get e.1 ≠ none := by
    intro e he
    obtain ⟨w, hw⟩ := get_of_mem (show (e.1, e.2) ∈ k'.pending from he)
    have hwe := uniq_mem hnd hw (show (e.1, e.2) ∈ k'.pending from he)
    cases hg : new.get e.1 with
    | none => rw [hno _ hg] at hw; simp at hw
    | some n =>
      obtain ⟨r, h7, h8⟩ := hat _ _ hg
      refine ⟨n, rfl, ?_⟩
      rcases h8.lags with ⟨h9, _⟩ | ⟨w', h9, h10⟩
      · rw [h9] at hw; simp at hw
      · rw [h10] at hw
        injection hw with hw
        rw [hwe, ← hw]
        exact ⟨h9, rfl, by rw [h7]; simp⟩
  obtain ⟨k'', i1, i2, i3, i4⟩ := reconcileGo_due (now := t) k'.pending k' hnd (fun e he => by
    obtain ⟨_, _, h6, h7, _⟩ := hmem e he
    rw [h7]; omega) (fun e he => by
    obtain ⟨_, _, _, _, h6⟩ := hmem e he
    exact h6)
  refine ⟨k'', i1, get_all_none (fun q => ?_), fun c n hc => ?_, fun c hc => i3 c (hno c hc)⟩
  · rw [i2]; split
    · assumption
    · rfl
  · obtain ⟨r, h7, h8⟩ := hat c n hc
    rcases h8.lags with ⟨h9, h10, h11, h12⟩ | ⟨w, _, h9⟩
    · rw [i3 c h9, h7]
      congr 1
      obtain ⟨d, sl, ll, xl, psl, pll, pxl⟩ := r
      have := h8.d; have := h8.psl; have := h8.pll; have := h8.pxl
      simp_all
    · obtain ⟨r', h10, h11⟩ := i4 c _ h9
      rw [h7] at h10
      injection h10 with h10
      subst h10
      rw [h11]
      congr 1
      obtain ⟨d, sl, ll, xl, psl, pll, pxl⟩ := r
      have := h8.d; have := h8.psl; have := h8.pll; have := h8.pxl
      simp_all

/-- C98: an ordered waiting time that is not positive is refused, and so are settings that are not valid. -/
theorem c98_refused {now : Int} {k : Krm} {new : Tab Ctype Rec} {o : Option Int} (h : (∃ x, o = some x ∧ x ≤ 0) ∨ validCf new = false) :
    changeConfig now k new o = (k, .error .config) := by
  unfold changeConfig
  rcases h with ⟨x, rfl, hx⟩ | h
  · rw [if_pos (by simpa [badOverride] using hx)]
  · split
    · rfl
    · rw [if_pos (by rw [h]; rfl)]

/-- C98: after a restart the cache types of the configuration are as configured, others are as before, nothing waits; a restart with settings that are not valid fails. -/
theorem c98_restart {k : Krm} {e : Bool} {d : List (List Char)} {cf : Tab Ctype Rec} (hn : OneEach cf) :
    (validCf cf = true → ∃ k', open_ k e d cf = .ok k' ∧ k'.enabled = e ∧ k'.denials = d ∧ k'.cf = cf ∧ k'.pending = [] ∧
      (∀ c n, cf.get c = some n → k'.ctyp.get c = some n) ∧ ∀ c, cf.get c = none → k'.ctyp.get c = k.ctyp.get c) ∧
    (validCf cf = false → ∃ x, open_ k e d cf = .error x) := by
  have key : ∀ (l ct : Tab Ctype Rec), OneEach l → ∀ c, (populate ct l).get c = (l.get c).or (ct.get c) := by
    intro l
    induction l with
    | nil => intro ct _ c; rfl
    | cons a l ih =>
      intro ct hn c
      unfold OneEach at hn
      rw [List.map_cons, List.nodup_cons] at hn
      have h1 : populate ct (a :: l) = populate (ct.pin a.1 a.2) l := rfl
      rw [h1, ih _ hn.2, get_cons, get_pin]
      by_cases h2 : a.1 = c
      · have h3 : Tab.get l c = none := by
          cases hg : Tab.get l c with
          | none => rfl
          | some w => exact absurd (List.mem_map.2 ⟨_, get_mem hg, rfl⟩) (h2 ▸ hn.1)
        simp [h2, h3]
      · simp [h2]
  constructor
  · intro h
    refine ⟨_, by unfold open_; rw [if_pos h], rfl, rfl, rfl, rfl, fun c n hc => ?_, fun c hc => ?_⟩
    · show (populate k.ctyp cf).get c = _
      rw [key _ _ hn, hc]; rfl
    · show (populate k.ctyp cf).get c = _
      rw [key _ _ hn, hc]; rfl
  · intro h
    exact ⟨_, by unfold open_; rw [if_neg (by rw [h]; simp)]⟩

end Verif.Krm
