import Verif.Bsr.Spec

/-! # Writes that keep the store in order -/

namespace Verif.Bsr

open Verif.Kel (Id Dig Node Seal)

theorem put_same {α : Type} (f : Nat → α) (k : Nat) (v : α) : put f k v k = v := by simp [put]

theorem put_ne {α : Type} (f : Nat → α) {k x : Nat} (v : α) (h : x ≠ k) : put f k v x = f x := by simp [put, h]

theorem mem_ioAdd (l : List (Nat × Dig)) (n : Nat) (d : Dig) (x : Nat × Dig) : x ∈ ioAdd l n d ↔ x ∈ l ∨ x = (n, d) := by
  unfold ioAdd
  by_cases h : (n, d) ∈ l
  · rw [if_pos h]; constructor
    · exact .inl
    · rintro (h' | rfl)
      · exact h'
      · exact h
  · rw [if_neg h]
    have hs := List.takeWhile_append_dropWhile (p := fun x : Nat × Dig => decide (x.1 ≤ n)) (l := l)
    constructor
    · intro hx
      rcases List.mem_append.1 hx with hx | hx
      · exact .inl (by rw [← hs]; exact List.mem_append_left _ hx)
      · rcases List.mem_cons.1 hx with rfl | hx
        · exact .inr rfl
        · exact .inl (by rw [← hs]; exact List.mem_append_right _ hx)
    · rintro (hx | rfl)
      · rw [← hs] at hx
        rcases List.mem_append.1 hx with hx | hx
        · exact List.mem_append_left _ hx
        · exact List.mem_append_right _ (List.mem_cons_of_mem _ hx)
      · simp

theorem mem_ioRem (l : List (Nat × Dig)) (n : Nat) (d : Dig) (x : Nat × Dig) : x ∈ ioRem l n d ↔ x ∈ l ∧ x ≠ (n, d) := by
  simp [ioRem]

theorem mem_at (l : List (Nat × Dig)) (n : Nat) (d : Dig) : d ∈ at' l n ↔ (n, d) ∈ l := by
  unfold at'
  simp only [List.mem_map, List.mem_filter, decide_eq_true_eq]
  constructor
  · rintro ⟨⟨a, b⟩, ⟨h1, rfl⟩, rfl⟩; exact h1
  · intro h; exact ⟨(n, d), ⟨h, rfl⟩, rfl⟩

theorem mem_ins (s : Store) (a : Dig) (l : List Dig) (x : Dig) : x ∈ ins s a l ↔ x = a ∨ x ∈ l := by
  induction l with
  | nil => simp [ins]
  | cons b l ih =>
    unfold ins
    split
    · simp
    · simp only [List.mem_cons, ih]; grind

theorem mem_sortQ (s : Store) (l : List Dig) (x : Dig) : x ∈ sortQ s l ↔ x ∈ l := by
  induction l with
  | nil => simp [sortQ]
  | cons b l ih => unfold sortQ at *; rw [List.foldr_cons, mem_ins, ih]; simp

/-- The event has the number and the registry, and its kind fits the number. -/
structure Slot (e : REvt) (k : Dig) (n : Nat) : Prop where
  regk : e.regk = k
  num : e.n = n
  kind : (e.ilk = .rip ∧ n = 0) ∨ (e.ilk = .bup ∧ n ≠ 0)

/-- The store is in order. -/
structure SInv (V : REvt → Prop) (s : Store) : Prop where
  evt : ∀ d e, s.evts d = some e → e.said = d ∧ V e
  tel : ∀ k n d, s.tels k n = some d → ∃ e, s.evts d = some e ∧ Slot e k n ∧ (s.ancs d).isSome = true ∧
    (n ≠ 0 → ∃ p, s.before k n = some p ∧ p.said = e.prior)
  head : ∀ k d, s.heads k = some d → ∃ n, s.tels k n = some d
  mae : ∀ k n d, (n, d) ∈ s.maes k → ∃ e, s.evts d = some e ∧ Slot e k n
  ooe : ∀ k n d, (n, d) ∈ s.ooes k → ∃ e, s.evts d = some e ∧ Slot e k n ∧ n ≠ 0 ∧ (s.ancs d).isSome = true
  rcd : ∀ x ∈ s.records, ∃ e, s.evts x.2 = some e ∧ e.ilk = .rip

/-- What a write may do in a store in order. `J e c`: the couple is an anchor of `e`. -/
def Wr.ok (V : REvt → Prop) (J : REvt → Nat × Dig → Prop) (s : Store) : Wr → Prop
  | .evt e => V e
  | .anc d c => ∃ e, s.evts d = some e ∧ J e c
  | .tel k n d => ∃ e, s.evts d = some e ∧ Slot e k n ∧ (s.ancs d).isSome = true ∧ (n ≠ 0 → ∃ p, s.before k n = some p ∧ p.said = e.prior) ∧
      (s.tels k n = none ∨ s.tels k n = some d)
  | .head k d => ∃ n, s.tels k n = some d
  | .addM k n d => ∃ e, s.evts d = some e ∧ Slot e k n
  | .addO k n d => ∃ e, s.evts d = some e ∧ Slot e k n ∧ n ≠ 0 ∧ (s.ancs d).isSome = true
  | .remM _ _ _ => True
  | .remO _ _ _ => True
  | .record _ k => ∃ e, s.evts k = some e ∧ e.ilk = .rip

/-- Nothing stored, accepted or anchored gets lost. -/
structure Ext (s s' : Store) : Prop where
  evts : ∀ d e, s.evts d = some e → s'.evts d = some e
  tels : ∀ k n d, s.tels k n = some d → s'.tels k n = some d
  ancs : ∀ d, (s.ancs d).isSome = true → (s'.ancs d).isSome = true

theorem Ext.refl (s : Store) : Ext s s := ⟨fun _ _ h => h, fun _ _ _ h => h, fun _ h => h⟩

theorem Ext.trans {a b c : Store} (h : Ext a b) (h' : Ext b c) : Ext a c :=
  ⟨fun _ _ x => h'.evts _ _ (h.evts _ _ x), fun _ _ _ x => h'.tels _ _ _ (h.tels _ _ _ x), fun _ x => h'.ancs _ (h.ancs _ x)⟩

theorem Ext.seq {s s' : Store} (h : Ext s s') {k : Dig} {n : Nat} {e : REvt} (hs : s.seqEvent k n = some e) : s'.seqEvent k n = some e := by
  unfold Store.seqEvent at *
  cases ht : s.tels k n with
  | none => rw [ht] at hs; simp at hs
  | some d => rw [ht] at hs; rw [h.tels _ _ _ ht]; exact h.evts _ _ (by simpa using hs)

theorem Ext.bef {s s' : Store} (h : Ext s s') {k : Dig} {n : Nat} {e : REvt} (hs : s.before k n = some e) : s'.before k n = some e := by
  cases n with
  | zero => simp [Store.before] at hs
  | succ n => exact h.seq hs

theorem ext_apply {V : REvt → Prop} (hnc : NoColl V) {J : REvt → Nat × Dig → Prop} {s : Store} (hi : SInv V s) {w : Wr} (hw : w.ok V J s) :
    Ext s (s.apply w) := by
  cases w with
  | evt e =>
    refine ⟨fun d x hx => ?_, fun _ _ _ h => h, fun _ h => h⟩
    simp only [Store.apply, put]
    split
    · rename_i hd
      have := hi.evt d x hx
      rw [hnc e x hw this.2 (by rw [this.1, hd])]
    · exact hx
  | anc d c =>
    refine ⟨fun _ _ h => h, fun _ _ _ h => h, fun x hx => ?_⟩
    simp only [Store.apply, put]
    split
    · rfl
    · exact hx
  | tel k n d =>
    simp only [Store.apply]
    split
    · exact Ext.refl s
    · rename_i hn
      refine ⟨fun _ _ h => h, fun k' n' d' h => ?_, fun _ h => h⟩
      simp only [put]
      split
      · rename_i hk; subst hk
        simp only [put]
        split
        · rename_i hn'; subst hn'; rw [hn] at h; cases h
        · exact h
      · exact h
  | _ => exact ⟨fun _ _ h => h, fun _ _ _ h => h, fun _ h => h⟩

theorem inv_apply {V : REvt → Prop} (hnc : NoColl V) {J : REvt → Nat × Dig → Prop} {s : Store} (hi : SInv V s) {w : Wr} (hw : w.ok V J s) :
    SInv V (s.apply w) := by
  have hx := ext_apply hnc hi hw
  have tel0 : ∀ k n d, s.tels k n = some d → ∃ e, (s.apply w).evts d = some e ∧ Slot e k n ∧ ((s.apply w).ancs d).isSome = true ∧
      (n ≠ 0 → ∃ p, (s.apply w).before k n = some p ∧ p.said = e.prior) := by
    intro k n d h
    obtain ⟨e, a, b, c, f⟩ := hi.tel k n d h
    exact ⟨e, hx.evts _ _ a, b, hx.ancs _ c, fun hn => let ⟨p, hp, hq⟩ := f hn; ⟨p, hx.bef hp, hq⟩⟩
  have head0 : ∀ k d, s.heads k = some d → ∃ n, (s.apply w).tels k n = some d :=
    fun k d h => let ⟨n, hn⟩ := hi.head k d h; ⟨n, hx.tels _ _ _ hn⟩
  have mae0 : ∀ k n d, (n, d) ∈ s.maes k → ∃ e, (s.apply w).evts d = some e ∧ Slot e k n :=
    fun k n d h => let ⟨e, a, b⟩ := hi.mae k n d h; ⟨e, hx.evts _ _ a, b⟩
  have ooe0 : ∀ k n d, (n, d) ∈ s.ooes k → ∃ e, (s.apply w).evts d = some e ∧ Slot e k n ∧ n ≠ 0 ∧ ((s.apply w).ancs d).isSome = true :=
    fun k n d h => let ⟨e, a, b, c, f⟩ := hi.ooe k n d h; ⟨e, hx.evts _ _ a, b, c, hx.ancs _ f⟩
  have rec0 : ∀ x ∈ s.records, ∃ e, (s.apply w).evts x.2 = some e ∧ e.ilk = .rip :=
    fun x h => let ⟨e, a, b⟩ := hi.rcd x h; ⟨e, hx.evts _ _ a, b⟩
  cases w with
  | evt e =>
    refine ⟨fun d x h => ?_, tel0, head0, mae0, ooe0, rec0⟩
    simp only [Store.apply, put] at h
    split at h
    · rename_i hd; cases h; exact ⟨hd.symm, hw⟩
    · exact hi.evt d x h
  | anc d c => exact ⟨hi.evt, tel0, head0, mae0, ooe0, rec0⟩
  | tel k n d =>
    have hev : (s.apply (.tel k n d)).evts = s.evts := by simp only [Store.apply]; split <;> rfl
    have hhd : (s.apply (.tel k n d)).heads = s.heads := by simp only [Store.apply]; split <;> rfl
    have hma : (s.apply (.tel k n d)).maes = s.maes := by simp only [Store.apply]; split <;> rfl
    have hoo : (s.apply (.tel k n d)).ooes = s.ooes := by simp only [Store.apply]; split <;> rfl
    have hre : (s.apply (.tel k n d)).records = s.records := by simp only [Store.apply]; split <;> rfl
    refine ⟨by rw [hev]; exact hi.evt, fun k' n' d' h => ?_, by rw [hhd]; exact head0, by rw [hma]; exact mae0, by rw [hoo]; exact ooe0, by rw [hre]; exact rec0⟩
    have : s.tels k' n' = some d' ∨ (k' = k ∧ n' = n ∧ d' = d) := by
      simp only [Store.apply] at h
      split at h
      · exact .inl h
      · simp only [put] at h
        split at h
        · rename_i hk
          simp only [put] at h
          split at h
          · rename_i hn; cases h; exact .inr ⟨hk, hn, rfl⟩
          · exact .inl (by rw [hk]; exact h)
        · exact .inl h
    rcases this with h' | ⟨rfl, rfl, rfl⟩
    · exact tel0 k' n' d' h'
    · obtain ⟨e, a, b, c, f, _⟩ := hw
      exact ⟨e, hx.evts _ _ a, b, hx.ancs _ c, fun hn => let ⟨p, hp, hq⟩ := f hn; ⟨p, hx.bef hp, hq⟩⟩
  | head k d =>
    refine ⟨hi.evt, tel0, fun k' d' h => ?_, mae0, ooe0, rec0⟩
    simp only [Store.apply, put] at h
    split at h
    · rename_i hk; cases h; rw [hk]; exact hw
    · exact head0 k' d' h
  | addM k n d =>
    refine ⟨hi.evt, tel0, head0, fun k' n' d' h => ?_, ooe0, rec0⟩
    simp only [Store.apply, put] at h
    split at h
    · rename_i hk; subst hk
      rcases (mem_ioAdd _ _ _ _).1 h with h | h
      · exact mae0 _ _ _ h
      · cases h; exact hw
    · exact mae0 _ _ _ h
  | addO k n d =>
    refine ⟨hi.evt, tel0, head0, mae0, fun k' n' d' h => ?_, rec0⟩
    simp only [Store.apply, put] at h
    split at h
    · rename_i hk; subst hk
      rcases (mem_ioAdd _ _ _ _).1 h with h | h
      · exact ooe0 _ _ _ h
      · cases h; exact hw
    · exact ooe0 _ _ _ h
  | remM k n d =>
    refine ⟨hi.evt, tel0, head0, fun k' n' d' h => ?_, ooe0, rec0⟩
    simp only [Store.apply, put] at h
    split at h
    · rename_i hk; subst hk; exact mae0 _ _ _ ((mem_ioRem _ _ _ _).1 h).1
    · exact mae0 _ _ _ h
  | remO k n d =>
    refine ⟨hi.evt, tel0, head0, mae0, fun k' n' d' h => ?_, rec0⟩
    simp only [Store.apply, put] at h
    split at h
    · rename_i hk; subst hk; exact ooe0 _ _ _ ((mem_ioRem _ _ _ _).1 h).1
    · exact ooe0 _ _ _ h
  | record name k =>
    refine ⟨hi.evt, tel0, head0, mae0, ooe0, fun x h => ?_⟩
    simp only [Store.apply] at h
    rcases List.mem_append.1 h with h | h
    · exact rec0 x (List.mem_filter.1 h).1
    · simp only [List.mem_singleton] at h; subst h; exact hw

/-- Each write of the list may be done where it is done. -/
def Good (V : REvt → Prop) (J : REvt → Nat × Dig → Prop) : Store → List Wr → Prop
  | _, [] => True
  | s, w :: l => w.ok V J s ∧ Good V J (s.apply w) l

theorem applyAll_append (s : Store) (a b : List Wr) : s.applyAll (a ++ b) = (s.applyAll a).applyAll b := by
  unfold Store.applyAll; rw [List.foldl_append]

theorem applyAll_cons (s : Store) (w : Wr) (l : List Wr) : s.applyAll (w :: l) = (s.apply w).applyAll l := rfl

theorem good_append {V : REvt → Prop} {J : REvt → Nat × Dig → Prop} {s : Store} {a b : List Wr} (ha : Good V J s a)
    (hb : Good V J (s.applyAll a) b) : Good V J s (a ++ b) := by
  induction a generalizing s with
  | nil => exact hb
  | cons w l ih => exact ⟨ha.1, ih ha.2 hb⟩

theorem good_take {V : REvt → Prop} {J : REvt → Nat × Dig → Prop} {s : Store} {a : List Wr} (ha : Good V J s a) (m : Nat) :
    Good V J s (a.take m) := by
  induction a generalizing s m with
  | nil => simp [Good]
  | cons w l ih =>
    cases m with
    | zero => simp [Good]
    | succ m => exact ⟨ha.1, ih ha.2 m⟩

theorem good_inv {V : REvt → Prop} (hnc : NoColl V) {J : REvt → Nat × Dig → Prop} {s : Store} (hi : SInv V s) {a : List Wr}
    (ha : Good V J s a) : SInv V (s.applyAll a) ∧ Ext s (s.applyAll a) := by
  induction a generalizing s with
  | nil => exact ⟨hi, Ext.refl s⟩
  | cons w l ih =>
    have h1 := ih (inv_apply hnc hi ha.1) ha.2
    exact ⟨h1.1, (ext_apply hnc hi ha.1).trans h1.2⟩

theorem good_mono {V : REvt → Prop} {J J' : REvt → Nat × Dig → Prop} (hJ : ∀ e c, J e c → J' e c) {s : Store} {a : List Wr} (ha : Good V J s a) :
    Good V J' s a := by
  induction a generalizing s with
  | nil => trivial
  | cons w l ih =>
    refine ⟨?_, ih ha.2⟩
    have := ha.1
    cases w <;> first | exact this | (obtain ⟨e, h1, h2⟩ := this; exact ⟨e, h1, hJ _ _ h2⟩)

/-- The event may be accepted. -/
structure Ready (V : REvt → Prop) (s : Store) (e : REvt) : Prop where
  v : V e
  slot : Slot e e.regk e.n
  anc : (s.ancs e.said).isSome = true
  prior : e.n ≠ 0 → ∃ p, s.before e.regk e.n = some p ∧ p.said = e.prior
  free : s.tels e.regk e.n = none ∨ s.tels e.regk e.n = some e.said

theorem good_rems {V : REvt → Prop} {J : REvt → Nat × Dig → Prop} (l : List Wr) (h : ∀ w ∈ l, (∃ k n d, w = .remM k n d) ∨ ∃ k n d, w = .remO k n d)
    (s : Store) : Good V J s l := by
  induction l generalizing s with
  | nil => trivial
  | cons w l ih =>
    refine ⟨?_, ih (fun x hx => h x (List.mem_cons_of_mem _ hx)) _⟩
    rcases h w List.mem_cons_self with ⟨_, _, _, rfl⟩ | ⟨_, _, _, rfl⟩ <;> trivial

theorem tel_set (s : Store) (k : Dig) (n : Nat) (d : Dig) (h : s.tels k n = none ∨ s.tels k n = some d) : (s.apply (.tel k n d)).tels k n = some d := by
  simp only [Store.apply]
  rcases h with h | h
  · rw [h]; simp [put]
  · rw [h]; exact h

theorem good_commit {V : REvt → Prop} (hnc : NoColl V) {J : REvt → Nat × Dig → Prop} {s : Store} (hi : SInv V s) {e : REvt} (h : Ready V s e) :
    Good V J s (commit s e) := by
  unfold commit
  refine good_append (good_append ?_ (good_rems _ ?_ _)) (good_rems _ ?_ _)
  · have hx := ext_apply hnc (J := J) hi (w := .evt e) h.v
    refine ⟨h.v, ⟨e, ?_, h.slot, hx.ancs _ h.anc, fun hn => ?_, h.free⟩, ⟨e.n, ?_⟩, trivial⟩
    · simp [Store.apply, put]
    · obtain ⟨p, hp, hq⟩ := h.prior hn; exact ⟨p, hx.bef hp, hq⟩
    · exact tel_set _ _ _ _ h.free
  · intro w hw; obtain ⟨d, _, rfl⟩ := List.mem_map.1 hw; exact .inl ⟨_, _, _, rfl⟩
  · intro w hw; obtain ⟨d, _, rfl⟩ := List.mem_map.1 hw; exact .inr ⟨_, _, _, rfl⟩

theorem good_clear {V : REvt → Prop} {J : REvt → Nat × Dig → Prop} (s : Store) (k : Dig) (n : Nat) (d : Dig) : Good V J s (clear k n d) :=
  ⟨trivial, trivial, trivial⟩

/-- Writes that take nothing away and do not touch the log. -/
def Wr.plain : Wr → Prop
  | .evt _ => True
  | .anc _ _ => True
  | .addM _ _ _ => True
  | .addO _ _ _ => True
  | .record _ _ => True
  | _ => False

/-- Why an entry of an escrow is dropped: its body is missing, the slot is taken, the predecessor is another one, or it is an inception that `R`
tells to turn away. -/
def Reason (R : REvt → Prop) (s : Store) (k : Dig) (n : Nat) (d : Dig) : Prop :=
  s.evts d = none ∨ (s.seqEvent k n).isSome = true ∨ (∃ e p, s.evts d = some e ∧ s.before k n = some p ∧ p.said ≠ e.prior) ∨
    ∃ e, s.evts d = some e ∧ e.ilk = .rip ∧ R e

/-- The slot of the event is free, or it is its own and comes next after the head. -/
def Free (s : Store) (e : REvt) : Prop := s.tels e.regk e.n = none ∨ (s.tels e.regk e.n = some e.said ∧ e.n = s.next e.regk)

/-- Calls are made of these blocks. -/
inductive Blocks (V : REvt → Prop) (J : REvt → Nat × Dig → Prop) (R : REvt → Prop) : Store → List Wr → Prop
  | nil (s : Store) : Blocks V J R s []
  | plain {s : Store} {w : Wr} {l : List Wr} (hp : w.plain) (ho : w.ok V J s) (h : Blocks V J R (s.apply w) l) : Blocks V J R s (w :: l)
  | drop {s : Store} {k : Dig} {n : Nat} {d : Dig} {l : List Wr} (hr : Reason R s k n d) (h : Blocks V J R (s.applyAll (clear k n d)) l) :
      Blocks V J R s (clear k n d ++ l)
  | move {s : Store} {e : REvt} {l : List Wr} (ho : Wr.ok V J (s.apply (.remM e.regk e.n e.said)) (.addO e.regk e.n e.said))
      (h : Blocks V J R (s.applyAll [.remM e.regk e.n e.said, .addO e.regk e.n e.said]) l) :
      Blocks V J R s ([.remM e.regk e.n e.said, .addO e.regk e.n e.said] ++ l)
  | take {s : Store} {e : REvt} {l : List Wr} (hr : Ready V s e) (hf : s.tels e.regk e.n = none)
      (h : Blocks V J R ((s.apply (.remM e.regk e.n e.said)).applyAll (commit (s.apply (.remM e.regk e.n e.said)) e)) l) :
      Blocks V J R s (.remM e.regk e.n e.said :: (commit (s.apply (.remM e.regk e.n e.said)) e ++ l))
  | com {s : Store} {e : REvt} {l : List Wr} (hr : Ready V s e) (hf : Free s e) (h : Blocks V J R (s.applyAll (commit s e)) l) :
      Blocks V J R s (commit s e ++ l)

theorem Ready.remM {V : REvt → Prop} {s : Store} {e : REvt} (h : Ready V s e) (k : Dig) (n : Nat) (d : Dig) : Ready V (s.apply (.remM k n d)) e :=
  ⟨h.v, h.slot, h.anc, h.prior, h.free⟩

theorem Blocks.good {V : REvt → Prop} (hnc : NoColl V) {J : REvt → Nat × Dig → Prop} {R : REvt → Prop} {s : Store} {l : List Wr}
    (h : Blocks V J R s l) (hi : SInv V s) : Good V J s l := by
  induction h with
  | nil s => trivial
  | plain hp ho _ ih => exact ⟨ho, ih (inv_apply hnc hi ho)⟩
  | drop hr _ ih => exact good_append (good_clear _ _ _ _) (ih (good_inv hnc hi (good_clear (J := J) _ _ _ _)).1)
  | move ho _ ih =>
    have hg : Good V J _ [.remM _ _ _, .addO _ _ _] := ⟨trivial, ho, trivial⟩
    exact good_append hg (ih (good_inv hnc hi hg).1)
  | @take s e l hr hf _ ih =>
    have h1 := inv_apply hnc (J := J) hi (w := .remM e.regk e.n e.said) trivial
    have hg := good_commit hnc (J := J) h1 (hr.remM _ _ _)
    exact ⟨trivial, good_append hg (ih (good_inv hnc h1 hg).1)⟩
  | com hr hf _ ih =>
    have hg := good_commit hnc (J := J) hi hr
    exact good_append hg (ih (good_inv hnc hi hg).1)

theorem blk_append {V : REvt → Prop} {J : REvt → Nat × Dig → Prop} {R : REvt → Prop} {s : Store} {a b : List Wr} (ha : Blocks V J R s a)
    (hb : Blocks V J R (s.applyAll a) b) : Blocks V J R s (a ++ b) := by
  induction ha with
  | nil s => exact hb
  | plain hp ho _ ih => exact .plain hp ho (ih hb)
  | drop hr _ ih => rw [List.append_assoc]; exact .drop hr (ih (by rw [applyAll_append] at hb; exact hb))
  | move ho _ ih => rw [List.append_assoc]; exact .move ho (ih (by rw [applyAll_append] at hb; exact hb))
  | take hr hf _ ih =>
    rw [List.cons_append, List.append_assoc]
    exact .take hr hf (ih (by rw [applyAll_cons, applyAll_append] at hb; exact hb))
  | com hr hf _ ih => rw [List.append_assoc]; exact .com hr hf (ih (by rw [applyAll_append] at hb; exact hb))

theorem ok_mono {V : REvt → Prop} {J J' : REvt → Nat × Dig → Prop} (hJ : ∀ e c, J e c → J' e c) {s : Store} {w : Wr} (h : w.ok V J s) : w.ok V J' s := by
  cases w <;> first | exact h | (obtain ⟨e, h1, h2⟩ := h; exact ⟨e, h1, hJ _ _ h2⟩)

theorem blk_mono {V : REvt → Prop} {J J' : REvt → Nat × Dig → Prop} {R R' : REvt → Prop} (hJ : ∀ e c, J e c → J' e c) (hR : ∀ e, R e → R' e) {s : Store}
    {a : List Wr} (ha : Blocks V J R s a) : Blocks V J' R' s a := by
  induction ha with
  | nil s => exact .nil s
  | plain hp ho _ ih => exact .plain hp (ok_mono hJ ho) ih
  | drop hr _ ih =>
    refine .drop ?_ ih
    rcases hr with h | h | h | ⟨e, h1, h2, h3⟩
    · exact .inl h
    · exact .inr (.inl h)
    · exact .inr (.inr (.inl h))
    · exact .inr (.inr (.inr ⟨e, h1, h2, hR _ h3⟩))
  | move ho _ ih => exact .move (ok_mono hJ ho) ih
  | take hr hf _ ih => exact .take hr hf ih
  | com hr hf _ ih => exact .com hr hf ih

theorem blk_inv {V : REvt → Prop} (hnc : NoColl V) {J : REvt → Nat × Dig → Prop} {R : REvt → Prop} {s : Store} (hi : SInv V s) {a : List Wr}
    (ha : Blocks V J R s a) : SInv V (s.applyAll a) ∧ Ext s (s.applyAll a) := good_inv hnc hi (ha.good hnc hi)

/-- The verdict to commit is given for events that may be accepted. -/
theorem verdict_ready {V : REvt → Prop} {s : Store} (hi : SInv V s) {k : Dig} {n : Nat} {d : Dig} {e0 e : REvt} (h0 : s.evts d = some e0)
    (hs : Slot e0 k n) (hn : n ≠ 0) (h : verdict s k n d = .commit e) : e = e0 ∧ e.said = d ∧ Ready V s e := by
  unfold verdict at h
  rw [h0] at h
  dsimp only at h
  split at h
  · cases h
  · rename_i h1
    split at h
    · cases h
    · rename_i h2
      split at h
      · cases h
      · rename_i p hp
        split at h
        · cases h
        · rename_i h3
          cases h
          have hsaid := (hi.evt _ _ h0).1
          have hv := (hi.evt _ _ h0).2
          obtain ⟨rfl, rfl, hk⟩ := hs
          refine ⟨rfl, hsaid, hv, ⟨rfl, rfl, hk⟩, ?_, fun _ => ⟨p, hp, by simpa using h3⟩, ?_⟩
          · rw [hsaid]; cases hc : s.ancs d with
            | none => simp [hc] at h2
            | some _ => rfl
          · cases ht : s.tels e0.regk e0.n with
            | none => exact .inl rfl
            | some d' =>
              right
              obtain ⟨x, hx, _⟩ := hi.tel _ _ _ ht
              have : s.seqEvent e0.regk e0.n = some x := by simp [Store.seqEvent, ht, hx]
              rw [this] at h1
              simp only [Option.any_some, decide_eq_true_eq, ne_eq, Decidable.not_not] at h1
              rw [← (hi.evt _ _ hx).1, h1, hsaid]

/-- What the loop over queued digests is given. -/
def Queued (s : Store) (k : Dig) (n : Nat) (l : List Dig) : Prop := n ≠ 0 ∧ ∀ d ∈ l, ∃ e, s.evts d = some e ∧ Slot e k n

theorem verdict_clear {s : Store} {k : Dig} {n : Nat} {d : Dig} (R : REvt → Prop) (h : verdict s k n d = .clear) : Reason R s k n d := by
  unfold verdict at h
  split at h
  · rename_i he; exact .inl he
  · rename_i e he
    split at h
    · rename_i h1
      right; left
      cases hs : s.seqEvent k n with
      | none => rw [hs] at h1; simp at h1
      | some _ => rfl
    · split at h
      · cases h
      · split at h
        · cases h
        · rename_i p hp
          split at h
          · rename_i hne; exact .inr (.inr (.inl ⟨e, p, he, hp, hne⟩))
          · cases h

theorem blk_walk {V : REvt → Prop} (hnc : NoColl V) {J : REvt → Nat × Dig → Prop} {R : REvt → Prop} {k : Dig} {n : Nat} (l : List Dig) {s : Store}
    (hi : SInv V s) (hq : Queued s k n l) (hnx : n = s.next k) :
    Blocks V J R s (walk s k n l).1 ∧ ∀ e, (walk s k n l).2 = some e → e.said ∈ l ∧ V e ∧ Slot e k n := by
  induction l generalizing s with
  | nil => exact ⟨.nil s, by simp [walk]⟩
  | cons d l ih =>
    have hq' : ∀ s', Ext s s' → Queued s' k n l := fun s' hx =>
      ⟨hq.1, fun d hd => let ⟨e, a, b⟩ := hq.2 d (List.mem_cons_of_mem _ hd); ⟨e, hx.evts _ _ a, b⟩⟩
    unfold walk
    cases hv : verdict s k n d with
    | clear =>
      have hg := good_inv hnc hi (good_clear (V := V) (J := J) s k n d)
      have := ih hg.1 (hq' _ hg.2) hnx
      exact ⟨.drop (verdict_clear R hv) this.1, fun e he => let ⟨a, b, c⟩ := this.2 e he; ⟨List.mem_cons_of_mem _ a, b, c⟩⟩
    | wait =>
      have := ih hi (hq' _ (Ext.refl s)) hnx
      exact ⟨this.1, fun e he => let ⟨a, b, c⟩ := this.2 e he; ⟨List.mem_cons_of_mem _ a, b, c⟩⟩
    | commit e =>
      obtain ⟨e0, h0, hs⟩ := hq.2 d List.mem_cons_self
      obtain ⟨rfl, hsaid, hr⟩ := verdict_ready hi h0 hs hq.1 hv
      refine ⟨?_, fun e' he => ?_⟩
      · have hf : Free s e := by
          rcases hr.free with h | h
          · exact .inl h
          · exact .inr ⟨h, by rw [hs.num, hs.regk]; exact hnx⟩
        have := Blocks.com (J := J) (R := R) hr hf (.nil _)
        rw [List.append_nil] at this; exact this
      · cases he
        exact ⟨by rw [hsaid]; exact List.mem_cons_self, hr.v, hs⟩

theorem queued_of {V : REvt → Prop} {s : Store} (hi : SInv V s) (k : Dig) (n : Nat) (h : at' (s.ooes k) n ≠ []) :
    Queued s k n (sortQ s (at' (s.ooes k) n)) := by
  have hall : ∀ d ∈ at' (s.ooes k) n, ∃ e, s.evts d = some e ∧ Slot e k n ∧ n ≠ 0 := fun d hd => by
    obtain ⟨e, a, b, c, _⟩ := hi.ooe k n d ((mem_at _ _ _).1 hd); exact ⟨e, a, b, c⟩
  refine ⟨?_, fun d hd => let ⟨e, a, b, _⟩ := hall d ((mem_sortQ _ _ _).1 hd); ⟨e, a, b⟩⟩
  cases hl : at' (s.ooes k) n with
  | nil => exact absurd hl h
  | cons d l => exact (hall d (by rw [hl]; exact List.mem_cons_self)).choose_spec.2.2

theorem blk_drain {V : REvt → Prop} (hnc : NoColl V) {J : REvt → Nat × Dig → Prop} {R : REvt → Prop} (f : Nat) {s : Store} (hi : SInv V s) (k : Dig) :
    Blocks V J R s (drain f s k) := by
  induction f generalizing s k with
  | zero => exact .nil s
  | succ f ih =>
    unfold drain
    by_cases h : at' (s.ooes k) (s.next k) = []
    · rw [if_pos h]; exact .nil s
    · rw [if_neg h]
      have hw := blk_walk hnc (J := J) (R := R) _ hi (queued_of hi k _ h) rfl
      split
      · rename_i ws he; rw [he] at hw; exact hw.1
      · rename_i ws e he; rw [he] at hw
        exact blk_append hw.1 (ih (blk_inv hnc hi hw.1).1 _)

/-- What validation tells. -/
theorem validate_some {s : Store} {o : Obj} {e : REvt} {x p : Option REvt} (h : validate s o e = some (x, p)) :
    Slot e e.regk e.n ∧ (e.ilk = .rip → e.iss = o.hab) ∧ (∀ k, o.regk = some k → k = e.regk) ∧ x = s.seqEvent e.regk e.n ∧
    (∀ y, x = some y → y.said = e.said) ∧ (e.ilk = .rip → p = none) ∧ (e.ilk ≠ .rip → p = s.before e.regk e.n) ∧ (∀ y, p = some y → y.said = e.prior) := by
  unfold validate at h
  split at h
  · cases h
  rename_i h0
  split at h
  · cases h
  rename_i h1
  split at h
  · cases h
  rename_i h2
  split at h
  · cases h
  rename_i h3
  split at h
  · cases h
  rename_i h4
  split at h
  · cases h
  rename_i h5
  have hslot : Slot e e.regk e.n := by
    refine ⟨rfl, rfl, ?_⟩
    cases hk : e.ilk with
    | rip => left; exact ⟨rfl, Decidable.byContradiction fun hn => h1 ⟨hk, hn⟩⟩
    | bup => right; exact ⟨rfl, fun hn => h3 ⟨by rw [hk]; decide, by omega⟩⟩
    | other => exact absurd hk h0
  have hiss : e.ilk = .rip → e.iss = o.hab := fun hk => Decidable.byContradiction fun hn => h2 ⟨hk, hn⟩
  have hreg : ∀ k, o.regk = some k → k = e.regk := fun k hk => by rw [hk] at h4; simpa using h4
  have hex : ∀ y, s.seqEvent e.regk e.n = some y → y.said = e.said := fun y hy => by rw [hy] at h5; simpa using h5
  split at h
  · rename_i h6
    cases h
    exact ⟨hslot, hiss, hreg, rfl, hex, fun _ => rfl, fun hn => absurd h6 hn, by simp⟩
  · rename_i h6
    split at h
    · cases h
    · rename_i h7
      cases h
      exact ⟨hslot, hiss, hreg, rfl, hex, fun hk => absurd hk h6, fun _ => rfl, fun y hy => by rw [hy] at h7; simpa using h7⟩

/-- Anchors that the habitat's log has for events of registry `k`. -/
def Anch (nd : Node) (hab : Id) (k : Dig) (e : REvt) (c : Nat × Dig) : Prop := e.regk = k ∧ verifyAnchor nd hab e c = true

theorem blk_anchorWrites {V : REvt → Prop} {R : REvt → Prop} (nd : Node) (s s' : Store) (hab : Id) (e : REvt) (he : s'.evts e.said = some e) :
    Blocks V (Anch nd hab e.regk) R s' (anchorWrites nd s hab e) := by
  unfold anchorWrites
  split
  · exact .nil _
  · split
    · exact .nil _
    · split
      · rename_i hv; exact .plain trivial ⟨e, he, rfl, hv⟩ (.nil _)
      · exact .nil _

theorem anchorWrites_frame (nd : Node) (s s' : Store) (hab : Id) (e : REvt) :
    (s'.applyAll (anchorWrites nd s hab e)).tels = s'.tels ∧ (s'.applyAll (anchorWrites nd s hab e)).evts = s'.evts := by
  unfold anchorWrites
  split
  · exact ⟨rfl, rfl⟩
  · split
    · exact ⟨rfl, rfl⟩
    · split <;> exact ⟨rfl, rfl⟩

theorem blk_processEvent {V : REvt → Prop} (hnc : NoColl V) {R : REvt → Prop} (nd : Node) {s : Store} (hi : SInv V s) (o : Obj) {e : REvt} (he : V e) :
    Blocks V (Anch nd o.hab e.regk) R s (processEvent nd s o e).ws := by
  unfold processEvent
  cases hv : validate s o e with
  | none => exact .nil _
  | some r =>
    obtain ⟨x, prior⟩ := r
    have hval := validate_some hv
    cases x with
    | some x => exact .nil _
    | none =>
      dsimp only
      have hg : Blocks V (Anch nd o.hab e.regk) R s (.evt e :: anchorWrites nd s o.hab e) :=
        .plain trivial he (blk_anchorWrites nd s _ o.hab e (by simp [Store.apply, put]))
      obtain ⟨hi1, hx1⟩ := blk_inv hnc hi hg
      have hst : (s.applyAll (.evt e :: anchorWrites nd s o.hab e)).evts e.said = some e := by
        rw [applyAll_cons, (anchorWrites_frame _ _ _ _ _).2]; simp [Store.apply, put]
      have htel : (s.applyAll (.evt e :: anchorWrites nd s o.hab e)).tels = s.tels := by
        rw [applyAll_cons, (anchorWrites_frame _ _ _ _ _).1]; rfl
      by_cases hn : ((s.applyAll (.evt e :: anchorWrites nd s o.hab e)).ancs e.said).isNone = true
      · rw [if_pos hn]
        exact blk_append hg (.plain trivial ⟨e, hst, hval.1⟩ (.nil _))
      · rw [if_neg hn]
        have hanc : ((s.applyAll (.evt e :: anchorWrites nd s o.hab e)).ancs e.said).isSome = true := by
          cases h : (s.applyAll (.evt e :: anchorWrites nd s o.hab e)).ancs e.said <;> simp_all
        unfold advance
        by_cases hc : e.ilk = .rip ∨ prior.isSome = true
        · rw [if_pos hc]
          have hfree : (s.applyAll (.evt e :: anchorWrites nd s o.hab e)).tels e.regk e.n = none := by
            rw [htel]
            cases ht : s.tels e.regk e.n with
            | none => rfl
            | some d =>
              obtain ⟨y, hy, _⟩ := hi.tel _ _ _ ht
              have := hval.2.2.2.1
              simp [Store.seqEvent, ht, hy] at this
          have hready : Ready V (s.applyAll (.evt e :: anchorWrites nd s o.hab e)) e := by
            refine ⟨he, hval.1, hanc, fun h0 => ?_, .inl hfree⟩
            have hb : e.ilk ≠ .rip := by rcases hval.1.kind with ⟨_, h⟩ | ⟨h, _⟩ <;> grind
            have hp := hval.2.2.2.2.2.2.1 hb
            cases hpr : prior with
            | none => rw [hpr] at hc; simp at hc; exact absurd hc hb
            | some p => exact ⟨p, hx1.bef (by rw [← hp, hpr]), hval.2.2.2.2.2.2.2 p hpr⟩
          refine blk_append hg (.take hready hfree (blk_drain hnc _ ?_ _))
          have h1 := inv_apply hnc (J := Anch nd o.hab e.regk) hi1 (w := .remM e.regk e.n e.said) trivial
          exact (good_inv hnc h1 (good_commit hnc (J := Anch nd o.hab e.regk) h1 (hready.remM _ _ _))).1
        · rw [if_neg hc]
          have hb : e.ilk ≠ .rip := fun h => hc (.inl h)
          have h0 : e.n ≠ 0 := by rcases hval.1.kind with ⟨h, _⟩ | ⟨_, h⟩ <;> grind
          have := Blocks.move (V := V) (J := Anch nd o.hab e.regk) (R := R) (s := s.applyAll (.evt e :: anchorWrites nd s o.hab e)) (e := e)
            ⟨e, hst, hval.1, h0, hanc⟩ (.nil _)
          exact blk_append hg this

end Verif.Bsr
