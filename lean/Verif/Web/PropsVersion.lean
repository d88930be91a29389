import Verif.Web.Version
import Verif.Web.PropsKeep
import Verif.Db.PropsMap
/-! # C244: the version of a database in browsers -/

namespace Verif.Web

open Verif.Db (Bytes Entry Tbl Sorted)

/-- Specification: the version set last, if there is one. -/
def lastVer (v : Option Bytes) : List VInp → Option Bytes
  | [] => v
  | .set w :: is => lastVer (some w) is
  | _ :: is => lastVer v is

/-- Versions are set and read, the database is flushed; nothing else touches the store and it is not closed. -/
def Plain : VInp → Prop
  | .set v => BytesOk v
  | .read | .base .flush | .base .synced | .base .failed => True
  | _ => False

/-- What is remembered is what is stored. -/
structure VGood (d : VDb) : Prop where
  good : Good d.store
  isOpen : d.closed = false
  memo : ∀ v, d.memo = some v → d.store.items.get verKey = some v

theorem VGood.version {d : VDb} (h : VGood d) : d.version = d.store.items.get verKey := by
  unfold VDb.version
  cases hm : d.memo with
  | none => simp only [VDb.getVer, h.isOpen, Bool.false_eq_true, if_false]
  | some v => exact (h.memo v hm).symm

theorem verKey_ok : BytesOk verKey := by unfold BytesOk verKey; decide

theorem insert_ok {t : Tbl} (h : TblOk t) {k v : Bytes} (hk : BytesOk k) (hv : BytesOk v) : TblOk (t.insert k v) := by
  refine ⟨(Db.sorted_insert h.1 k v).1, fun e he => ?_⟩
  rcases (Db.mem_insert_iff h.1 k v e).mp he with he | he
  · rw [he]; exact ⟨hk, hv⟩
  · exact h.2 e he.1

theorem good_set {s : Store} (h : Good s) {v : Bytes} (hv : BytesOk v) : Good { s with items := assign s.items verKey v, dirty := true } :=
  ⟨insert_ok h.items verKey_ok hv, h.kept, h.sync⟩

theorem flushing_items {sep : Nat} (s : Store) {i : Inp} (hi : i = .flush ∨ i = .synced ∨ i = .failed) : (s.step sep i).items = s.items ∧ (s.step sep i).dup = s.dup := by
  rcases hi with rfl | rfl | rfl
  · simp only [Store.step]; split
    · exact ⟨rfl, rfl⟩
    · split <;> exact ⟨rfl, rfl⟩
  · simp only [Store.step]; split <;> exact ⟨rfl, rfl⟩
  · exact ⟨rfl, rfl⟩

/-- The steps of such histories. -/
theorem plain_cases {sep : Nat} {d : VDb} (ho : d.closed = false) {i : VInp} (hi : Plain i) :
    (∃ v, i = .set v ∧ BytesOk v ∧ d.step sep i = ⟨some v, { d.store with items := assign d.store.items verKey v, dirty := true }, false⟩) ∨
    (i = .read ∧ d.step sep i = { d with memo := d.version }) ∨
    (∃ j, i = .base j ∧ (j = .flush ∨ j = .synced ∨ j = .failed) ∧ d.step sep i = { d with store := d.store.step sep j }) := by
  match i, hi with
  | .set v, hv => exact .inl ⟨v, rfl, hv, by simp only [VDb.step, VDb.setVer, ho, Bool.false_eq_true, if_false]⟩
  | .read, _ => exact .inr (.inl ⟨rfl, rfl⟩)
  | .base .flush, _ => exact .inr (.inr ⟨_, rfl, .inl rfl, by simp only [VDb.step, ho, Bool.false_eq_true, if_false]⟩)
  | .base .synced, _ => exact .inr (.inr ⟨_, rfl, .inr (.inl rfl), rfl⟩)
  | .base .failed, _ => exact .inr (.inr ⟨_, rfl, .inr (.inr rfl), rfl⟩)

theorem flushing_good {sep : Nat} {s : Store} (h : Good s) {j : Inp} (hj : j = .flush ∨ j = .synced ∨ j = .failed) : Good (s.step sep j) := by
  rcases hj with rfl | rfl | rfl
  · have := h.step (sep := 0) (i := .flush) (by decide) trivial
    exact this
  · have := h.step (sep := 0) (i := .synced) (by decide) trivial
    exact this
  · have := h.step (sep := 0) (i := .failed) (by decide) trivial
    exact this

theorem VGood.step {sep : Nat} {d : VDb} (h : VGood d) {i : VInp} (hi : Plain i) : VGood (d.step sep i) ∧ (d.step sep i).version = lastVer d.version [i] := by
  rcases plain_cases (sep := sep) h.isOpen hi with ⟨v, rfl, hv, he⟩ | ⟨rfl, he⟩ | ⟨j, rfl, hj, he⟩
  · rw [he]
    refine ⟨⟨good_set h.good hv, rfl, fun w hw => ?_⟩, rfl⟩
    cases hw
    simp only [assign, Db.get_insert h.good.items.1, if_true]
  · rw [he]
    have hv : VGood { d with memo := d.version } := ⟨h.good, h.isOpen, fun w hw => by rw [← h.version]; exact hw⟩
    exact ⟨hv, by rw [hv.version]; exact h.version.symm⟩
  · rw [he]
    have hit := (flushing_items (sep := sep) d.store hj).1
    have hv : VGood { d with store := d.store.step sep j } := ⟨flushing_good h.good hj, h.isOpen, fun w hw => by rw [hit]; exact h.memo w hw⟩
    refine ⟨hv, ?_⟩
    rw [hv.version, hit, ← h.version]
    rfl

theorem lastVer_cons (v : Option Bytes) (i : VInp) (is : List VInp) : lastVer v (i :: is) = lastVer (lastVer v [i]) is := by
  cases i <;> rfl

theorem VGood.run {sep : Nat} {d : VDb} (h : VGood d) (is : List VInp) (hi : ∀ i ∈ is, Plain i) : VGood (d.run sep is) ∧ (d.run sep is).version = lastVer d.version is := by
  induction is generalizing d with
  | nil => exact ⟨h, rfl⟩
  | cons i is ih =>
    obtain ⟨h1, h2⟩ := h.step (sep := sep) (hi i (by simp))
    obtain ⟨h3, h4⟩ := ih h1 fun j hj => hi j (by simp [hj])
    exact ⟨h3, by rw [lastVer_cons, ← h2]; exact h4⟩

def freshV : VDb := ⟨none, fresh, false⟩

theorem freshV_open : openVDb ⟨[], none⟩ = .ok freshV := rfl

theorem vgood_fresh : VGood freshV := ⟨good_fresh, rfl, fun _ h => by cases h⟩

/-- C244, as long as the database is open and nothing else touches the store: the version is the one set last. -/
theorem c244_reads_partial {sep : Nat} (is : List VInp) (hi : ∀ i ∈ is, Plain i) : (freshV.run sep is).version = lastVer none is :=
  (vgood_fresh.run is hi).2

/-- No version is set between start and end of a flush. -/
def CalmV (sep : Nat) : VDb → List VInp → Prop
  | _, [] => True
  | d, i :: is => (d.store.sync ≠ none → ∀ v, i ≠ .set v) ∧ CalmV sep (d.step sep i) is

theorem kpt_step {sep : Nat} {d : VDb} (h : Kpt d.store) (ho : d.closed = false) {i : VInp} (hi : Plain i) (hc : d.store.sync ≠ none → ∀ v, i ≠ .set v) : Kpt (d.step sep i).store := by
  rcases plain_cases (sep := sep) ho hi with ⟨v, rfl, _, he⟩ | ⟨rfl, he⟩ | ⟨j, rfl, hj, he⟩
  · rw [he]
    refine ⟨fun k hk => ?_, fun hd => by cases hd⟩
    have hk' : d.store.sync = some k := hk
    exact absurd rfl (hc (by rw [hk']; simp) v)
  · rw [he]; exact h
  · rw [he]; exact h.step fun _ => flushing_items d.store hj

/-- C244, in the same histories and if no version is set while a flush is under way: once the store is not marked, opening the database again gives the version set last. -/
theorem c244_kept_partial {sep : Nat} (is : List VInp) (hi : ∀ i ∈ is, Plain i) (hc : CalmV sep freshV is) (hd : (freshV.run sep is).store.dirty = false) :
    ∃ d', openVDb (freshV.run sep is).store.kept = .ok d' ∧ d'.version = lastVer none is := by
  have hg := vgood_fresh.run (sep := sep) is hi
  have hk : ∀ (is : List VInp) (d : VDb), (∀ i ∈ is, Plain i) → VGood d → Kpt d.store → CalmV sep d is → Kpt (d.run sep is).store := by
    intro is
    induction is with
    | nil => intro d _ _ h _; exact h
    | cons i is ih =>
      intro d hi hv h hc
      exact ih _ (fun j hj => hi j (by simp [hj])) (hv.step (hi i (by simp))).1 (kpt_step h hv.isOpen (hi i (by simp)) hc.1) hc.2
  have hk := hk is freshV hi vgood_fresh ⟨fun k hk => (by cases hk), fun _ => ⟨rfl, .inr ⟨rfl, rfl, rfl⟩⟩⟩ hc
  have hv : (freshV.run sep is).store.items.get verKey = lastVer none is := by rw [← hg.1.version]; exact hg.2
  rcases (hk.clean hd).2 with h | ⟨h, h1, h2⟩
  · rw [h]
    unfold openVDb
    rw [open_pack hg.1.good.items]
    exact ⟨_, rfl, hv⟩
  · rw [h]
    rw [h1] at hv
    exact ⟨_, freshV_open, hv⟩

/-- **C244 fails once the database is closed.** A version that is set then is what is read, but it is stored nowhere: no flush keeps it. -/
theorem c244_closed {sep : Nat} {d : VDb} (hn : d.store.sync = none) (hc : d.closed = true) (v : Bytes) (later : List VInp)
    (hl : ∀ i ∈ later, i = .read ∨ i = .base .flush ∨ i = .base .synced ∨ i = .base .failed) :
    (d.run sep (.set v :: later)).version = some v ∧ (d.run sep (.set v :: later)).store.kept = d.store.kept := by
  have h : ∀ (later : List VInp) (u : VDb), (∀ i ∈ later, i = .read ∨ i = .base .flush ∨ i = .base .synced ∨ i = .base .failed) → u.closed = true → u.store.sync = none → u.memo = some v →
      (u.run sep later).version = some v ∧ (u.run sep later).store.kept = u.store.kept := by
    intro later
    induction later with
    | nil => intro u _ _ _ h3; exact ⟨by simp only [VDb.run, List.foldl_nil, VDb.version, h3], rfl⟩
    | cons i later ih =>
      intro u hl h1 h2 h3
      have : u.step sep i = u := by
        obtain ⟨m, s, c⟩ := u
        obtain ⟨a1, a2, a3, a4, a5, a6, a7⟩ := s
        simp only at h1 h2 h3
        subst h1 h2 h3
        rcases hl i (by simp) with rfl | rfl | rfl | rfl <;> rfl
      show ((u.step sep i).run sep later).version = _ ∧ ((u.step sep i).run sep later).store.kept = _
      rw [this]
      exact ih u (fun j hj => hl j (by simp [hj])) h1 h2 h3
  have hs : d.step sep (.set v) = { d with memo := some v } := by simp only [VDb.step, VDb.setVer, hc, if_true]
  show ((d.step sep (.set v)).run sep later).version = _ ∧ ((d.step sep (.set v)).run sep later).store.kept = _
  rw [hs]
  exact h later _ hl hc hn rfl

namespace Demo

def verHist : List VInp := [.read, .set [49], .base .flush, .base .failed, .set [50], .base .flush, .read, .base .synced]

/-- The hypotheses are met. -/
example : (∀ i ∈ verHist, Plain i) ∧ CalmV 46 freshV verHist ∧ (freshV.run 46 verHist).store.dirty = false ∧ lastVer none verHist = some [50] := by
  refine ⟨?_, ?_, by decide +kernel, rfl⟩
  · intro i hi
    simp only [verHist, List.mem_cons, List.not_mem_nil, or_false] at hi
    rcases hi with rfl | rfl | rfl | rfl | rfl | rfl | rfl | rfl <;> simp [Plain, BytesOk]
  · simp [verHist, CalmV, VDb.step, VDb.setVer, Store.step, freshV, fresh]

example : (freshV.run 46 [.close false]).store.sync = none ∧ (freshV.run 46 [.close false]).closed = true := ⟨rfl, rfl⟩

/-- **C244 fails while a flush is under way**: a version that is set then is read, but not kept by any later flush. -/
theorem c244_lost : let d := freshV.run 46 [.set [49], .base .flush, .set [50], .base .synced, .base .flush, .base .synced]
    d.version = some [50] ∧ (openVDb d.store.kept).toOption.map VDb.version = some (some [49]) := ⟨by decide +kernel, by decide +kernel⟩

/-- **C244 fails if the store is cleared through its handle**: what is remembered stays the version until the database is opened again. -/
theorem c244_stale : let d := freshV.run 46 [.set [49], .base (.call (.remTop [])), .base .flush, .base .synced]
    d.version = some [49] ∧ (openVDb d.store.kept).toOption.map VDb.version = some none := ⟨by decide +kernel, by decide +kernel⟩

end Demo

end Verif.Web
