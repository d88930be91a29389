import Verif.Note.Model

/-! # Notifications (C203, C204, C205) -/

namespace Verif.Note

open Verif.Krm

/-! ## Specification: a book of notices in the order of time -/

def key (n : Notice) : Key := (n.dt, n.rid)

def place (n : Notice) : List Notice → List Notice
  | [] => [n]
  | e :: r => if keyLt (key n) (key e) then n :: e :: r else e :: place n r

/-- A notice is added unless its identifier is in use, taken out, or marked as read; each tells whether there was something to do. -/
def spec (b : List Notice) : Op → List Notice × Bool
  | .add t r a => if b.any (fun n => n.rid = r) then (b, false) else (place ⟨r, t, false, a⟩ b, true)
  | .rem r => (b.filter (fun n => n.rid ≠ r), b.any (fun n => n.rid = r))
  | .mar r => (b.map (fun n => if n.rid = r then { n with read := true } else n), b.any (fun n => n.rid = r ∧ n.read = false))

def book (os : List Op) : List Notice := os.foldl (fun b o => (spec b o).1) []

/-! ## Refinement -/

structure Rel (w : World) (b : List Notice) : Prop where
  notes : w.notes = b.map fun n => (key n, n)
  has : ∀ n, n ∈ b → Tab.get w.nidx n.rid = some n.dt ∧ Tab.get w.ncigs n.rid = some (some n)
  free : ∀ r, (∀ n, n ∈ b → n.rid ≠ r) → Tab.get w.nidx r = none
  nodup : (b.map (·.rid)).Nodup
  sorted : b.Pairwise fun x y => keyLt (key x) (key y) = true

theorem keyLt_iff (a b : Key) : keyLt a b = true ↔ a.1 < b.1 ∨ (a.1 = b.1 ∧ a.2 < b.2) := by simp [keyLt]

theorem mem_place {n x : Notice} {b : List Notice} : x ∈ place n b ↔ x = n ∨ x ∈ b := by
  induction b with
  | nil => simp [place]
  | cons e r ih =>
    unfold place
    split
    · simp
    · simp [ih]; grind

theorem place_map {n : Notice} {b : List Notice} (h : ∀ x, x ∈ b → x.rid ≠ n.rid) :
    pinNote (key n) n (b.map fun n => (key n, n)) = (place n b).map fun n => (key n, n) := by
  induction b with
  | nil => rfl
  | cons e r ih =>
    have h1 := h e (by simp)
    simp only [List.map_cons, pinNote, place]
    rw [if_neg (by intro hk; simp only [key, Prod.mk.injEq] at hk; exact h1 hk.2)]
    split
    · rfl
    · rw [ih (fun x hx => h x (by simp [hx]))]; rfl

theorem place_sorted {n : Notice} {b : List Notice} (h : ∀ x, x ∈ b → x.rid ≠ n.rid)
    (hs : b.Pairwise fun x y => keyLt (key x) (key y) = true) : (place n b).Pairwise fun x y => keyLt (key x) (key y) = true := by
  induction b with
  | nil => simp [place]
  | cons e r ih =>
    rw [List.pairwise_cons] at hs
    unfold place
    split
    · rename_i hlt
      rw [List.pairwise_cons, List.pairwise_cons]
      refine ⟨?_, hs⟩
      intro x hx
      rcases List.mem_cons.1 hx with rfl | hx
      · exact hlt
      · have := hs.1 x hx
        rw [keyLt_iff] at *
        omega
    · rename_i hlt
      rw [List.pairwise_cons]
      refine ⟨?_, ih (fun x hx => h x (by simp [hx])) hs.2⟩
      intro x hx
      rcases mem_place.1 hx with rfl | hx
      · have h1 := h e (by simp)
        rw [keyLt_iff] at *
        simp only [key] at *
        omega
      · exact hs.1 x hx

theorem place_nodup {n : Notice} {b : List Notice} (h : ∀ x, x ∈ b → x.rid ≠ n.rid) (hn : (b.map (·.rid)).Nodup) :
    ((place n b).map (·.rid)).Nodup := by
  induction b with
  | nil => simp [place]
  | cons e r ih =>
    simp only [List.map_cons, List.nodup_cons] at hn
    unfold place
    split
    · simp only [List.map_cons, List.nodup_cons, List.mem_cons, not_or]
      refine ⟨⟨fun h' => h e (by simp) h'.symm, ?_⟩, hn⟩
      intro hm
      obtain ⟨x, hx, hxr⟩ := List.mem_map.1 hm
      exact h x (by simp [hx]) hxr
    · simp only [List.map_cons, List.nodup_cons]
      refine ⟨?_, ih (fun x hx => h x (by simp [hx])) hn.2⟩
      intro hm
      obtain ⟨x, hx, hxr⟩ := List.mem_map.1 hm
      rcases mem_place.1 hx with rfl | hx
      · exact h e (by simp) hxr.symm
      · exact hn.1 (List.mem_map.2 ⟨x, hx, hxr⟩)

theorem rid_inj {b : List Notice} (h : (b.map (·.rid)).Nodup) {x y : Notice} (hx : x ∈ b) (hy : y ∈ b) (he : x.rid = y.rid) : x = y := by
  induction b with
  | nil => simp at hx
  | cons e r ih =>
    simp only [List.map_cons, List.nodup_cons] at h
    rcases List.mem_cons.1 hx with hx | hx <;> rcases List.mem_cons.1 hy with hy | hy
    · rw [hx, hy]
    · exact absurd (List.mem_map.2 ⟨y, hy, by rw [← he, hx]⟩) h.1
    · exact absurd (List.mem_map.2 ⟨x, hx, by rw [he, hy]⟩) h.1
    · exact ih h.2 hx hy

theorem getNote_map {b : List Notice} (h : (b.map (·.rid)).Nodup) {n : Notice} (hn : n ∈ b) :
    getNote (b.map fun n => (key n, n)) (n.dt, n.rid) = some n := by
  induction b with
  | nil => simp at hn
  | cons e r ih =>
    unfold getNote
    simp only [List.map_cons, List.find?_cons]
    by_cases he : key e = (n.dt, n.rid)
    · simp only [he, decide_true]
      have : e.rid = n.rid := congrArg (·.2) he
      rw [rid_inj h (by simp) hn this]; rfl
    · simp only [he, decide_false]
      rcases List.mem_cons.1 hn with rfl | hn
      · exact absurd rfl he
      · simp only [List.map_cons, List.nodup_cons] at h
        exact ih h.2 hn

theorem pinNote_mark {b : List Notice} (h : (b.map (·.rid)).Nodup) (hs : b.Pairwise fun x y => keyLt (key x) (key y) = true) {n : Notice} (hn : n ∈ b) :
    pinNote (n.dt, n.rid) { n with read := true } (b.map fun n => (key n, n)) =
      (b.map fun x => if x.rid = n.rid then { x with read := true } else x).map fun n => (key n, n) := by
  induction b with
  | nil => simp at hn
  | cons e r ih =>
    simp only [List.map_cons, pinNote]
    rw [List.pairwise_cons] at hs
    by_cases he : e.rid = n.rid
    · have := rid_inj h (by simp) hn he
      subst this
      simp only [List.map_cons, List.nodup_cons] at h
      rw [if_pos (show key e = (e.dt, e.rid) from rfl), if_pos (show e.rid = e.rid from rfl)]
      congr 1
      rw [List.map_map]
      apply List.map_congr_left
      intro x hx
      have : x.rid ≠ e.rid := fun h' => h.1 (List.mem_map.2 ⟨x, hx, h'⟩)
      simp [this]
    · have hne : key e ≠ (n.dt, n.rid) := fun h' => he (congrArg (·.2) h')
      rcases List.mem_cons.1 hn with rfl | hn
      · exact absurd rfl he
      · have hlt := hs.1 n hn
        rw [if_neg hne, if_neg (by
          rw [keyLt_iff]
          rw [keyLt_iff] at hlt
          simp only [key] at *
          omega), if_neg he]
        simp only [List.map_cons, List.nodup_cons] at h
        rw [ih h.2 hs.2 hn]

theorem get_note {w : World} {b : List Notice} (h : Rel w b) {n : Notice} (hn : n ∈ b) :
    nGet w n.rid = some (some n, some (some n)) := by
  unfold nGet
  rw [(h.has n hn).1, (h.has n hn).2]
  simp only [h.notes, getNote_map h.nodup hn]

theorem get_free {w : World} {b : List Notice} (h : Rel w b) {r : Nat} (hr : ∀ n, n ∈ b → n.rid ≠ r) : nGet w r = none := by
  unfold nGet; rw [h.free r hr]

/-- The rid is in the book, or not. -/
theorem in_or_not (b : List Notice) (r : Nat) : (∃ n, n ∈ b ∧ n.rid = r) ∨ ∀ n, n ∈ b → n.rid ≠ r := by
  by_cases h : b.any (fun n => n.rid = r) = true
  · left; simpa using h
  · right; simpa using h

theorem rel_step {w : World} {b : List Notice} (h : Rel w b) (o : Op) :
    Rel (step w o) (spec b o).1 ∧ (effect w o).2.2 = .ok (spec b o).2 := by
  cases o with
  | add t r a =>
    rcases in_or_not b r with ⟨n, hn, rfl⟩ | hr
    · have h1 : add w t n.rid a = ([], none, .ok false) := by
        unfold add nAdd; simp [(h.has n hn).1]
      have h2 : b.any (fun x => x.rid = n.rid) = true := by simp; exact ⟨n, hn, rfl⟩
      unfold step
      simp only [effect, h1, spec, h2, if_true, exec, List.foldl_nil]
      exact ⟨h, trivial⟩
    · have h1 : add w t r a = (pins ⟨r, t, false, a⟩, some (.add, ⟨r, t, false, a⟩), .ok true) := by
        unfold add nAdd; simp [h.free r hr]
      have h2 : b.any (fun x => x.rid = r) = false := by simpa using hr
      unfold step
      simp only [effect, h1, spec, h2]
      refine ⟨⟨?_, ?_, ?_, place_nodup hr h.nodup, place_sorted hr h.sorted⟩, rfl⟩
      · show pinNote (key ⟨r, t, false, a⟩) ⟨r, t, false, a⟩ w.notes = _
        rw [h.notes]; exact place_map hr
      · intro n hn
        simp only [exec, pins, List.foldl_cons, List.foldl_nil, write, get_pin]
        rcases mem_place.1 hn with rfl | hn
        · simp
        · have := hr n hn
          have this' : ¬ r = n.rid := fun h' => this h'.symm
          simp only [this', if_false]
          exact h.has n hn
      · intro r' hr'
        simp only [exec, pins, List.foldl_cons, List.foldl_nil, write, get_pin]
        have : r ≠ r' := hr' ⟨r, t, false, a⟩ (mem_place.2 (.inl rfl))
        simp only [this, if_false]
        exact h.free r' fun n hn => hr' n (mem_place.2 (.inr hn))
  | rem r =>
    rcases in_or_not b r with ⟨n, hn, rfl⟩ | hr
    · have hg := get_note h hn
      have h1 : rem w n.rid = ([.remIdx n.rid, .remCig n.rid, .remNote (n.dt, n.rid)], some (.rem, n), .ok true) := by
        unfold rem nRem
        rw [hg]
        simp only
        rw [h.notes, getNote_map h.nodup hn]
        simp [verify]
      have h2 : b.any (fun x => x.rid = n.rid) = true := by simp; exact ⟨n, hn, rfl⟩
      unfold step
      simp only [effect, h1, spec, h2]
      refine ⟨⟨?_, ?_, ?_, ?_, ?_⟩, trivial⟩
      · simp only [exec, List.foldl_cons, List.foldl_nil, write, remNote, h.notes]
        rw [List.filter_map]
        congr 1
        apply List.filter_congr
        intro x hx
        by_cases hxr : x.rid = n.rid
        · have := rid_inj h.nodup hx hn hxr; subst this; simp [key]
        · simp [key, hxr]
      · intro x hx
        obtain ⟨hx, hxr⟩ := List.mem_filter.1 hx
        simp only [ne_eq, decide_not, Bool.not_eq_eq_eq_not, Bool.not_true, decide_eq_false_iff_not] at hxr
        simp only [exec, List.foldl_cons, List.foldl_nil, write, get_rem]
        have this' : ¬ n.rid = x.rid := fun h' => hxr h'.symm
        simp only [this', if_false]
        exact h.has x hx
      · intro r' hr'
        simp only [exec, List.foldl_cons, List.foldl_nil, write, get_rem]
        by_cases hrr : n.rid = r'
        · rw [if_pos hrr]
        · rw [if_neg hrr]
          apply h.free
          intro x hx hxr
          exact hr' x (List.mem_filter.2 ⟨hx, by simp; rw [hxr]; exact fun h' => hrr h'.symm⟩) hxr
      · exact List.Nodup.sublist (List.Sublist.map _ List.filter_sublist) h.nodup
      · exact h.sorted.filter _
    · have hg := get_free h hr
      have h1 : rem w r = ([], none, .ok false) := by unfold rem; rw [hg]
      have h2 : b.any (fun x => x.rid = r) = false := by simpa using hr
      have h3 : b.filter (fun n => n.rid ≠ r) = b := by rw [List.filter_eq_self]; intro x hx; simpa using hr x hx
      unfold step
      simp only [effect, h1, spec, h2, h3, exec, List.foldl_nil]
      exact ⟨h, trivial⟩
  | mar r =>
    rcases in_or_not b r with ⟨n, hn, rfl⟩ | hr
    · have hg := get_note h hn
      by_cases hread : n.read = true
      · have h1 : mar w n.rid = ([], none, .ok false) := by
          unfold mar; rw [hg]; simp [verify, hread]
        have h2 : b.any (fun x => x.rid = n.rid ∧ x.read = false) = false := by
          simp only [List.any_eq_false, decide_eq_true_eq]
          rintro x hx ⟨hxr, hxf⟩
          have := rid_inj h.nodup hx hn hxr; subst this; simp [hread] at hxf
        have h3 : b.map (fun x => if x.rid = n.rid then { x with read := true } else x) = b := by
          conv => rhs; rw [← List.map_id b]
          apply List.map_congr_left
          intro x hx
          by_cases hxr : x.rid = n.rid
          · have := rid_inj h.nodup hx hn hxr; subst this
            simp only [if_true, id]
            rw [← hread]
          · simp [hxr]
        unfold step
        simp only [effect, h1, spec, h2, h3, exec, List.foldl_nil]
        exact ⟨h, trivial⟩
      · have hread : n.read = false := by simpa using hread
        have h1 : mar w n.rid = (pins { n with read := true }, some (.mar, { n with read := true }), .ok true) := by
          unfold mar nUpdate; rw [hg]; simp [verify, hread, (h.has n hn).1]
        have h2 : b.any (fun x => x.rid = n.rid ∧ x.read = false) = true := by
          simp only [List.any_eq_true, decide_eq_true_eq]; exact ⟨n, hn, rfl, hread⟩
        have hmap : (b.map fun x => if x.rid = n.rid then { x with read := true } else x).map (·.rid) = b.map (·.rid) := by
          rw [List.map_map]
          apply List.map_congr_left
          intro x _
          simp only [Function.comp]
          split <;> rfl
        have hkey : ∀ x : Notice, key (if x.rid = n.rid then { x with read := true } else x) = key x := by
          intro x; split <;> rfl
        unfold step
        simp only [effect, h1, spec, h2]
        refine ⟨⟨?_, ?_, ?_, ?_, ?_⟩, trivial⟩
        · show pinNote (n.dt, n.rid) { n with read := true } w.notes = _
          rw [h.notes]; exact pinNote_mark h.nodup h.sorted hn
        · intro x hx
          obtain ⟨y, hy, rfl⟩ := List.mem_map.1 hx
          simp only [exec, pins, List.foldl_cons, List.foldl_nil, write, get_pin]
          by_cases hyr : y.rid = n.rid
          · have := rid_inj h.nodup hy hn hyr; subst this; simp
          · have this' : ¬ n.rid = y.rid := fun h' => hyr h'.symm
            simp only [hyr, if_false, this']
            exact h.has y hy
        · intro r' hr'
          simp only [exec, pins, List.foldl_cons, List.foldl_nil, write, get_pin]
          have : n.rid ≠ r' := by
            have := hr' _ (List.mem_map.2 ⟨n, hn, rfl⟩)
            simpa using this
          simp only [this, if_false]
          apply h.free
          intro x hx hxr
          have := hr' _ (List.mem_map.2 ⟨x, hx, rfl⟩)
          apply this
          split <;> exact hxr
        · rw [hmap]; exact h.nodup
        · rw [List.pairwise_map]
          refine h.sorted.imp ?_
          intro x y hxy
          rw [hkey, hkey]; exact hxy
    · have hg := get_free h hr
      have h1 : mar w r = ([], none, .ok false) := by unfold mar; rw [hg]
      have h2 : b.any (fun x => x.rid = r ∧ x.read = false) = false := by
        simp only [List.any_eq_false, decide_eq_true_eq]; rintro x hx ⟨hxr, _⟩; exact hr x hx hxr
      have h3 : b.map (fun x => if x.rid = r then { x with read := true } else x) = b := by
        conv => rhs; rw [← List.map_id b]
        apply List.map_congr_left
        intro x hx
        simp [hr x hx]
      unfold step
      simp only [effect, h1, spec, h2, h3, exec, List.foldl_nil]
      exact ⟨h, trivial⟩

theorem rel_start : Rel {} [] := ⟨rfl, by simp, fun _ _ => rfl, by simp, by simp⟩

theorem rel_run (os : List Op) : Rel (run {} os) (book os) := by
  have : ∀ os w b, Rel w b → Rel (run w os) (os.foldl (fun b o => (spec b o).1) b) := by
    intro os
    induction os with
    | nil => intro w b h; exact h
    | cons o os ih => intro w b h; exact ih _ _ (rel_step h o).1
  exact this os _ _ rel_start

theorem page_spec (w : World) (m : Option Int) (l : List (Key × Notice)) : ∀ acc,
    page w m l acc = acc ++ (match m with
      | none => l
      | some k => if k ≤ (acc.length : Int) then l else l.take (k - acc.length).toNat).map (fun e : Key × Notice => (e.2, Tab.get w.ncigs e.2.rid)) := by
  induction l with
  | nil => intro acc; unfold page; cases m <;> simp
  | cons e r ih =>
    intro acc
    obtain ⟨k', n⟩ := e
    unfold page
    simp only
    cases m with
    | none =>
      rw [if_neg (by simp), ih]
      simp
    | some k =>
      by_cases hk : k = (acc.length : Int) + 1
      · rw [if_pos (by simp [hk])]
        simp only
        rw [if_neg (by omega), show (k - (acc.length : Int)).toNat = 1 by omega]
        simp
      · rw [if_neg (by simp; omega), ih]
        simp only [List.length_append, List.length_cons, List.length_nil]
        by_cases hle : k ≤ (acc.length : Int)
        · rw [if_pos (by omega), if_pos hle]; simp
        · rw [if_neg (by omega), if_neg hle,
            show (k - (acc.length : Int)).toNat = (k - ((acc.length + (0 + 1) : Nat) : Int)).toNat + 1 by omega, List.take_succ_cons]
          simp

theorem checked_iff (l : List (Notice × Option (Option Notice))) (x : List Notice) :
    checked l = .ok x ↔ x = l.map (·.1) ∧ ∀ e, e ∈ l → e.2 = some (some e.1) := by
  induction l generalizing x with
  | nil => simp [checked, eq_comm]
  | cons e r ih =>
    obtain ⟨n, c⟩ := e
    unfold checked
    match c with
    | none => simp [verify]
    | some c =>
      by_cases hc : c = some n
      · subst hc
        simp only [verify, decide_true]
        cases hr : checked r with
        | error er =>
          simp only [reduceCtorEq, false_iff]
          rintro ⟨_, h⟩
          have := (ih (r.map (·.1))).2 ⟨rfl, fun e he => h e (by simp [he])⟩
          rw [hr] at this; cases this
        | ok y =>
          have := (ih y).1 hr
          simp only [Except.ok.injEq, List.map_cons, List.mem_cons, forall_eq_or_imp, true_and]
          rw [this.1]
          constructor
          · intro h; exact ⟨h.symm, this.2⟩
          · intro h; exact h.1.symm
      · simp [verify, hc]

/-- What is read of a range: from `start`, and `end - start + 1` of them; all of them when `end` is -1 or before `start`. -/
def range (l : List Notice) (start : Nat) (e : Int) : List Notice :=
  if e = -1 ∨ e < start then l.drop start else (l.drop start).take (e - start + 1).toNat

theorem nGetNotes_eq (w : World) (start : Nat) (e : Int) :
    nGetNotes w start e = (range (w.notes.map (·.2)) start e).map fun n => (n, Tab.get w.ncigs n.rid) := by
  unfold nGetNotes range
  rw [page_spec]
  by_cases he : e = -1
  · rw [if_pos he, if_pos (.inl he)]
    simp [← List.map_drop]
  · rw [if_neg he]
    simp only [List.length_nil]
    by_cases hl : e < start
    · rw [if_pos (show e - (start : Int) + 1 ≤ ((0 : Nat) : Int) by omega), if_pos (Or.inr hl)]
      simp [← List.map_drop]
    · rw [if_neg (show ¬ e - (start : Int) + 1 ≤ ((0 : Nat) : Int) by omega), if_neg (by omega)]
      simp [← List.map_drop, ← List.map_take]

/-- **C203.** After any history of adding, marking and removing notices, reading all of them gives exactly those added and not removed, in the order of
their times, marked as read or not; their number is the count reported; and each further call tells rightly whether there was something to do. -/
theorem c203_book (os : List Op) : getNotes (run {} os) 0 (-1) = .ok (book os) ∧ count (run {} os) = (book os).length ∧
    ∀ o, (effect (run {} os) o).2.2 = .ok (spec (book os) o).2 := by
  have h := rel_run os
  refine ⟨?_, ?_, fun o => (rel_step h o).2⟩
  · unfold getNotes
    rw [checked_iff, nGetNotes_eq, h.notes]
    simp only [range, true_or, if_true, List.drop_zero]
    simp only [List.map_map]
    constructor
    · conv => lhs; rw [← List.map_id (book os)]
      exact List.map_congr_left fun x _ => rfl
    · intro e he
      obtain ⟨n, hn, rfl⟩ := List.mem_map.1 he
      exact (h.has n hn).2
  · unfold count; rw [h.notes]; simp

/-- **C203.** The order is that of times, and no identifier occurs twice. -/
theorem c203_order (os : List Op) : (book os).Pairwise (fun x y => x.dt < y.dt ∨ (x.dt = y.dt ∧ x.rid < y.rid)) ∧
    ((book os).map (·.rid)).Nodup := by
  have h := rel_run os
  refine ⟨h.sorted.imp ?_, h.nodup⟩
  intro x y hxy
  rw [keyLt_iff] at hxy; exact hxy

/-- What is announced of a call that had something to do. -/
def announced (b : List Notice) : Op → Option (Action × Notice)
  | .add t r a => if (spec b (.add t r a)).2 then some (.add, ⟨r, t, false, a⟩) else none
  | .rem r => (b.find? (fun n => n.rid = r)).map fun n => (.rem, n)
  | .mar r => (b.find? (fun n => n.rid = r ∧ n.read = false)).map fun n => (.mar, { n with read := true })

theorem find_of {b : List Notice} (h : (b.map (·.rid)).Nodup) {n : Notice} (hn : n ∈ b) (p : Notice → Bool) (hp : p n = true)
    (hi : ∀ x, p x = true → x.rid = n.rid) : b.find? p = some n := by
  cases hf : b.find? p with
  | none => exact absurd hp (by simpa using List.find?_eq_none.1 hf n hn)
  | some x => rw [rid_inj h (List.mem_of_find?_eq_some hf) hn (hi x (List.find?_some hf))]

/-- **C203.** After any history, each call announces what it did, with the notice as it is then: once if it had something to do, and else nothing. -/
theorem c203_announced (os : List Op) (o : Op) : (effect (run {} os) o).2.1 = announced (book os) o := by
  have h := rel_run os
  generalize run {} os = w at h
  generalize book os = b at h
  cases o with
  | add t r a =>
    rcases in_or_not b r with ⟨n, hn, rfl⟩ | hr
    · have h2 : b.any (fun x => x.rid = n.rid) = true := by simp; exact ⟨n, hn, rfl⟩
      simp [effect, announced, spec, h2, add, nAdd, (h.has n hn).1]
    · have h2 : b.any (fun x => x.rid = r) = false := by simpa using hr
      simp [effect, announced, spec, h2, add, nAdd, h.free r hr]
  | rem r =>
    rcases in_or_not b r with ⟨n, hn, rfl⟩ | hr
    · have hf := find_of h.nodup hn (fun x => decide (x.rid = n.rid)) (by simp) (by simp)
      simp only [effect, announced, hf, rem, nRem, get_note h hn]
      rw [h.notes, getNote_map h.nodup hn]
      simp [verify]
    · have hf : b.find? (fun n => n.rid = r) = none := by simpa using hr
      simp only [effect, announced, hf, rem, get_free h hr]
      rfl
  | mar r =>
    rcases in_or_not b r with ⟨n, hn, rfl⟩ | hr
    · by_cases hread : n.read = true
      · have hf : b.find? (fun x => x.rid = n.rid ∧ x.read = false) = none := by
          rw [List.find?_eq_none]
          intro x hx hp
          simp only [decide_eq_true_eq] at hp
          have := rid_inj h.nodup hx hn hp.1
          rw [this, hread] at hp
          cases hp.2
        simp only [effect, announced, hf, mar, get_note h hn]
        simp [verify, hread]
      · have hread : n.read = false := by simpa using hread
        have hf := find_of h.nodup hn (fun x => decide (x.rid = n.rid ∧ x.read = false)) (by simp [hread]) (by intro x hp; simp at hp; exact hp.1)
        simp only [effect, announced, hf, mar, get_note h hn, nUpdate]
        simp [verify, hread, (h.has n hn).1]
    · have hf : b.find? (fun x => x.rid = r ∧ x.read = false) = none := by
        rw [List.find?_eq_none]
        intro x hx hp
        simp only [decide_eq_true_eq] at hp
        exact hr x hx hp.1
      simp only [effect, announced, hf, mar, get_free h hr]
      rfl

/-- A case: three notices, one marked, one removed, in the order of times. -/
example : getNotes (run {} [.add 5 1 100, .add 3 2 200, .mar 1, .add 9 3 300, .rem 3, .add 7 1 400]) 0 (-1) =
    .ok [⟨2, 3, false, 200⟩, ⟨1, 5, true, 100⟩] := by decide +kernel

/-- **C203 fails** over crashes: adding stopped after its first write leaves an identifier without a notice; marking and removing it raise. -/
theorem c203_crash_add : let w := exec {} ((add {} 5 1 100).1.take 1)
    (mar w 1).2.2 = .error .attributeError ∧ (rem w 1).2.2 = .error .attributeError ∧ getNotes w 0 (-1) = .ok [] := by decide +kernel

/-- **C203 fails** over crashes: removal stopped after its second write leaves a notice without a signature; from then on reading raises, and the
notice can be neither marked nor removed. -/
theorem c203_crash_rem : let w := run {} [.add 5 1 100, .add 6 2 200]
    let w' := exec w ((rem w 1).1.take 2)
    getNotes w' 0 (-1) = .error .attributeError ∧ (rem w' 1).2.2 = .ok false ∧ (rem w' 1).1 = [] := by decide +kernel

/-! ## C204 -/

/-- **C204.** Whatever the databases hold: notices are read only if all of them in the range carry the signature of what they say, and only such a notice
is marked as read. -/
theorem c204_tampered (w : World) :
    (∀ start e l, getNotes w start e = .ok l ↔
      l = range (w.notes.map (·.2)) start e ∧ ∀ n, n ∈ l → Tab.get w.ncigs n.rid = some (some n)) ∧
    (∀ r, (mar w r).2.2 = .ok true → ∃ n, nGet w r = some (some n, some (some n))) ∧
    ∀ r, (mar w r).2.2 ≠ .ok true → (mar w r).1 = [] := by
  refine ⟨?_, ?_, ?_⟩
  · intro start e l
    unfold getNotes
    rw [checked_iff, nGetNotes_eq]
    simp only [List.map_map]
    have hid : (range (w.notes.map (·.2)) start e).map ((·.1) ∘ fun n => (n, Tab.get w.ncigs n.rid)) =
        range (w.notes.map (·.2)) start e := by
      conv => rhs; rw [← List.map_id (range (w.notes.map (·.2)) start e)]
      exact List.map_congr_left fun x _ => rfl
    rw [hid]
    constructor
    · rintro ⟨rfl, h⟩
      exact ⟨rfl, fun n hn => h (n, Tab.get w.ncigs n.rid) (List.mem_map.2 ⟨n, hn, rfl⟩)⟩
    · rintro ⟨rfl, h⟩
      refine ⟨rfl, fun x hx => ?_⟩
      obtain ⟨n, hn, rfl⟩ := List.mem_map.1 hx
      exact h n hn
  · intro r h
    unfold mar at h
    match hg : nGet w r with
    | none => simp [hg] at h
    | some (none, c) => simp [hg] at h
    | some (some n, none) => simp [hg, verify] at h
    | some (some n, some c) =>
      by_cases hc : c = some n
      · subst hc; exact ⟨n, rfl⟩
      · simp [hg, verify, hc] at h
  · intro r h
    unfold mar at h ⊢
    split
    · rfl
    · rfl
    · rename_i n c hg
      rw [hg] at h
      simp only at h
      split
      · rfl
      · rfl
      · rename_i hv
        rw [hv] at h
        simp only at h
        split
        · rfl
        · rename_i hr
          rw [if_neg hr] at h
          unfold nUpdate at h ⊢
          by_cases hn : (Tab.get w.nidx n.rid).isNone = true
          · simp [hn]
          · simp [hn] at h

/-- A tampered notice: another text under the signature. Reading raises, marking does nothing. -/
example : let w := run {} [.add 5 1 100]
    let w' := { w with notes := [((5, 1), ⟨1, 5, false, 666⟩)] }
    getNotes w' 0 (-1) = .error .validation ∧ mar w' 1 = ([], none, .ok false) := by decide +kernel

/-- **C204 fails** for removal: a tampered notice is removed with the answer that all is well, and nobody is told. -/
theorem c204_removed_silently : let w := run {} [.add 5 1 100]
    let w' := { w with notes := [((5, 1), ⟨1, 5, false, 666⟩)] }
    (rem w' 1).2 = (none, .ok true) ∧ count (exec w' (rem w' 1).1) = 0 := by decide +kernel

/-! ## C205 -/

/-- **C205.** Pages: reading from `start` to `end`, both counted from 0 and included, gives those of the book in that range. -/
theorem c205_page (os : List Op) (start e : Nat) (h : start ≤ e) :
    getNotes (run {} os) start e = .ok (((book os).drop start).take (e - start + 1)) := by
  have hr := rel_run os
  rw [(c204_tampered (run {} os)).1]
  have hn : (run {} os).notes.map (·.2) = book os := by
    rw [hr.notes, List.map_map]
    conv => rhs; rw [← List.map_id (book os)]
    exact List.map_congr_left fun x _ => rfl
  rw [hn]
  constructor
  · unfold range
    rw [if_neg (by omega), show ((e : Int) - start + 1).toNat = e - start + 1 by omega]
  · intro n hm
    exact (hr.has n (List.mem_of_mem_drop (List.mem_of_mem_take hm))).2

/-- **C205.** Pages of `k`, one after the other, give the whole book: the first `m` pages are its first `m * k` notices, none twice, none left out. -/
theorem c205_pages (os : List Op) (k m : Nat) (hk : 0 < k) :
    ((List.range m).map fun i => getNotes (run {} os) (i * k) ((i * k + (k - 1) : Nat) : Int)) =
      (List.range m).map (fun i => .ok (((book os).drop (i * k)).take k)) ∧
    ((List.range m).flatMap fun i => ((book os).drop (i * k)).take k) = (book os).take (m * k) := by
  constructor
  · apply List.map_congr_left
    intro i _
    rw [c205_page os (i * k) (i * k + (k - 1)) (by omega), show i * k + (k - 1) - i * k + 1 = k by omega]
  · induction m with
    | zero => simp
    | succ m ih =>
      rw [List.range_succ, List.flatMap_append, ih]
      simp only [List.flatMap_cons, List.flatMap_nil, List.append_nil]
      rw [Nat.succ_mul, List.take_add]

/-- Two pages of two. -/
example : let w := run {} [.add 5 1 100, .add 3 2 200, .add 9 3 300]
    getNotes w 0 1 = .ok [⟨2, 3, false, 200⟩, ⟨1, 5, false, 100⟩] ∧ getNotes w 2 3 = .ok [⟨3, 9, false, 300⟩] := by decide +kernel

/-- **C205 fails** for a range that ends before it starts: not nothing, but all from its start. -/
theorem c205_backwards (os : List Op) (start : Nat) (e : Int) (h : e < start) :
    getNotes (run {} os) start e = .ok ((book os).drop start) := by
  have hr := rel_run os
  rw [(c204_tampered (run {} os)).1]
  have hn : (run {} os).notes.map (·.2) = book os := by
    rw [hr.notes, List.map_map]
    conv => rhs; rw [← List.map_id (book os)]
    exact List.map_congr_left fun x _ => rfl
  rw [hn]
  exact ⟨by unfold range; rw [if_pos (.inr h)], fun n hm => (hr.has n (List.mem_of_mem_drop hm)).2⟩

end Verif.Note
