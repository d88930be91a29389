import Verif.Prs.Frames

/-!
# Generators on bytes that are all there
-/

namespace Verif.Prs

open Verif.Matter (Mat)
open Verif.Idr (Ixr)
open Verif.Ctr (Ver Counter)
open Verif.B64

/-- On a stream with nothing more to come the generator takes exactly these bytes off the front. -/
def Eats {α : Type} (v : Ver) (m : P α) (enc : Bytes) (a : α) : Prop :=
  ∀ rest, AllLt 256 rest → m ⟨enc ++ rest, [], v⟩ = .ok a ⟨rest, [], v⟩

theorem bind_ok {α β : Type} {m : P α} {f : α → P β} {s s' : St} {a : α} (h : m s = .ok a s') : (m >>= f) s = f a s' := by
  show P.bind m f s = _
  simp only [P.bind, h]

theorem bind_err {α β : Type} {m : P α} {f : α → P β} {s s' : St} {e : Err} (h : m s = .err e s') : (m >>= f) s = .err e s' := by
  show P.bind m f s = _
  simp only [P.bind, h]

theorem bind_wait {α β : Type} {m : P α} {f : α → P β} {s : St} (h : m s = .wait) : (m >>= f) s = .wait := by
  show P.bind m f s = _
  simp only [P.bind, h]

theorem pure_run {α : Type} (a : α) (s : St) : (pure a : P α) s = .ok a s := rfl

theorem Eats.pure {α : Type} (v : Ver) (a : α) : Eats v (Pure.pure a) [] a := fun _ _ => rfl

theorem Eats.bind {α β : Type} {v : Ver} {m : P α} {f : α → P β} {e1 e2 : Bytes} {a : α} {b : β} (h1 : Eats v m e1 a) (h2 : Eats v (f a) e2 b)
    (hl : AllLt 256 e2) : Eats v (m >>= f) (e1 ++ e2) b := by
  intro rest hr
  rw [List.append_assoc, bind_ok (h1 (e2 ++ rest) ((allLt_append _ _ _).2 ⟨hl, hr⟩))]
  exact h2 rest hr

theorem Eats.map {α β : Type} {v : Ver} {m : P α} {f : α → β} {e : Bytes} {a : α} (h : Eats v m e a) : Eats v (m >>= fun x => Pure.pure (f x)) e (f a) := by
  intro rest hr
  rw [bind_ok (h rest hr)]; rfl

theorem extractGo_ok {α : Type} {rd : Bytes → Got α} {buf : Bytes} {a : α} {n : Nat} (abort : Bool) (v : Ver) (fut : List Bytes)
    (h : rd buf = ⟨.ok a, n⟩) : extractGo rd abort v fut buf = .ok a ⟨buf.drop n, fut, v⟩ := by
  rw [extractGo.eq_def]
  simp only [h]

theorem Eats.extractor {α : Type} {v : Ver} {rd : Ver → Bytes → Got α} {enc : Bytes} {a : α} (h : Frames (rd v) enc a) (abort : Bool) :
    Eats v (Prs.extractor rd abort) enc a := by
  intro rest hr
  show extractGo (rd v) abort v [] (enc ++ rest) = _
  rw [extractGo_ok abort v [] (h rest hr)]
  simp

theorem Eats.times {α : Type} {v : Ver} {m : P α} : ∀ {l : List (Bytes × α)}, (∀ p ∈ l, Eats v m p.1 p.2 ∧ AllLt 256 p.1) →
    Eats v (Prs.times m l.length) (l.map (·.1)).flatten (l.map (·.2))
  | [], _ => Eats.pure v []
  | p :: l, h => by
    have ih := Eats.times (fun q hq => h q (List.mem_cons_of_mem _ hq))
    have hlt : ∀ {l : List (Bytes × α)}, (∀ p ∈ l, Eats v m p.1 p.2 ∧ AllLt 256 p.1) → AllLt 256 (l.map (·.1)).flatten := by
      intro l hl b hb
      simp only [List.mem_flatten, List.mem_map] at hb
      obtain ⟨x, ⟨q, hq, rfl⟩, hx⟩ := hb
      exact (hl q hq).2 b hx
    have := (h p (by simp)).1
    exact Eats.bind this (Eats.map (f := fun l => p.2 :: l) ih) (hlt (fun q hq => h q (List.mem_cons_of_mem _ hq)))

theorem whileBuf_all {α : Type} {v : Ver} {m : P α} : ∀ {l : List (Bytes × α)}, (∀ p ∈ l, Eats v m p.1 p.2 ∧ AllLt 256 p.1 ∧ p.1 ≠ []) →
    ∀ n, (l.map (·.1)).flatten.length ≤ n → whileBuf m n ⟨(l.map (·.1)).flatten, [], v⟩ = .ok (l.map (·.2)) ⟨[], [], v⟩
  | [], _, n, _ => by cases n <;> simp [whileBuf]
  | p :: l, h, n, hn => by
    obtain ⟨h1, h2, h3⟩ := h p (by simp)
    have hlt : AllLt 256 (l.map (·.1)).flatten := by
      intro b hb
      simp only [List.mem_flatten, List.mem_map] at hb
      obtain ⟨x, ⟨q, hq, rfl⟩, hx⟩ := hb
      exact (h q (List.mem_cons_of_mem _ hq)).2.1 b hx
    have hp : 0 < p.1.length := List.length_pos_iff.2 h3
    simp only [List.map_cons, List.flatten_cons, List.length_append] at hn ⊢
    cases n with
    | zero => omega
    | succ n =>
      rw [whileBuf]
      simp only
      rw [if_neg (by simp [h3]), bind_ok (h1 _ hlt), bind_ok (whileBuf_all (fun q hq => h q (List.mem_cons_of_mem _ hq)) n (by omega))]
      rfl

theorem whole_all {α : Type} {v : Ver} {m : P α} {l : List (Bytes × α)} (h : ∀ p ∈ l, Eats v m p.1 p.2 ∧ AllLt 256 p.1 ∧ p.1 ≠ []) :
    Eats v (whole (l.map (·.1)).flatten m) [] (l.map (·.2)) := by
  intro rest _
  simp only [whole, onCopy, List.nil_append]
  rw [whileBuf_all h _ (Nat.le_refl _)]

theorem Eats.taken {α : Type} {v : Ver} {b : Bytes} {k : Bytes → P α} {a : α} (abort : Bool) (h : Eats v (k b) [] a) :
    Eats v (do fillStrict b.length abort; let x ← takeBuf b.length; k x) b a := by
  intro rest hr
  have : fillStrict b.length abort ⟨b ++ rest, [], v⟩ = .ok () ⟨b ++ rest, [], v⟩ := by
    unfold fillStrict
    cases abort
    · simp only [Bool.false_eq_true, if_false]
      rw [waitGo.eq_def]
      simp
    · simp
  rw [bind_ok this]
  have : takeBuf b.length ⟨b ++ rest, [], v⟩ = .ok b ⟨rest, [], v⟩ := by simp [takeBuf]
  rw [bind_ok this]
  exact h rest hr

/-! ## Concatenations -/

theorem cat_ok {α : Type} {w : α → Except Err Bytes} : ∀ {l : List α} {b : Bytes}, cat w l = .ok b →
    ∃ ps : List (Bytes × α), ps.map (·.2) = l ∧ (ps.map (·.1)).flatten = b ∧ ∀ p ∈ ps, w p.2 = .ok p.1
  | [], b, h => by
    injection h with h
    exact ⟨[], rfl, h, by simp⟩
  | a :: l, b, h => by
    simp only [cat] at h
    split at h
    · exact absurd h (by simp)
    next x hx =>
    split at h
    · exact absurd h (by simp)
    next y hy =>
    injection h with h
    obtain ⟨ps, h1, h2, h3⟩ := cat_ok hy
    refine ⟨(x, a) :: ps, by simp [h1], by simp [h2, h], ?_⟩
    intro p hp
    rcases List.mem_cons.1 hp with rfl | hp
    · exact hx
    · exact h3 p hp

/-! ## Groups -/

/-- A primitive of the class. -/
def GoodPrim (k : Klas) (m : Mat) : Prop := GoodMat m ∧ k.allows m.code = true

/-- The sizes of the inner groups of signatures the parser takes: version 2 only reads the short counter, 4095 quadlets or triplets. -/
def ShortSigs (bin : Bool) (ss : List Ixr) : Prop := ∀ b, cat (writeSig bin) ss = .ok b → b.length / unit bin ≤ 4095

/-- The signatures an element may have. -/
def GoodSigs (v : Ver) (bin : Bool) (tail : Tail) (ss : List Ixr) : Prop :=
  (∀ s ∈ ss, GoodSig s) ∧ match tail with
    | .none => ss = []
    | .one => ss.length = 1
    | .group => v = .v2 → ShortSigs bin ss

/-- The primitives are of the classes of the list. -/
inductive GoodPrims : List Klas → List Mat → Prop where
  | nil : GoodPrims [] []
  | cons {k : Klas} {m : Mat} {ks : List Klas} {ms : List Mat} : GoodPrim k m → GoodPrims ks ms → GoodPrims (k :: ks) (m :: ms)

/-- The parts of the element are those the method extracts. -/
def GoodElem (v : Ver) (bin : Bool) (m : Meth) (e : Elem) : Prop :=
  match m.mode with
  | .raw => e.mats = [] ∧ e.sigs = [] ∧ AllLt 256 e.blob
  | _ => GoodPrims m.mats e.mats ∧ GoodSigs v bin m.tail e.sigs ∧ e.blob = []

theorem prims_eats {v : Ver} {bin : Bool} {ks : List Klas} {ms : List Mat} (h : GoodPrims ks ms) (abort : Bool) :
    ∃ enc, cat (writeMat bin) ms = .ok enc ∧ Eats v (primsOf (coldOf bin) abort ks) enc ms ∧ Piece bin enc ∧ (ks ≠ [] → enc ≠ []) := by
  induction h with
  | nil => exact ⟨[], rfl, Eats.pure v [], Piece.nil bin, by simp⟩
  | @cons k m ks ms h1 _ ih =>
    obtain ⟨e1, a1, a2, a3, a4⟩ := prim_frames h1.1 h1.2 bin
    obtain ⟨e2, b1, b2, b3, b4⟩ := ih
    refine ⟨e1 ++ e2, by simp only [cat, a1, b1], ?_, a3.append b3, by simp [a4]⟩
    exact Eats.bind (Eats.extractor (rd := fun _ => readPrim k (coldOf bin)) a2 abort) (Eats.map (f := fun l => m :: l) b2) b3.lt

theorem cat_sigs {v : Ver} {bin : Bool} {ss : List Ixr} (h : ∀ s ∈ ss, GoodSig s) (abort : Bool) :
    ∃ ps : List (Bytes × Ixr), ps.map (·.2) = ss ∧ cat (writeSig bin) ss = .ok (ps.map (·.1)).flatten ∧ Piece bin (ps.map (·.1)).flatten ∧
      ∀ p ∈ ps, Eats v (extractor (fun _ => readSig (coldOf bin)) abort) p.1 p.2 ∧ AllLt 256 p.1 ∧ p.1 ≠ [] := by
  induction ss with
  | nil => exact ⟨[], rfl, rfl, Piece.nil bin, by simp⟩
  | cons s ss ih =>
    obtain ⟨ps, h1, h2, h3, h4⟩ := ih (fun s hs => h s (List.mem_cons_of_mem _ hs))
    obtain ⟨e, a1, a2, a3, a4⟩ := sig_frames (h s (by simp)) bin
    refine ⟨(e, s) :: ps, by simp [h1], by simp [cat, a1, h2], by simpa using a3.append h3, ?_⟩
    intro p hp
    rcases List.mem_cons.1 hp with rfl | hp
    · exact ⟨Eats.extractor (rd := fun _ => readSig (coldOf bin)) a2 abort, a3.lt, a4⟩
    · exact h4 p hp

theorem ctr_eats {v : Ver} {bin : Bool} {c : Counter} (h : GoodCtr v c) (abort : Bool) :
    ∃ enc, writeCtr v bin c = .ok enc ∧ Eats v (extractor (fun v => readCtr v (coldOf bin)) abort) enc c ∧ Piece bin enc ∧ enc ≠ [] := by
  obtain ⟨enc, h1, h2, h3, h4, h5, _, _⟩ := ctr_frames h bin
  refine ⟨enc, h1, Eats.extractor (rd := fun v => readCtr v (coldOf bin)) ?_ abort, h4, h5⟩
  intro rest hr
  simp only [readCtr, h2 rest hr, h3]

theorem made_good {v : Ver} {code : List Char} {n : Int} {c : Counter} (h : Verif.Ctr.make v code n = .ok c) : GoodCtr v c ∧ (c.count : Int) = n := by
  obtain ⟨sz, hv, hc⟩ := Verif.Ctr.make_valid h
  exact ⟨⟨sz, hv⟩, hc⟩

theorem enclose_ok {v : Ver} {bin : Bool} {code : List Char} {content enc : Bytes} (h : enclose v bin code content = .ok enc) :
    ∃ c t, Verif.Ctr.make v code ((content.length / unit bin : Nat) : Int) = .ok c ∧ writeCtr v bin c = .ok t ∧ enc = t ++ content ∧
      ctrCount (coldOf bin) c = content.length ∧ GoodCtr v c := by
  unfold enclose at h
  split at h
  · exact absurd h (by simp)
  next hl =>
  split at h
  · exact absurd h (by simp)
  next c hc =>
  split at h
  · exact absurd h (by simp)
  split at h
  · exact absurd h (by simp)
  next t ht =>
  injection h with h
  obtain ⟨h1, h2⟩ := made_good hc
  refine ⟨c, t, hc, ht, h.symm, ?_, h1⟩
  have : c.count = content.length / unit bin := by exact_mod_cast h2
  have hl' : content.length % unit bin = 0 := by omega
  cases bin <;> simp only [ctrCount, coldOf, unit, Verif.Ctr.byteCountText, Verif.Ctr.byteCountBinary, Bool.false_eq_true, if_false, if_true,
    reduceCtorEq] at * <;> omega

/-- The counter made has the code asked for or the long form of it. -/
theorem make_code {v : Ver} {code : List Char} {n : Int} {c : Counter} (h : Verif.Ctr.make v code n = .ok c) :
    c.code = code ∨ (n > 4095 ∧ ∃ a x tl, code = a :: x :: tl ∧ c.code = ['-', '-', x]) := by
  unfold Verif.Ctr.make at h
  split at h
  · exact absurd h (by simp)
  cases hsz : Verif.Ctr.sizes? v code with
  | none => rw [hsz] at h; exact absurd h (by simp)
  | some sz =>
    rw [hsz] at h
    simp only at h
    split at h
    · exact absurd h (by simp)
    split at h
    · exact absurd h (by simp)
    injection h with h
    subst h
    have hwf := Verif.Ctr.wf_of_sizes hsz
    rcases Verif.Ctr.promote_cases code sz.ss n (by have := hwf.1; have := hwf.2.1; omega) with h | ⟨a, x, tl, h1, _, _, h4, h5⟩
    · left; rw [h]
    · right; exact ⟨h4, a, x, tl, h1, by rw [h5]⟩

/-- A short counter stays short up to 4095. -/
theorem make_short {v : Ver} {code : List Char} {n : Nat} {c : Counter} (h : Verif.Ctr.make v code n = .ok c) (hn : n ≤ 4095) : c.code = code := by
  rcases make_code h with h | ⟨h, _⟩
  · exact h
  · omega

theorem make_in {v : Ver} {code : List Char} {n : Int} {c : Counter} (h : Verif.Ctr.make v code n = .ok c) : (Verif.Ctr.sizes? v c.code).isSome = true := by
  obtain ⟨sz, hv⟩ := (made_good h).1
  rw [hv.size]; rfl

theorem sigs_eats {v : Ver} {bin : Bool} {tail : Tail} {ss : List Ixr} {enc : Bytes} (h : GoodSigs v bin tail ss)
    (hw : writeSigs v bin tail ss = .ok enc) (abort : Bool) :
    Eats v (sigsOf v (coldOf bin) abort tail) enc ss ∧ Piece bin enc ∧ (tail ≠ .none → enc ≠ []) := by
  obtain ⟨hg, ht⟩ := h
  cases tail with
  | none =>
    simp only at ht
    injection hw with hw
    subst hw ht
    exact ⟨Eats.pure v [], Piece.nil bin, by simp⟩
  | one =>
    simp only at ht
    obtain ⟨s, rfl⟩ := List.length_eq_one_iff.1 ht
    obtain ⟨e, a1, a2, a3, a4⟩ := sig_frames (hg s (by simp)) bin
    simp only [writeSigs, cat, a1, List.append_nil] at hw
    injection hw with hw
    subst hw
    exact ⟨Eats.map (f := fun s => [s]) (Eats.extractor (rd := fun _ => readSig (coldOf bin)) a2 abort), a3, fun _ => a4⟩
  | group =>
    simp only [writeSigs] at hw
    cases v with
    | v1 =>
      obtain ⟨ps, p1, p2, p3, p4⟩ := cat_sigs (v := .v1) (bin := bin) hg abort
      rw [p2] at hw
      simp only at hw
      unfold counted at hw
      cases hm : Verif.Ctr.make .v1 ['-', 'A'] (ss.length : Nat) with
      | error e => rw [hm] at hw; exact absurd hw (by simp)
      | ok c =>
        rw [hm] at hw
        simp only at hw
        obtain ⟨t, c1, c2, c3, c4⟩ := ctr_eats (bin := bin) (made_good hm).1 abort
        rw [c1] at hw
        injection hw with hw
        subst hw
        have hcode : c.code = ['-', 'A'] := by
          rcases make_code hm with h | ⟨_, a, x, tl, h1, h2⟩
          · exact h
          · have := make_in hm
            injection h1 with _ h1
            injection h1 with h1 _
            rw [h2, ← h1] at this
            exact absurd this (by decide +kernel)
        have hcount : c.count = ps.length := by
          have := (made_good hm).2
          rw [← p1, List.length_map] at this
          exact_mod_cast this
        refine ⟨?_, c3.append p3, by simp [c4]⟩
        refine Eats.bind c2 ?_ p3.lt
        simp only [hcode, ne_eq, not_true_eq_false, if_false, hcount]
        rw [← p1]
        exact Eats.times (fun p hp => ⟨(p4 p hp).1, (p4 p hp).2.1⟩)
    | v2 =>
      obtain ⟨ps, p1, p2, p3, p4⟩ := cat_sigs (v := .v2) (bin := bin) hg true
      rw [p2] at hw
      simp only at hw
      obtain ⟨c, t, k1, k2, k3, k4, k5⟩ := enclose_ok hw
      obtain ⟨t', c1, c2, c3, c4⟩ := ctr_eats (bin := bin) k5 abort
      rw [k2] at c1
      injection c1 with c1
      subst c1 k3
      have hcode : c.code = ['-', 'K'] := make_short k1 (ht rfl _ p2)
      refine ⟨?_, c3.append p3, by simp [c4]⟩
      refine Eats.bind c2 ?_ p3.lt
      simp only [hcode, ne_eq, not_true_eq_false, if_false, k4]
      refine Eats.taken (k := fun x => whole x (extractor (fun _ => readSig (coldOf bin)) true)) true ?_
      rw [← p1]
      exact whole_all p4

theorem elem_eats {v : Ver} {bin : Bool} {m : Meth} {e : Elem} {enc : Bytes} (hm : m.mode ≠ .raw) (h : GoodElem v bin m e)
    (hw : writeElem v bin m e = .ok enc) (abort : Bool) :
    Eats v (elemOf v m (coldOf bin) abort) enc e ∧ Piece bin enc ∧ (m.mats ≠ [] ∨ m.tail ≠ .none → enc ≠ []) := by
  obtain ⟨h1, h2, h3⟩ : GoodPrims m.mats e.mats ∧ GoodSigs v bin m.tail e.sigs ∧ e.blob = [] := by
    unfold GoodElem at h
    cases hmm : m.mode with
    | raw => exact absurd hmm hm
    | counted => rw [hmm] at h; exact h
    | sized => rw [hmm] at h; exact h
  obtain ⟨a, a1, a2, a3, a4⟩ := prims_eats (v := v) (bin := bin) h1 abort
  unfold writeElem at hw
  rw [a1] at hw
  simp only at hw
  split at hw
  · exact absurd hw (by simp)
  next b hb =>
  injection hw with hw
  rw [h3, List.append_nil] at hw
  obtain ⟨b1, b2, b3⟩ := sigs_eats h2 hb abort
  subst hw
  refine ⟨?_, a3.append b2, ?_⟩
  · have he : e = ⟨e.mats, e.sigs, []⟩ := by rw [← h3]
    rw [he]
    exact Eats.bind a2 (Eats.map (f := fun ss => (⟨e.mats, ss, []⟩ : Elem)) b1) b2.lt
  · rintro (h | h)
    · simp [a4 h]
    · simp [b3 h]

theorem elems_all {v : Ver} {bin : Bool} {m : Meth} {es : List Elem} {b : Bytes} (hm : m.mode ≠ .raw) (hne : m.mats ≠ [] ∨ m.tail ≠ .none)
    (h : ∀ e ∈ es, GoodElem v bin m e) (hw : cat (writeElem v bin m) es = .ok b) (abort : Bool) :
    ∃ ps : List (Bytes × Elem), ps.map (·.2) = es ∧ (ps.map (·.1)).flatten = b ∧ Piece bin b ∧
      ∀ p ∈ ps, Eats v (elemOf v m (coldOf bin) abort) p.1 p.2 ∧ AllLt 256 p.1 ∧ p.1 ≠ [] := by
  obtain ⟨ps, h1, h2, h3⟩ := cat_ok hw
  have hall : ∀ p ∈ ps, Eats v (elemOf v m (coldOf bin) abort) p.1 p.2 ∧ Piece bin p.1 ∧ p.1 ≠ [] := by
    intro p hp
    obtain ⟨a1, a2, a3⟩ := elem_eats hm (h p.2 (by rw [← h1]; exact List.mem_map_of_mem hp)) (h3 p hp) abort
    exact ⟨a1, a2, a3 hne⟩
  refine ⟨ps, h1, h2, ?_, fun p hp => ⟨(hall p hp).1, (hall p hp).2.1.lt, (hall p hp).2.2⟩⟩
  rw [← h2]
  clear h1 h2 h3 hw
  induction ps with
  | nil => exact Piece.nil bin
  | cons p ps ih =>
    simp only [List.map_cons, List.flatten_cons]
    exact (hall p (by simp)).2.1.append (ih (fun q hq => hall q (List.mem_cons_of_mem _ hq)))

/-- The methods of a version. -/
def methods : Ver → List (List Char × Meth)
  | .v1 => methods1
  | .v2 => methods2

theorem method_eq (v : Ver) (code : List Char) : method v code = (methods v).lookup code := by cases v <;> rfl

theorem methods_parts (v : Ver) : ∀ e ∈ methods v, (e.2.mode = .raw ∨ e.2.mats ≠ [] ∨ e.2.tail ≠ .none) ∧
    classify v e.1 = .att ∧ (Verif.Ctr.sizes? v ('-' :: '-' :: (e.1.drop 1).take 1) ≠ none → method v ('-' :: '-' :: (e.1.drop 1).take 1) = some e.2 ∨
      e.1.length ≠ 2) ∧ e.1.length ≤ 3 ∧ (e.1.length = 3 → (e.1.drop 1).take 1 = ['-']) := by cases v <;> decide +kernel

theorem methods_raw (v : Ver) : ∀ e ∈ methods v, e.2.mode = .raw → e.2.tail = .none := by cases v <;> decide +kernel

theorem lookup_mem {α β : Type} [BEq α] [LawfulBEq α] : ∀ {l : List (α × β)} {a : α} {b : β}, l.lookup a = some b → (a, b) ∈ l
  | [], _, _, h => by simp at h
  | (x, y) :: l, a, b, h => by
    rw [List.lookup_cons] at h
    by_cases hx : a == x
    · rw [hx] at h
      simp only at h
      injection h with h
      rw [eq_of_beq hx, h]
      simp
    · simp only [hx] at h
      exact List.mem_cons_of_mem _ (lookup_mem h)

/-- The method stays the same when the counter is promoted. -/
theorem method_promoted {v : Ver} {code : List Char} {m : Meth} {n : Int} {c : Counter} (h : method v code = some m) (hm : Verif.Ctr.make v code n = .ok c) :
    method v c.code = some m ∧ classify v c.code = .att := by
  have key : ∀ code, method v code = some m → classify v code = .att := by
    intro code h
    rw [method_eq] at h
    exact (methods_parts v _ (lookup_mem h)).2.1
  rcases make_code hm with h1 | ⟨_, a, x, tl, h1, h2⟩
  · rw [h1]; exact ⟨h, key _ h⟩
  · have hin := make_in hm
    rw [h2] at hin ⊢
    have h' := h
    rw [method_eq] at h'
    obtain ⟨_, _, k3, k4, k5⟩ := methods_parts v _ (lookup_mem h')
    simp only at k3 k4 k5
    rw [h1] at k3 k4 k5
    simp only [List.drop_succ_cons, List.drop_zero, List.take_succ_cons, List.take_zero, List.length_cons] at k3 k4 k5
    have hs : Verif.Ctr.sizes? v ['-', '-', x] ≠ none := by intro h0; rw [h0] at hin; simp at hin
    rcases k3 hs with h3 | h3
    · exact ⟨h3, key _ h3⟩
    · exfalso
      have : tl.length = 1 := by
        have := tl.length
        omega
      have hx := k5 (by omega)
      injection hx with hx _
      rw [hx] at hin
      exact absurd hin (by cases v <;> decide +kernel)

/-- A group is written: its counter and what comes after it. -/
theorem group_eats {v : Ver} {bin : Bool} {code : List Char} {m : Meth} {es : List Elem} {enc : Bytes} (hcode : method v code = some m)
    (h : ∀ e ∈ es, GoodElem v bin m e) (hraw : m.mode = .raw → es.length = 1) (hw : writeGroup v bin code m es = .ok enc) :
    ∃ c t b, GoodCtr v c ∧ writeCtr v bin c = .ok t ∧ enc = t ++ b ∧ classify v c.code = .att ∧ Piece bin b ∧
      ∀ abort, Eats v (attach v c (coldOf bin) abort) b (es.map (fun e => (m.slot, e))) := by
  have hpart := (methods_parts v _ (lookup_mem (method_eq v code ▸ hcode))).1
  simp only at hpart
  have hatt : ∀ {c : Counter} {b : Bytes}, method v c.code = some m → (∀ abort, Eats v (elems v m c (coldOf bin) abort) b es) →
      ∀ abort, Eats v (attach v c (coldOf bin) abort) b (es.map (fun e => (m.slot, e))) := by
    intro c b hc he abort
    unfold attach
    rw [hc]
    exact Eats.map (f := fun es => es.map (fun e => (m.slot, e))) (he abort)
  unfold writeGroup at hw
  split at hw
  · exact absurd hw (by simp)
  next b hb =>
  cases hmode : m.mode with
  | counted =>
    rw [hmode] at hw
    simp only at hw
    split at hw
    · exact absurd hw (by simp)
    next t ht =>
    unfold counted at ht
    split at ht
    · exact absurd ht (by simp)
    next c hc =>
    injection hw with hw
    obtain ⟨g1, g2⟩ := made_good hc
    obtain ⟨m1, m2⟩ := method_promoted hcode hc
    have hnr : m.mode ≠ .raw := by rw [hmode]; simp
    have hne : m.mats ≠ [] ∨ m.tail ≠ .none := by
      rcases hpart with h | h
      · exact absurd h hnr
      · exact h
    refine ⟨c, t, b, g1, ht, hw.symm, m2, (elems_all hnr hne h hb true).choose_spec.2.2.1, hatt m1 ?_⟩
    intro abort
    obtain ⟨ps, p1, p2, p3, p4⟩ := elems_all hnr hne h hb abort
    have hcount : c.count = ps.length := by
      have h3 : c.count = es.length := by exact_mod_cast g2
      rw [h3, ← p1, List.length_map]
    unfold elems
    rw [hmode]
    simp only [hcount]
    rw [← p1, ← p2]
    exact Eats.times (fun p hp => ⟨(p4 p hp).1, (p4 p hp).2.1⟩)
  | sized =>
    rw [hmode] at hw
    simp only at hw
    obtain ⟨c, t, k1, k2, k3, k4, k5⟩ := enclose_ok hw
    obtain ⟨m1, m2⟩ := method_promoted hcode k1
    have hnr : m.mode ≠ .raw := by rw [hmode]; simp
    have hne : m.mats ≠ [] ∨ m.tail ≠ .none := by
      rcases hpart with h | h
      · exact absurd h hnr
      · exact h
    obtain ⟨ps, p1, p2, p3, p4⟩ := elems_all hnr hne h hb true
    refine ⟨c, t, b, k5, k2, k3, m2, p3, hatt m1 ?_⟩
    intro abort
    unfold elems
    rw [hmode]
    simp only [k4]
    refine Eats.taken (k := fun x => whole x (elemOf v m (coldOf bin) true)) abort ?_
    rw [← p1, ← p2]
    exact whole_all p4
  | raw =>
    rw [hmode] at hw
    simp only at hw
    obtain ⟨c, t, k1, k2, k3, k4, k5⟩ := enclose_ok hw
    obtain ⟨m1, m2⟩ := method_promoted hcode k1
    obtain ⟨e, rfl⟩ := List.length_eq_one_iff.1 (hraw hmode)
    have he := h e (by simp)
    unfold GoodElem at he
    rw [hmode] at he
    obtain ⟨e1, e2, e3⟩ := he
    have hb' : b = e.blob := by
      have hs : writeSigs v bin m.tail [] = .ok [] := by
        have hp := methods_raw v _ (lookup_mem (method_eq v code ▸ hcode)) hmode
        simp only at hp
        rw [hp]; rfl
      simp only [cat, writeElem, e1, e2, hs, List.append_nil, List.nil_append] at hb
      injection hb with hb
      exact hb.symm
    have hd : b.length % unit bin = 0 := by
      have hw' := hw
      unfold enclose at hw'
      split at hw'
      · exact absurd hw' (by simp)
      · omega
    refine ⟨c, t, b, k5, k2, k3, m2, ⟨by rw [hb']; exact e3, hd⟩, hatt m1 ?_⟩
    intro abort
    unfold elems
    rw [hmode]
    simp only [k4]
    refine Eats.taken (k := fun x => (Pure.pure [⟨[], [], x⟩] : P (List Elem))) abort ?_
    have hee : e = ⟨[], [], b⟩ := by rw [hb', ← e1, ← e2]
    rw [hee]
    exact Eats.pure v _

end Verif.Prs
