import Verif.Prs.Calm
import Verif.Prs.SpecSound

/-!
# What comes out of the parser, whatever comes in
-/

namespace Verif.Prs

open Verif.Matter (Mat)
open Verif.Idr (Ixr)
open Verif.Ctr (Ver Counter)
open Verif.B64

def Clean (s : St) : Prop := AllLt 256 s.buf ∧ ∀ p ∈ s.fut, AllLt 256 p

/-- What is yielded has the property. -/
def Sat {α : Type} (Q : α → Prop) : Res α → Prop
  | .wait => True
  | .ok a s => Q a ∧ Clean s
  | .err _ s => Clean s

/-- If the generator yields something then it has the property. -/
def Ens {α : Type} (m : P α) (Q : α → Prop) : Prop := ∀ s, Clean s → Sat Q (m s)

theorem Ens.pure {α : Type} {Q : α → Prop} {a : α} (h : Q a) : Ens (Pure.pure a : P α) Q := fun _ hs => ⟨h, hs⟩

theorem Ens.fail {α : Type} {Q : α → Prop} (e : Err) : Ens (fail e : P α) Q := fun _ hs => hs

theorem Ens.bind {α β : Type} {m : P α} {f : α → P β} {R : α → Prop} {Q : β → Prop} (h1 : Ens m R) (h2 : ∀ a, R a → Ens (f a) Q) : Ens (m >>= f) Q := by
  intro s hs
  have := h1 s hs
  cases hm : m s with
  | wait => rw [bind_wait hm]; trivial
  | err e s' => rw [bind_err hm]; rw [hm] at this; exact this
  | ok a s' =>
    rw [hm] at this
    rw [bind_ok hm]
    exact h2 a this.1 s' this.2

theorem Ens.ite {α : Type} {Q : α → Prop} {c : Prop} [Decidable c] {a b : P α} (h1 : Ens a Q) (h2 : Ens b Q) : Ens (if c then a else b) Q := by
  split
  · exact h1
  · exact h2

theorem Ens.lift {α : Type} {Q : α → Prop} (r : Except Err α) (h : ∀ a, r = .ok a → Q a) : Ens (lift r) Q := by
  intro s hs
  cases r with
  | ok a => exact ⟨h a rfl, hs⟩
  | error e => exact hs

theorem allLt_append' {a b : Bytes} (h1 : AllLt 256 a) (h2 : AllLt 256 b) : AllLt 256 (a ++ b) := (allLt_append _ _ _).2 ⟨h1, h2⟩

theorem ens_extractGo {α : Type} {Q : α → Prop} {rd : Bytes → Got α} (abort : Bool) (v : Ver) (h : ∀ b a, AllLt 256 b → (rd b).val = .ok a → Q a) :
    ∀ fut buf, AllLt 256 buf → (∀ p ∈ fut, AllLt 256 p) →
      Sat Q (extractGo rd abort v fut buf)
  | fut, buf, hb, hf => by
    rw [extractGo.eq_def]
    simp only
    cases hv : (rd buf).val with
    | ok a => exact ⟨h _ _ hb hv, hb.drop _, hf⟩
    | error e =>
      by_cases hc : e = .shortage ∧ abort = false
      · simp only [if_pos hc]
        cases fut with
        | nil => trivial
        | cons p fut => exact ens_extractGo abort v h fut _ (allLt_append' (hb.drop _) (hf p (by simp))) (fun q hq => hf q (by simp [hq]))
      · simp only [if_neg hc]
        exact ⟨hb.drop _, hf⟩

theorem ens_extractor {α : Type} {Q : α → Prop} {rd : Ver → Bytes → Got α} (abort : Bool) (h : ∀ v b a, AllLt 256 b → (rd v b).val = .ok a → Q a) :
    Ens (extractor rd abort) Q := fun s hs => ens_extractGo abort s.ver (h s.ver) s.fut s.buf hs.1 hs.2

abbrev Any {α : Type} : α → Prop := fun _ => True

theorem ens_any {α : Type} (rd : Ver → Bytes → Got α) (abort : Bool) : Ens (extractor rd abort) Any := ens_extractor abort (fun _ _ _ _ _ => trivial)

theorem ens_peek (cold : Cold) (abort : Bool) : Ens (peek cold abort) Any := ens_any _ _

theorem ens_waitGo (n : Nat) (v : Ver) : ∀ fut buf, AllLt 256 buf → (∀ p ∈ fut, AllLt 256 p) →
    Sat Any (waitGo n v fut buf)
  | fut, buf, hb, hf => by
    rw [waitGo.eq_def]
    simp only
    by_cases hn : n ≤ buf.length
    · simp only [if_pos hn]; exact ⟨trivial, hb, hf⟩
    · simp only [if_neg hn]
      cases fut with
      | nil => trivial
      | cons p fut => exact ens_waitGo n v fut _ (allLt_append' hb (hf p (by simp))) (fun q hq => hf q (by simp [hq]))

theorem ens_fill (n : Nat) (framed : Bool) : Ens (fill n framed) Any := by
  intro s hs
  cases framed
  · simp only [fill, Bool.false_eq_true, if_false]; exact ens_waitGo n s.ver s.fut s.buf hs.1 hs.2
  · exact ⟨trivial, hs⟩

theorem ens_fillStrict (n : Nat) (abort : Bool) : Ens (fillStrict n abort) Any := by
  intro s hs
  cases abort
  · simp only [fillStrict, Bool.false_eq_true, if_false]; exact ens_waitGo n s.ver s.fut s.buf hs.1 hs.2
  · simp only [fillStrict, if_true]
    by_cases h : n ≤ s.buf.length
    · simp only [if_pos h]; exact ⟨trivial, hs⟩
    · simp only [if_neg h]; exact hs

theorem ens_takeBuf (n : Nat) : Ens (takeBuf n) (AllLt 256) := fun _ hs => ⟨hs.1.take _, hs.1.drop _, hs.2⟩

theorem ens_del (n : Nat) : Ens (del n) Any := fun _ hs => ⟨trivial, hs.1.drop _, hs.2⟩

theorem ens_delCtr (cold : Cold) (c : Counter) : Ens (delCtr cold c) Any := fun s hs => ens_del _ s hs

theorem ens_getVer : Ens getVer Any := fun _ hs => ⟨trivial, hs⟩

theorem ens_getBuf : Ens getBuf Any := fun _ hs => ⟨trivial, hs⟩

theorem ens_setVer (c : Counter) : Ens (setVer c) Any := by
  intro s hs
  simp only [setVer]
  cases Verif.Ctr.b64ToVer (Verif.B64.intToB64 c.count 3) with
  | error e => exact hs
  | ok p =>
    cases h : Verif.Ctr.tables p.1 p.2 with
    | error e => simp only [h]; exact hs
    | ok v => simp only [h]; exact ⟨trivial, hs⟩

theorem ens_sniffP : Ens sniffP Any := by
  intro s hs
  simp only [sniffP]
  cases h : sniff s.buf with
  | error e => exact hs
  | ok c => exact ⟨trivial, hs⟩

theorem ens_onCopy {α : Type} {Q : α → Prop} {b : Bytes} {m : P α} (hb : AllLt 256 b) (h : Ens m Q) : Ens (onCopy b m) Q := by
  intro s hs
  have := h ⟨b, [], s.ver⟩ ⟨hb, by simp⟩
  simp only [onCopy]
  cases hm : m ⟨b, [], s.ver⟩ with
  | wait => trivial
  | ok a s' => rw [hm] at this; exact ⟨this.1, hs⟩
  | err e s' => exact hs

theorem ens_restoring {α : Type} {Q : α → Prop} {v : Ver} {m : P α} (h : Ens m Q) : Ens (restoring v m) Q := by
  intro s hs
  have := h s hs
  simp only [restoring]
  cases hm : m s with
  | wait => trivial
  | ok a s' => rw [hm] at this; exact this
  | err e s' => rw [hm] at this; exact this

theorem ens_sizedWhen {α : Type} {Q : α → Prop} {c : Bool} {m : P α} (h : Ens m Q) : Ens (sizedWhen c m) Q := by
  intro s hs
  have := h s hs
  simp only [sizedWhen]
  cases hm : m s with
  | wait => trivial
  | ok a s' => rw [hm] at this; exact this
  | err e s' =>
    rw [hm] at this
    by_cases he : (c && extraction e) = true
    · simp only [if_pos he]; exact this
    · simp only [if_neg he]; exact this

theorem ens_times {α : Type} {Q : α → Prop} {m : P α} (h : Ens m Q) : ∀ n, Ens (times m n) (fun l => ∀ a ∈ l, Q a)
  | 0 => Ens.pure (by simp)
  | n + 1 => Ens.bind h fun a ha => Ens.bind (ens_times h n) fun l hl => Ens.pure (by
      intro x hx
      rcases List.mem_cons.1 hx with rfl | hx
      · exact ha
      · exact hl x hx)

theorem ens_whileBuf {α : Type} {Q : α → Prop} {m : P α} (h : Ens m Q) : ∀ n, Ens (whileBuf m n) (fun l => ∀ a ∈ l, Q a)
  | 0 => by
    intro s hs
    simp only [whileBuf]
    by_cases hb : s.buf = []
    · simp only [if_pos hb]; exact ⟨by simp, hs⟩
    · simp only [if_neg hb]; exact hs
  | n + 1 => by
    intro s hs
    simp only [whileBuf]
    by_cases hb : s.buf = []
    · simp only [if_pos hb]; exact ⟨by simp, hs⟩
    · simp only [if_neg hb]
      refine Ens.bind (Q := fun l => ∀ a ∈ l, Q a) h (fun a ha => Ens.bind (ens_whileBuf h n) fun l hl => Ens.pure ?_) s hs
      intro x hx
      rcases List.mem_cons.1 hx with rfl | hx
      · exact ha
      · exact hl x hx

theorem ens_whole {α : Type} {Q : α → Prop} {b : Bytes} {m : P α} (hb : AllLt 256 b) (h : Ens m Q) : Ens (whole b m) (fun l => ∀ a ∈ l, Q a) :=
  ens_onCopy hb (ens_whileBuf h _)

/-! ## Primitives -/

theorem decVals_raw {mat : List Char} {k : Nat} {raw : List Nat} (h : bits 6 (Verif.Matter.decVals mat) = List.replicate k 0 ++ bits 8 raw) :
    6 * (Verif.Matter.decVals mat).length = k + 8 * raw.length := by
  have := congrArg List.length h
  simpa [bits_length] using this

theorem readMat_ok {cold : Cold} {b : Bytes} {m : Mat} (hb : AllLt 256 b) (h : (readMat cold b).val = .ok m) :
    AllLt 256 m.raw ∧ ∃ sz n, Verif.Matter.sizes? m.code = some sz ∧ Verif.Matter.framedSize sz m.soft = .ok n ∧ m.soft.length = sz.ss - sz.xs ∧
      m.raw.length + sz.ls = (n - sz.cs) * 3 / 4 := by
  have key : ∀ r : Except Err Mat, (match r with
      | .error e => (⟨.error e, 0⟩ : Got Mat)
      | .ok m => match Verif.Matter.fullSize m with
        | .error e => ⟨.error e, 0⟩
        | .ok n => ⟨.ok m, if cold = Cold.bny then n * 3 / 4 else n⟩).val = .ok m → r = .ok m := by
    intro r hr
    cases r with
    | error e => exact absurd hr (by simp)
    | ok m' =>
      simp only at hr
      split at hr
      · exact absurd hr (by simp)
      · exact hr
  have h := key _ h
  cases cold with
  | txt =>
    obtain ⟨n, sz, mat, rest, c⟩ := (Verif.Matter.exfil_ok_iff _ m).1 h
    refine ⟨c.raw, sz, n, c.size, c.framed, c.softLen, ?_⟩
    have hwf := Verif.Matter.wf_of_sizes c.size
    have hbl := Verif.Matter.both_length hwf c.softLen
    have hff := Verif.Matter.framed_facts hwf c.framed
    have h1 := decVals_raw c.bitsEq
    have h2 := c.len
    have h3 : (Verif.Matter.decVals mat).length = mat.length := Verif.Matter.decVals_length c.dec
    omega
  | bny =>
    obtain ⟨n, sz, pre, rest, c⟩ := (Verif.Matter.bexfil_ok_iff _ hb m).1 h
    exact ⟨c.valid.raw, sz, n, c.valid.size, c.valid.framed, c.valid.softLen, c.valid.rawLen⟩
  | msg => exact absurd h (by simp)
  | ano => exact absurd h (by simp)

theorem readPrim_ok {k : Klas} {cold : Cold} {b : Bytes} {m : Mat} (hb : AllLt 256 b) (h : (readPrim k cold b).val = .ok m) : Proper k m := by
  unfold readPrim at h
  split at h
  · exact absurd h (by simp)
  next m' n hm =>
  by_cases hk : k.allows m'.code = true
  · rw [if_pos hk] at h
    injection h with h
    subst h
    exact ⟨hk, readMat_ok hb (by rw [hm])⟩
  · rw [if_neg hk] at h
    exact absurd h (by simp)

theorem ens_prim (k : Klas) (cold : Cold) (abort : Bool) : Ens (extractor (fun _ => readPrim k cold) abort) (Proper k) :=
  ens_extractor abort (fun _ _ _ hb h => readPrim_ok hb h)

theorem readSig_ok {cold : Cold} {b : Bytes} {m : Ixr} (hb : AllLt 256 b) (h : (readSig cold b).val = .ok m) : ProperSig m := by
  have fin : ∀ sz f, Verif.Idr.Valid m sz f → ProperSig m := by
    intro sz f v
    obtain ⟨s1, s2, s3, s4, s5⟩ := Verif.Idr.spec_of v.sig v.size v.wf
    have hi := v.index
    exact ⟨v.sig, v.raw, by rw [v.rawLen, s4], by omega⟩
  have key : ∀ r : Except Err Ixr, (match r with
      | .error e => (⟨.error e, 0⟩ : Got Ixr)
      | .ok m =>
        let l := if cold = Cold.bny then (Verif.Idr.binfil m).map List.length else (Verif.Idr.infil m).map List.length
        match l with
        | .error e => ⟨.error e, 0⟩
        | .ok n => match Verif.Idr.siger (.ok m) with
          | .error e => ⟨.error e, n⟩
          | .ok m => ⟨.ok m, n⟩).val = .ok m → Verif.Idr.siger r = .ok m := by
    intro r hr
    cases r with
    | error e => exact absurd hr (by simp)
    | ok m' =>
      simp only at hr
      split at hr
      · exact absurd hr (by simp)
      · split at hr
        · exact absurd hr (by simp)
        next m2 h2 =>
          rw [h2]
          exact hr
  have h := Verif.Idr.siger_ok.1 (key _ h)
  cases cold with
  | txt =>
    obtain ⟨sz, f, mat, r, c⟩ := (Verif.Idr.exfil_ok_iff _ m).1 h
    exact fin sz f c.valid
  | bny =>
    obtain ⟨sz, f, pre, r, c⟩ := (Verif.Idr.bexfil_ok_iff _ hb m).1 h
    exact fin sz f c.valid
  | msg => exact absurd h.1 (by simp)
  | ano => exact absurd h.1 (by simp)

theorem ens_sig (cold : Cold) (abort : Bool) : Ens (extractor (fun _ => readSig cold) abort) ProperSig :=
  ens_extractor abort (fun _ _ _ hb h => readSig_ok hb h)

/-! ## The parts of a message -/

/-- The signatures of an element. -/
def TailOk : Tail → List Ixr → Prop
  | .none, ss => ss = []
  | .one, ss => ∃ s, ss = [s] ∧ ProperSig s
  | .group, ss => ∀ s ∈ ss, ProperSig s

theorem ens_sigsOf (v : Ver) (cold : Cold) (abort : Bool) (t : Tail) : Ens (sigsOf v cold abort t) (TailOk t) := by
  cases t with
  | none => exact Ens.pure rfl
  | one => exact Ens.bind (ens_sig _ _) fun s hs => Ens.pure ⟨s, rfl, hs⟩
  | group =>
    refine Ens.bind (ens_any _ _) fun c _ => ?_
    cases v with
    | v1 => exact Ens.ite (Ens.fail _) (ens_times (ens_sig _ _) _)
    | v2 =>
      exact Ens.ite (Ens.fail _) (Ens.bind (ens_fillStrict _ _) fun _ _ => Ens.bind (ens_takeBuf _) fun b hb => ens_whole hb (ens_sig _ _))

theorem ens_primsOf (cold : Cold) (abort : Bool) : ∀ ks, Ens (primsOf cold abort ks) (Line ks)
  | [] => Ens.pure .nil
  | k :: ks => Ens.bind (ens_prim k cold abort) fun _ hm => Ens.bind (ens_primsOf cold abort ks) fun _ hl => Ens.pure (.cons hm hl)

/-- An element as the method makes it. -/
def MadeBy (m : Meth) (e : Elem) : Prop :=
  if m.mode = .raw then e.mats = [] ∧ e.sigs = [] ∧ AllLt 256 e.blob else Line m.mats e.mats ∧ TailOk m.tail e.sigs ∧ e.blob = []

theorem ens_elemOf (v : Ver) (m : Meth) (cold : Cold) (abort : Bool) (hm : m.mode ≠ .raw) : Ens (elemOf v m cold abort) (MadeBy m) :=
  Ens.bind (ens_primsOf cold abort _) fun _ h1 => Ens.bind (ens_sigsOf v cold abort _) fun _ h2 => Ens.pure (by
    unfold MadeBy
    rw [if_neg hm]
    exact ⟨h1, h2, rfl⟩)

theorem ens_elems (v : Ver) (m : Meth) (c : Counter) (cold : Cold) (abort : Bool) : Ens (elems v m c cold abort) (fun l => ∀ e ∈ l, MadeBy m e) := by
  unfold elems
  split
  next h => exact ens_times (ens_elemOf v m cold abort (by rw [h]; simp)) _
  next h =>
    exact Ens.bind (ens_fillStrict _ _) fun _ _ => Ens.bind (ens_takeBuf _) fun b hb => ens_whole hb (ens_elemOf v m cold true (by rw [h]; simp))
  next h =>
    refine Ens.bind (ens_fillStrict _ _) fun _ _ => Ens.bind (ens_takeBuf _) fun b hb => Ens.pure ?_
    intro e he
    simp only [List.mem_singleton] at he
    subst he
    unfold MadeBy
    rw [if_pos h]
    exact ⟨rfl, rfl, hb⟩

/-- The methods make what belongs into their lists. -/
theorem made_fits {v : Ver} {code : List Char} {m : Meth} {e : Elem} (hm : method v code = some m) (h : MadeBy m e) : FitsSlot m.slot e := by
  have hmem : m ∈ methods1.map (·.2) ++ methods2.map (·.2) := by
    have lk : ∀ l : List (List Char × Meth), l.lookup code = some m → m ∈ l.map (·.2) := by
      intro l
      induction l with
      | nil => simp
      | cons p l ih =>
        obtain ⟨a, b⟩ := p
        intro h
        rw [List.lookup_cons] at h
        split at h
        · injection h with h; simp [h]
        · simp only [List.map_cons, List.mem_cons]; exact Or.inr (ih h)
    cases v with
    | v1 => exact List.mem_append_left _ (lk _ hm)
    | v2 => exact List.mem_append_right _ (lk _ hm)
  obtain ⟨ms, ss, b⟩ := e
  simp only [methods1, methods2, List.map_cons, List.map_nil, List.flatMap_cons, List.flatMap_nil, List.append_nil, List.cons_append, List.nil_append,
    List.mem_cons, List.not_mem_nil, or_false] at hmem
  rcases hmem with rfl | rfl | rfl | rfl | rfl | rfl | rfl | rfl | rfl | rfl | rfl | rfl | rfl | rfl | rfl | rfl | rfl | rfl | rfl | rfl | rfl | rfl |
      rfl | rfl | rfl | rfl | rfl | rfl | rfl | rfl | rfl | rfl | rfl | rfl | rfl | rfl | rfl | rfl | rfl | rfl | rfl | rfl | rfl <;>
    (first
      | (obtain ⟨h1, h2, h3⟩ := h; simp only at h1 h2 h3; subst h3; cases h1; obtain ⟨s, rfl, hs⟩ := h2; exact .sigers hs)
      | (obtain ⟨h1, h2, h3⟩ := h; simp only at h1 h2 h3; subst h3; cases h1; obtain ⟨s, rfl, hs⟩ := h2; exact .wigers hs)
      | (obtain ⟨h1, h2, h3⟩ := h; simp only at h1 h2 h3; subst h1; subst h2; exact .ptds h3)
      | (obtain ⟨h1, h2, h3⟩ := h; simp only at h1 h2 h3; subst h3; exact .rsgs h1 h2)
      | (obtain ⟨h1, h2, h3⟩ := h; simp only at h1 h2 h3; subst h3; exact .tsgs h1 h2)
      | (obtain ⟨h1, h2, h3⟩ := h; simp only at h1 h2 h3; subst h3; exact .lsgs h1 h2)
      | (obtain ⟨h1, h2, h3⟩ := h; simp only [TailOk] at h1 h2 h3; subst h3; subst h2; constructor; exact h1))

theorem ens_attach (v : Ver) (c : Counter) (cold : Cold) (abort : Bool) : Ens (attach v c cold abort) (fun l => ∀ p ∈ l, FitsSlot p.1 p.2) := by
  unfold attach
  split
  · exact Ens.fail _
  next m hm =>
    refine Ens.bind (ens_elems v m c cold abort) fun es h => Ens.pure ?_
    intro p hp
    obtain ⟨e, he, rfl⟩ := List.mem_map.1 hp
    exact made_fits hm (h e he)

theorem reap_loaded {β : Type} {L : Loader β} {v : Ver} {b : Bytes} {x : β} (h : (reap L v b).val = .ok x) : Loaded L x := by
  unfold reap at h
  split at h
  · exact absurd h (by simp)
  next m hm =>
  split at h
  · exact absurd h (by simp)
  next hc =>
  split at h
  · exact absurd h (by simp)
  next hl => exact .plain hm hc (by omega) h

theorem ens_bodyOf {β : Type} (L : Loader β) (c : Counter) (cold : Cold) (framed : Bool) : Ens (bodyOf L c cold framed) (Loaded L) := by
  refine Ens.bind ens_getVer fun v _ => ?_
  refine Ens.ite (Ens.bind (ens_delCtr _ _) fun _ _ => Ens.bind (ens_prim _ _ _) fun _ _ => Ens.lift _ fun _ h => reap_loaded h) ?_
  refine Ens.ite (Ens.fail _) (Ens.ite ?_ (Ens.ite ?_ (Ens.ite (Ens.fail _) (Ens.fail _))))
  · exact Ens.bind (ens_fill _ _) fun _ _ => Ens.bind (ens_takeBuf _) fun _ _ => Ens.lift _ fun _ h => .native h
  · exact Ens.bind (ens_fill _ _) fun _ _ => Ens.bind (ens_del _) fun _ _ => Ens.fail _

/-- Attachments so far. -/
def AttsOk {β : Type} (L : Loader β) (a : Atts β) : Prop := (∀ p ∈ a.atts, FitsSlot p.1 p.2) ∧ ∀ e ∈ a.nests, WellFormed L e

theorem ens_loop {β : Type} {L : Loader β} {sub : P (Exts β)} (h : Ens sub (WellFormed L)) (framed enclosed : Bool) :
    ∀ n cold acc, AttsOk L acc → Ens (loop sub framed enclosed n cold acc) (AttsOk L)
  | 0, _, _, _ => Ens.fail _
  | n + 1, cold, acc, ha => by
    have next : ∀ acc : Atts β, AttsOk L acc → Ens (do
        let b ← getBuf
        if b = [] then pure acc
        else if enclosed then loop sub framed enclosed n cold acc
        else do
          let cold ← sniffP
          if cold = .msg then pure acc else loop sub framed enclosed n cold acc) (AttsOk L) := fun acc ha =>
      Ens.bind ens_getBuf fun b _ => Ens.ite (Ens.pure ha) (Ens.ite (ens_loop h framed enclosed n cold acc ha)
        (Ens.bind ens_sniffP fun cold _ => Ens.ite (Ens.pure ha) (ens_loop h framed enclosed n cold acc ha)))
    unfold loop
    refine Ens.bind (ens_peek _ _) fun c _ => Ens.bind ens_getVer fun v _ => ?_
    split
    · exact Ens.ite (Ens.fail _) (Ens.pure ha)
    · exact Ens.bind (ens_fill _ _) fun _ _ => Ens.bind (ens_del _) fun _ _ => next _ ha
    · refine Ens.ite (Ens.pure ha) (Ens.bind h fun e he => next _ ⟨ha.1, ?_⟩)
      intro x hx
      rcases List.mem_append.1 hx with hx | hx
      · exact ha.2 x hx
      · simp only [List.mem_singleton] at hx; subst hx; exact he
    · refine Ens.bind (ens_delCtr _ _) fun _ _ => Ens.bind (ens_attach _ _ _ _) fun es he => next _ ⟨?_, ha.2⟩
      intro x hx
      rcases List.mem_append.1 hx with hx | hx
      · exact ha.1 x hx
      · exact he x hx

theorem attsOk_nil {β : Type} (L : Loader β) : AttsOk L ⟨[], []⟩ := ⟨by simp, by simp⟩

theorem ens_loopAll {β : Type} {L : Loader β} {sub : P (Exts β)} (h : Ens sub (WellFormed L)) (framed enclosed : Bool) (cold : Cold) :
    Ens (loopAll sub framed enclosed cold) (AttsOk L) :=
  fun s hs => ens_loop h framed enclosed _ cold _ (attsOk_nil L) s hs

theorem ens_inAttGroup {β : Type} {L : Loader β} {sub : P (Exts β)} (h : Ens sub (WellFormed L)) (framed : Bool) (cold : Cold) :
    Ens (inAttGroup sub framed cold) (AttsOk L) := by
  refine Ens.bind (ens_peek _ _) fun c _ => Ens.ite ?_ (ens_loopAll h _ _ _)
  exact Ens.bind (ens_delCtr _ _) fun _ _ => Ens.bind ens_getVer fun v _ => ens_restoring (Ens.bind (ens_setVer _) fun _ _ => ens_loopAll h _ _ _)

theorem ens_attsOf {β : Type} {L : Loader β} {sub : P (Exts β)} (h : Ens sub (WellFormed L)) (framed enclosed : Bool) :
    Ens (attsOf sub framed enclosed) (AttsOk L) := by
  refine ens_sizedWhen (Ens.bind (ens_fill _ _) fun _ _ => Ens.bind ens_sniffP fun cold _ => Ens.ite (Ens.pure (attsOk_nil L)) ?_)
  refine Ens.bind (ens_peek _ _) fun c _ => Ens.bind ens_getVer fun v _ => Ens.ite ?_ (ens_loopAll h _ _ _)
  exact Ens.bind (ens_delCtr _ _) fun _ _ => Ens.bind (ens_fill _ _) fun _ _ => Ens.bind (ens_takeBuf _) fun _ hb =>
    ens_onCopy hb (ens_sizedWhen (ens_inAttGroup h _ _))

theorem ens_groupBody {β : Type} (L : Loader β) (cold : Cold) : Ens (groupBody L cold) (fun p => Loaded L p.1) := by
  refine ens_sizedWhen (Ens.bind (ens_peek _ _) fun c _ => Ens.ite ?_ (Ens.bind (ens_bodyOf L _ _ _) fun _ h => Ens.pure h))
  exact Ens.bind (ens_delCtr _ _) fun _ _ => Ens.bind ens_getVer fun v _ => Ens.bind (ens_setVer _) fun _ _ => Ens.bind (ens_peek _ _) fun _ _ =>
    Ens.bind (ens_bodyOf L _ _ _) fun _ h => Ens.pure h

theorem ens_inBodyWith {β : Type} {L : Loader β} {sub : P (Exts β)} (h : Ens sub (WellFormed L)) (cold : Cold) :
    Ens (inBodyWith L sub cold) (WellFormed L) := by
  refine Ens.bind (ens_groupBody L cold) fun p hp => ?_
  obtain ⟨b, v⟩ := p
  cases v with
  | some v => exact Ens.bind (ens_restoring (ens_attsOf h _ _)) fun _ ha => Ens.pure (.mk hp ha.1 ha.2)
  | none => exact Ens.bind (ens_attsOf h _ _) fun _ ha => Ens.pure (.mk hp ha.1 ha.2)

theorem ens_frontVersion (framed : Bool) : Ens (frontVersion framed) Any := by
  refine Ens.bind ens_sniffP fun cold _ => Ens.ite (Ens.pure trivial) (Ens.bind (ens_peek _ _) fun c _ => Ens.ite ?_ (Ens.pure trivial))
  exact Ens.bind (ens_delCtr _ _) fun _ _ => ens_setVer _

theorem ens_msg {β : Type} (L : Loader β) : ∀ d framed, Ens (msg L d framed) (WellFormed L)
  | 0, _ => Ens.fail _
  | d + 1, framed => by
    unfold msg
    refine Ens.bind (ens_fill _ _) fun _ _ => Ens.bind (ens_frontVersion _) fun _ _ => Ens.bind ens_sniffP fun cold _ => Ens.ite ?_ ?_
    · exact Ens.bind (ens_extractor _ (fun _ _ _ _ h => reap_loaded h)) fun _ hb => Ens.bind (ens_attsOf (ens_msg L d _) _ _) fun _ ha =>
        Ens.pure (.mk hb ha.1 ha.2)
    · refine Ens.bind (ens_peek _ _) fun c _ => Ens.bind ens_getVer fun v _ => Ens.ite ?_ ?_
      · exact Ens.bind (ens_delCtr _ _) fun _ _ => Ens.bind (ens_fill _ _) fun _ _ => Ens.bind (ens_takeBuf _) fun _ hb =>
          ens_onCopy hb (ens_inBodyWith (ens_msg L d _) _)
      · exact Ens.bind (ens_bodyOf L _ _ _) fun _ hb => Ens.bind (ens_attsOf (ens_msg L d _) _ _) fun _ ha => Ens.pure (.mk hb ha.1 ha.2)

/-! ## Streams -/

structure GOk {β : Type} (L : Loader β) (g : GSt β) : Prop where
  cur : Clean g.cur
  stack : ∀ p ∈ g.stack, AllLt 256 p.2
  out : ∀ e ∈ g.out, WellFormed L e

def OOk {β : Type} (L : Loader β) (o : GOut β) : Prop := (∀ e ∈ o.out, WellFormed L e) ∧ Clean o.st

theorem ascend_ok {β : Type} {L : Loader β} : ∀ (l : List (Ver × Bytes)) (g : GSt β), Clean g.cur → (∀ p ∈ l, AllLt 256 p.2) →
    (∀ e ∈ g.out, WellFormed L e) → GOk L (ascend g l)
  | [], g, h1, _, h3 => ⟨h1, by simp [ascend], h3⟩
  | (v, b) :: tl, g, h1, h2, h3 => by
    simp only [ascend]
    split
    · exact ascend_ok tl _ ⟨h2 (v, b) (by simp), h1.2⟩ (fun p hp => h2 p (by simp [hp])) h3
    · exact ⟨h1, h2, h3⟩

theorem raised_ok {β : Type} {L : Loader β} {g : GSt β} {s : St} (e : Err) (h : GOk L g) (hs : Clean s) : OOk L (raised g e s) := by
  refine ⟨h.out, ?_⟩
  unfold raised
  cases hl : g.stack.getLast? with
  | none => exact hs
  | some p => exact ⟨h.stack p (List.mem_of_getLast? hl), hs.2⟩

theorem enter_ok {β : Type} {L : Loader β} {g : GSt β} {s : St} (c : Counter) (cold : Cold) (h : GOk L g) (hs : Clean s) :
    match enter g c cold s with
    | .inl o => OOk L o
    | .inr g' => GOk L g' := by
  unfold enter
  have ht := Ens.bind (ens_delCtr cold c) (fun _ _ => Ens.bind (ens_fill (ctrCount cold c) g.framed) fun _ _ => ens_takeBuf (ctrCount cold c)) s hs
  split
  next hr =>
    split at hr
    · injection hr with hr; subst hr; exact ⟨h.out, hs⟩
    next e s' hm =>
      rw [hm] at ht
      injection hr with hr; subst hr; exact raised_ok e h ht
    next b s' hm =>
      rw [hm] at ht
      have hp := ens_peek cold g.framed ⟨b, [], s'.ver⟩ ⟨ht.1, by simp⟩
      simp only at hr
      split at hr
      · injection hr with hr; subst hr; exact ⟨h.out, ht.2⟩
      · injection hr with hr; subst hr; exact raised_ok (g := { g with eggs := true }) _ ⟨h.cur, h.stack, h.out⟩ ht.2
      next c' s2 hm2 =>
        split at hr
        next hc =>
          have hv := ens_setVer c' ⟨b.drop (ctrSize s'.ver cold c'), s'.fut, s'.ver⟩ ⟨ht.1.drop _, ht.2.2⟩
          split at hr
          · exact absurd hr (by simp)
          next e s3 hm3 =>
            rw [hm3] at hv
            injection hr with hr; subst hr
            refine raised_ok (g := { g with eggs := true, stack := (s'.ver, s'.buf) :: g.stack }) e ⟨h.cur, ?_, h.out⟩ hv
            intro p hp
            rcases List.mem_cons.1 hp with rfl | hp
            · exact ht.2.1
            · exact h.stack p hp
          · injection hr with hr; subst hr; exact ⟨h.out, ht.2⟩
        · exact absurd hr (by simp)
  next hr =>
    split at hr
    · exact absurd hr (by simp)
    · exact absurd hr (by simp)
    next b s' hm =>
      rw [hm] at ht
      simp only at hr
      have hst : ∀ p ∈ (s'.ver, s'.buf) :: g.stack, AllLt 256 p.2 := by
        intro p hp
        rcases List.mem_cons.1 hp with rfl | hp
        · exact ht.2.1
        · exact h.stack p hp
      split at hr
      · exact absurd hr (by simp)
      · exact absurd hr (by simp)
      next c' s2 hm2 =>
        split at hr
        next hc =>
          have hv := ens_setVer c' ⟨b.drop (ctrSize s'.ver cold c'), s'.fut, s'.ver⟩ ⟨ht.1.drop _, ht.2.2⟩
          split at hr
          next a s3 hm3 =>
            rw [hm3] at hv
            injection hr with hr; subst hr
            exact ⟨hv.2, hst, h.out⟩
          · exact absurd hr (by simp)
          · exact absurd hr (by simp)
        · injection hr with hr; subst hr
          exact ⟨⟨ht.1, ht.2.2⟩, hst, h.out⟩

theorem group_ok {β : Type} {L : Loader β} (d : Nat) : ∀ (n : Nat) (g : GSt β), GOk L g → OOk L (group L d n g)
  | 0, g, h => raised_ok _ h h.cur
  | n + 1, g0, h0 => by
    unfold group
    simp only
    have h := ascend_ok g0.stack g0 h0.cur h0.stack h0.out
    generalize ascend g0 g0.stack = g at h
    have message : ∀ s, Clean s → OOk L (match msg L d g.framed s with
        | .wait => ⟨g.out, .wait, s⟩
        | .err .topLevelStream s => group L d n { g with cur := s }
        | .err _ s => raised g .shortage s
        | .ok e s => group L d n { g with cur := s, out := g.out ++ [e] }) := by
      intro s hs
      have hm := ens_msg L d g.framed s hs
      split
      · exact ⟨h.out, hs⟩
      next s' he => rw [he] at hm; exact group_ok d n _ ⟨hm, h.stack, h.out⟩
      next e s' _ he => rw [he] at hm; exact raised_ok _ h hm
      next e s' he =>
        rw [he] at hm
        refine group_ok d n _ ⟨hm.2, h.stack, ?_⟩
        intro x hx
        rcases List.mem_append.1 hx with hx | hx
        · exact h.out x hx
        · simp only [List.mem_singleton] at hx; subst hx; exact hm.1
    split
    · exact ⟨h.out, h.cur⟩
    · split
      · exact raised_ok _ h h.cur
      · exact message _ h.cur
      next cold _ _ =>
        have hp := ens_peek cold g.framed g.cur h.cur
        split
        · exact ⟨h.out, h.cur⟩
        next e s he => rw [he] at hp; exact raised_ok _ h hp
        next c s he =>
          rw [he] at hp
          split
          · have := enter_ok (L := L) c cold h hp.2
            split
            next o ho => rw [ho] at this; exact this
            next g' hg => rw [hg] at this; exact group_ok d n _ this
          · exact message s hp.2

theorem groupAll_ok {β : Type} {L : Loader β} (framed : Bool) {s : St} (h : Clean s) : OOk L (groupAll L framed s) :=
  group_ok _ _ _ ⟨h, by simp, by simp⟩

theorem after_ok {β : Type} {L : Loader β} {o : GOut β} (h : OOk L o) : Clean (after o) := by
  unfold after
  split
  · exact ⟨by intro b hb; simp at hb, h.2.2⟩
  · exact h.2

end Verif.Prs
