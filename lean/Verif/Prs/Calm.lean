import Verif.Prs.Run

/-!
# The parser on bytes that are all there, whatever they are

It never waits, never makes the stream longer, and every message takes at least one byte.
-/

namespace Verif.Prs

open Verif.Matter (Mat)
open Verif.Idr (Ixr)
open Verif.Ctr (Ver Counter)
open Verif.B64

/-- On a stream with nothing more to come: does not wait, and leaves no more bytes than there were. -/
def Calm {α : Type} (m : P α) : Prop := ∀ s, s.fut = [] →
  match m s with
  | .wait => False
  | .ok _ s' => s'.fut = [] ∧ s'.buf.length ≤ s.buf.length
  | .err _ s' => s'.fut = [] ∧ s'.buf.length ≤ s.buf.length

theorem Calm.pure {α : Type} (a : α) : Calm (Pure.pure a : P α) := fun _ hs => ⟨hs, Nat.le_refl _⟩

theorem Calm.fail {α : Type} (e : Err) : Calm (fail e : P α) := fun _ hs => ⟨hs, Nat.le_refl _⟩

theorem Calm.bind {α β : Type} {m : P α} {f : α → P β} (h1 : Calm m) (h2 : ∀ a, Calm (f a)) : Calm (m >>= f) := by
  intro s hs
  have := h1 s hs
  cases hm : m s with
  | wait => rw [hm] at this; exact absurd this (by simp)
  | err e s' => rw [bind_err hm]; rw [hm] at this; exact this
  | ok a s' =>
    rw [hm] at this
    rw [bind_ok hm]
    have h3 := h2 a s' this.1
    cases hf : f a s' with
    | wait => rw [hf] at h3; exact absurd h3 (by simp)
    | ok b s2 => rw [hf] at h3; exact ⟨h3.1, Nat.le_trans h3.2 this.2⟩
    | err e s2 => rw [hf] at h3; exact ⟨h3.1, Nat.le_trans h3.2 this.2⟩

theorem Calm.ite {α : Type} {c : Prop} [Decidable c] {a b : P α} (h1 : Calm a) (h2 : Calm b) : Calm (if c then a else b) := by
  split
  · exact h1
  · exact h2

theorem Calm.lift {α : Type} (r : Except Err α) : Calm (lift r) := by
  intro s hs
  cases r with
  | ok a => exact ⟨hs, Nat.le_refl _⟩
  | error e => exact ⟨hs, Nat.le_refl _⟩

theorem calm_extractor {α : Type} (rd : Ver → Bytes → Got α) : Calm (extractor rd true) := by
  intro s hs
  unfold extractor
  rw [extractGo.eq_def]
  simp only
  cases hv : (rd s.ver s.buf).val with
  | ok a => simp only; exact ⟨hs, by simp⟩
  | error e =>
    simp only [Bool.true_eq_false, and_false, if_false]
    exact ⟨hs, by simp⟩

theorem calm_peek (cold : Cold) : Calm (peek cold true) := calm_extractor _

theorem calm_fill (n : Nat) : Calm (fill n true) := fun _ hs => ⟨hs, Nat.le_refl _⟩

theorem calm_fillStrict (n : Nat) : Calm (fillStrict n true) := by
  intro s hs
  simp only [fillStrict, if_true]
  by_cases h : n ≤ s.buf.length
  · simp only [if_pos h]; exact ⟨hs, Nat.le_refl _⟩
  · simp only [if_neg h]; exact ⟨hs, Nat.le_refl _⟩

theorem calm_takeBuf (n : Nat) : Calm (takeBuf n) := fun _ hs => ⟨hs, by simp⟩

theorem calm_del (n : Nat) : Calm (del n) := fun _ hs => ⟨hs, by simp⟩

theorem calm_delCtr (cold : Cold) (c : Counter) : Calm (delCtr cold c) := fun s hs => calm_del _ s hs

theorem calm_getVer : Calm getVer := fun _ hs => ⟨hs, Nat.le_refl _⟩

theorem calm_getBuf : Calm getBuf := fun _ hs => ⟨hs, Nat.le_refl _⟩

theorem calm_setVer (c : Counter) : Calm (setVer c) := by
  intro s hs
  simp only [setVer]
  cases Verif.Ctr.b64ToVer (Verif.B64.intToB64 c.count 3) with
  | error e => exact ⟨hs, Nat.le_refl _⟩
  | ok p =>
    cases h : Verif.Ctr.tables p.1 p.2 with
    | error e => simp only [h]; exact ⟨hs, Nat.le_refl _⟩
    | ok v => simp only [h]; exact ⟨hs, Nat.le_refl _⟩

theorem calm_sniffP : Calm sniffP := by
  intro s hs
  simp only [sniffP]
  cases h : sniff s.buf with
  | error e => exact ⟨hs, Nat.le_refl _⟩
  | ok c => exact ⟨hs, Nat.le_refl _⟩

theorem calm_onCopy {α : Type} {b : Bytes} {m : P α} (h : Calm m) : Calm (onCopy b m) := by
  intro s hs
  have := h ⟨b, [], s.ver⟩ rfl
  simp only [onCopy]
  cases hm : m ⟨b, [], s.ver⟩ with
  | wait => rw [hm] at this; exact this
  | ok a s' => exact ⟨hs, Nat.le_refl _⟩
  | err e s' => exact ⟨hs, Nat.le_refl _⟩

theorem calm_restoring {α : Type} {v : Ver} {m : P α} (h : Calm m) : Calm (restoring v m) := by
  intro s hs
  have := h s hs
  simp only [restoring]
  cases hm : m s with
  | wait => rw [hm] at this; exact this
  | ok a s' => rw [hm] at this; exact this
  | err e s' => rw [hm] at this; exact this

theorem calm_sizedWhen {α : Type} {c : Bool} {m : P α} (h : Calm m) : Calm (sizedWhen c m) := by
  intro s hs
  have := h s hs
  simp only [sizedWhen]
  cases hm : m s with
  | wait => rw [hm] at this; exact this
  | ok a s' => rw [hm] at this; exact this
  | err e s' =>
    rw [hm] at this
    by_cases he : (c && extraction e) = true
    · simp only [if_pos he]; exact this
    · simp only [if_neg he]; exact this

theorem calm_times {α : Type} {m : P α} (h : Calm m) : ∀ n, Calm (times m n)
  | 0 => Calm.pure _
  | n + 1 => Calm.bind h fun _ => Calm.bind (calm_times h n) fun _ => Calm.pure _

theorem calm_whileBuf {α : Type} {m : P α} (h : Calm m) : ∀ n, Calm (whileBuf m n)
  | 0 => by
    intro s hs
    simp only [whileBuf]
    by_cases hb : s.buf = []
    · simp only [if_pos hb]; exact ⟨hs, Nat.le_refl _⟩
    · simp only [if_neg hb]; exact ⟨hs, Nat.le_refl _⟩
  | n + 1 => by
    intro s hs
    simp only [whileBuf]
    by_cases hb : s.buf = []
    · simp only [if_pos hb]; exact ⟨hs, Nat.le_refl _⟩
    · simp only [if_neg hb]
      exact Calm.bind h (fun _ => Calm.bind (calm_whileBuf h n) fun _ => Calm.pure _) s hs

theorem calm_whole {α : Type} {b : Bytes} {m : P α} (h : Calm m) : Calm (whole b m) := calm_onCopy (calm_whileBuf h _)

/-! ## The parts of a message -/

theorem calm_sigsOf (v : Ver) (cold : Cold) (t : Tail) : Calm (sigsOf v cold true t) := by
  cases t with
  | none => exact Calm.pure _
  | one => exact Calm.bind (calm_extractor _) fun _ => Calm.pure _
  | group =>
    refine Calm.bind (calm_extractor _) fun c => ?_
    cases v with
    | v1 => exact Calm.ite (Calm.fail _) (calm_times (calm_extractor _) _)
    | v2 =>
      exact Calm.ite (Calm.fail _) (Calm.bind (calm_fillStrict _) fun _ => Calm.bind (calm_takeBuf _) fun _ => calm_whole (calm_extractor _))

theorem calm_primsOf (cold : Cold) : ∀ ks, Calm (primsOf cold true ks)
  | [] => Calm.pure _
  | _ :: ks => Calm.bind (calm_extractor _) fun _ => Calm.bind (calm_primsOf cold ks) fun _ => Calm.pure _

theorem calm_elemOf (v : Ver) (m : Meth) (cold : Cold) : Calm (elemOf v m cold true) :=
  Calm.bind (calm_primsOf cold _) fun _ => Calm.bind (calm_sigsOf v cold _) fun _ => Calm.pure _

theorem calm_elems (v : Ver) (m : Meth) (c : Counter) (cold : Cold) : Calm (elems v m c cold true) := by
  unfold elems
  split
  · exact calm_times (calm_elemOf v m cold) _
  · exact Calm.bind (calm_fillStrict _) fun _ => Calm.bind (calm_takeBuf _) fun _ => calm_whole (calm_elemOf v m cold)
  · exact Calm.bind (calm_fillStrict _) fun _ => Calm.bind (calm_takeBuf _) fun _ => Calm.pure _

theorem calm_attach (v : Ver) (c : Counter) (cold : Cold) : Calm (attach v c cold true) := by
  unfold attach
  split
  · exact Calm.fail _
  · exact Calm.bind (calm_elems v _ c cold) fun _ => Calm.pure _

theorem calm_bodyOf {β : Type} (L : Loader β) (c : Counter) (cold : Cold) : Calm (bodyOf L c cold true) := by
  refine Calm.bind calm_getVer fun v => ?_
  refine Calm.ite (Calm.bind (calm_delCtr _ _) fun _ => Calm.bind (calm_extractor _) fun _ => Calm.lift _) ?_
  refine Calm.ite (Calm.fail _) (Calm.ite ?_ (Calm.ite ?_ (Calm.ite (Calm.fail _) (Calm.fail _))))
  · exact Calm.bind (calm_fill _) fun _ => Calm.bind (calm_takeBuf _) fun _ => Calm.lift _
  · exact Calm.bind (calm_fill _) fun _ => Calm.bind (calm_del _) fun _ => Calm.fail _

theorem calm_loop {β : Type} {sub : P (Exts β)} (h : Calm sub) (enclosed : Bool) : ∀ n cold acc, Calm (loop sub true enclosed n cold acc)
  | 0, _, _ => Calm.fail _
  | n + 1, cold, acc => by
    have next : ∀ acc : Atts β, Calm (do
        let b ← getBuf
        if b = [] then pure acc
        else if enclosed then loop sub true enclosed n cold acc
        else do
          let cold ← sniffP
          if cold = .msg then pure acc else loop sub true enclosed n cold acc) := fun acc =>
      Calm.bind calm_getBuf fun b => Calm.ite (Calm.pure _) (Calm.ite (calm_loop h enclosed n cold acc)
        (Calm.bind calm_sniffP fun cold => Calm.ite (Calm.pure _) (calm_loop h enclosed n cold acc)))
    unfold loop
    refine Calm.bind (calm_peek _) fun c => Calm.bind calm_getVer fun v => ?_
    split
    · exact Calm.ite (Calm.fail _) (Calm.pure _)
    · exact Calm.bind (calm_fill _) fun _ => Calm.bind (calm_del _) fun _ => next _
    · exact Calm.ite (Calm.pure _) (Calm.bind h fun _ => next _)
    · exact Calm.bind (calm_delCtr _ _) fun _ => Calm.bind (calm_attach _ _ _) fun _ => next _

theorem calm_loopAll {β : Type} {sub : P (Exts β)} (h : Calm sub) (enclosed : Bool) (cold : Cold) : Calm (loopAll sub true enclosed cold) :=
  fun s hs => calm_loop h enclosed _ cold _ s hs

theorem calm_inAttGroup {β : Type} {sub : P (Exts β)} (h : Calm sub) (cold : Cold) : Calm (inAttGroup sub true cold) := by
  refine Calm.bind (calm_peek _) fun c => Calm.ite ?_ (calm_loopAll h _ _)
  exact Calm.bind (calm_delCtr _ _) fun _ => Calm.bind calm_getVer fun v => calm_restoring (Calm.bind (calm_setVer _) fun _ => calm_loopAll h _ _)

theorem calm_attsOf {β : Type} {sub : P (Exts β)} (h : Calm sub) (enclosed : Bool) : Calm (attsOf sub true enclosed) := by
  refine calm_sizedWhen (Calm.bind (calm_fill _) fun _ => Calm.bind calm_sniffP fun cold => Calm.ite (Calm.pure _) ?_)
  refine Calm.bind (calm_peek _) fun c => Calm.bind calm_getVer fun v => Calm.ite ?_ (calm_loopAll h _ _)
  exact Calm.bind (calm_delCtr _ _) fun _ => Calm.bind (calm_fill _) fun _ => Calm.bind (calm_takeBuf _) fun _ =>
    calm_onCopy (calm_sizedWhen (calm_inAttGroup h _))

theorem calm_groupBody {β : Type} (L : Loader β) (cold : Cold) : Calm (groupBody L cold) := by
  refine calm_sizedWhen (Calm.bind (calm_peek _) fun c => Calm.ite ?_ (Calm.bind (calm_bodyOf L _ _) fun _ => Calm.pure _))
  exact Calm.bind (calm_delCtr _ _) fun _ => Calm.bind calm_getVer fun v => Calm.bind (calm_setVer _) fun _ => Calm.bind (calm_peek _) fun _ =>
    Calm.bind (calm_bodyOf L _ _) fun _ => Calm.pure _

theorem calm_inBodyWith {β : Type} (L : Loader β) {sub : P (Exts β)} (h : Calm sub) (cold : Cold) : Calm (inBodyWith L sub cold) := by
  refine Calm.bind (calm_groupBody L cold) fun p => ?_
  obtain ⟨b, v⟩ := p
  cases v with
  | some v => exact Calm.bind (calm_restoring (calm_attsOf h _)) fun _ => Calm.pure _
  | none => exact Calm.bind (calm_attsOf h _) fun _ => Calm.pure _

theorem calm_frontVersion : Calm (frontVersion true) := by
  refine Calm.bind calm_sniffP fun cold => Calm.ite (Calm.pure _) (Calm.bind (calm_peek _) fun c => Calm.ite ?_ (Calm.pure _))
  exact Calm.bind (calm_delCtr _ _) fun _ => calm_setVer _

theorem calm_msg {β : Type} (L : Loader β) : ∀ d, Calm (msg L d true)
  | 0 => Calm.fail _
  | d + 1 => by
    unfold msg
    refine Calm.bind (calm_fill _) fun _ => Calm.bind calm_frontVersion fun _ => Calm.bind calm_sniffP fun cold => Calm.ite ?_ ?_
    · exact Calm.bind (calm_extractor _) fun _ => Calm.bind (calm_attsOf (calm_msg L d) _) fun _ => Calm.pure _
    · refine Calm.bind (calm_peek _) fun c => Calm.bind calm_getVer fun v => Calm.ite ?_ ?_
      · exact Calm.bind (calm_delCtr _ _) fun _ => Calm.bind (calm_fill _) fun _ => Calm.bind (calm_takeBuf _) fun _ =>
          calm_onCopy (calm_inBodyWith L (calm_msg L d) _)
      · exact Calm.bind (calm_bodyOf L _ _) fun _ => Calm.bind (calm_attsOf (calm_msg L d) _) fun _ => Calm.pure _

/-! ## Every message takes something -/

/-- What is assumed of the deserialization of bodies: nothing is made of no bytes, and its errors are not that of a generic group in the wrong
place (parsing.py:1131-1133). -/
def Loader.Sane {β : Type} (L : Loader β) : Prop := (∀ m x, L.load m [] ≠ .ok x) ∧ ∀ m b, L.load m b ≠ .error .topLevelStream

/-- If it goes on, then there are fewer bytes than before. -/
def Less {α : Type} (n : Nat) : Res α → Prop
  | .ok _ s => s.buf.length < n
  | .err .topLevelStream s => s.buf.length < n
  | _ => True

theorem Calm.less {α : Type} {m : P α} (h : Calm m) {s : St} {n : Nat} (hs : s.fut = []) (hn : s.buf.length < n) : Less n (m s) := by
  have := h s hs
  cases hm : m s with
  | wait => trivial
  | ok a s' => rw [hm] at this; exact Nat.lt_of_le_of_lt this.2 hn
  | err e s' =>
    rw [hm] at this
    have h2 := Nat.lt_of_le_of_lt this.2 hn
    cases e <;> first | exact h2 | trivial

theorem b64ToIntLoop_top : ∀ (l : List Char) (e i : Nat), b64ToIntLoop l e i ≠ .error .topLevelStream
  | [], _, _ => by simp [b64ToIntLoop]
  | c :: cs, e, i => by
    unfold b64ToIntLoop
    split
    · simp
    · exact b64ToIntLoop_top cs _ _

theorem b64ToInt_top (l : List Char) : b64ToInt l ≠ .error .topLevelStream := by
  unfold b64ToInt
  split
  · simp
  · exact b64ToIntLoop_top _ _ _

theorem toBytes_top (i n : Nat) : toBytes i n ≠ .error .topLevelStream := by
  unfold toBytes
  split <;> simp

theorem exfil_facts (v : Ver) (t : List Char) :
    Verif.Ctr.exfil v t ≠ .error .topLevelStream ∧ ∀ c, Verif.Ctr.exfil v t = .ok c → 2 ≤ t.length ∧ (Verif.Ctr.sizes? v c.code).isSome = true := by
  unfold Verif.Ctr.exfil
  split
  · simp
  · rename_i h0
    split
    · split <;> simp
    · split
      · simp
      · split
        · simp
        · rename_i sz hsz
          split
          · simp
          · split
            · rename_i e he
              exact ⟨fun h => b64ToInt_top _ (he.trans (by injection h with h; rw [h])), by simp⟩
            · refine ⟨by simp, fun c h => ⟨by omega, ?_⟩⟩
              injection h with h
              rw [← h, hsz]
              rfl

theorem bexfil_facts (v : Ver) (t : List Nat) :
    Verif.Ctr.bexfil v t ≠ .error .topLevelStream ∧ ∀ c, Verif.Ctr.bexfil v t = .ok c → 2 ≤ t.length ∧ (Verif.Ctr.sizes? v c.code).isSome = true := by
  have n1 : nabSextets t 2 ≠ .error .topLevelStream := by
    unfold nabSextets
    simp only
    split
    · simp
    · exact toBytes_top _ _
  have n2 : ∀ l, codeB2ToB64 t l ≠ .error .topLevelStream := by
    intro l
    unfold codeB2ToB64
    simp only
    split <;> simp
  unfold Verif.Ctr.bexfil
  split
  · simp
  · rename_i h0
    split
    · rename_i e he
      exact ⟨fun h => n1 (he.trans (by injection h with h; rw [h])), by simp⟩
    · split
      · simp
      · split
        · simp
        · split
          · rename_i e he
            exact ⟨fun h => n2 _ (he.trans (by injection h with h; rw [h])), by simp⟩
          · split
            · simp
            · rename_i sz hsz
              split
              · simp
              · split
                · rename_i e he
                  exact ⟨fun h => n2 _ (he.trans (by injection h with h; rw [h])), by simp⟩
                · split
                  · rename_i e he
                    exact ⟨fun h => b64ToInt_top _ (he.trans (by injection h with h; rw [h])), by simp⟩
                  · refine ⟨by simp, fun c h => ⟨by omega, ?_⟩⟩
                    injection h with h
                    rw [← h, hsz]
                    rfl

theorem sizes_pos (v : Ver) : ∀ e ∈ Verif.Ctr.sizes v, 4 ≤ e.2.fs := by cases v <;> decide +kernel

theorem peekCtr_facts (v : Ver) (cold : Cold) (b : Bytes) : (peekCtr v cold b).val ≠ .error .topLevelStream ∧
    ∀ c, (peekCtr v cold b).val = .ok c → b ≠ [] ∧ 0 < ctrSize v cold c := by
  have size : ∀ c : Counter, (Verif.Ctr.sizes? v c.code).isSome = true → 0 < ctrSize v cold c := by
    intro c h
    obtain ⟨sz, hsz⟩ := Option.isSome_iff_exists.1 h
    have := sizes_pos v _ (lookup_mem hsz)
    simp only at this
    unfold ctrSize Verif.Ctr.fullSize
    rw [hsz]
    simp only
    split <;> omega
  unfold peekCtr
  cases cold with
  | txt =>
    obtain ⟨h1, h2⟩ := exfil_facts v (chars b)
    simp only [ctrText]
    refine ⟨?_, ?_⟩
    · split
      · split <;> simp
      · exact h1
    · intro c h
      split at h
      · split at h <;> exact absurd h (by simp)
      · obtain ⟨g1, g2⟩ := h2 c h
        refine ⟨?_, size c g2⟩
        rintro rfl
        simp [chars] at g1
  | bny =>
    obtain ⟨h1, h2⟩ := bexfil_facts v b
    refine ⟨h1, fun c h => ?_⟩
    obtain ⟨g1, g2⟩ := h2 c h
    refine ⟨?_, size c g2⟩
    rintro rfl
    simp at g1
  | msg => exact ⟨by simp, by simp⟩
  | ano => exact ⟨by simp, by simp⟩

/-- A peek at bytes that are all there. -/
theorem peek_cases {cold : Cold} {s : St} (hs : s.fut = []) : (∃ c, peek cold true s = .ok c s ∧ s.buf ≠ [] ∧ 0 < ctrSize s.ver cold c) ∨
    ∃ e, peek cold true s = .err e s ∧ e ≠ .topLevelStream := by
  obtain ⟨h1, h2⟩ := peekCtr_facts s.ver cold s.buf
  have hu : (peekCtr s.ver cold s.buf).used = 0 := by
    unfold peekCtr
    split <;> rfl
  obtain ⟨b, f, v⟩ := s
  simp only at hs h1 h2 hu
  subst hs
  unfold peek extractor
  rw [extractGo.eq_def]
  simp only
  cases hv : (peekCtr v cold b).val with
  | ok c =>
    left
    simp only [hu, List.drop_zero]
    exact ⟨c, rfl, h2 c hv⟩
  | error e =>
    right
    simp only [Bool.true_eq_false, and_false, if_false, hu, List.drop_zero]
    exact ⟨e, rfl, fun h => h1 (by rw [hv, h])⟩

theorem intHex_top (t : Bytes) : Verif.Db.intHex t ≠ .error .topLevelStream := by
  unfold Verif.Db.intHex
  split
  · simp
  · split <;> simp

theorem rematch2_top (b : Bytes) : rematch2 b ≠ .error .topLevelStream := by
  unfold rematch2
  intro h
  repeat' split at h
  all_goals first
    | exact Except.noConfusion h
    | (cases h; done)
    | (rename_i he; exact b64ToInt_top _ (he.trans (by injection h with h; rw [h])))
    | (rename_i he _; exact b64ToInt_top _ (he.trans (by injection h with h; rw [h])))
    | (rename_i he _ _; exact b64ToInt_top _ (he.trans (by injection h with h; rw [h])))

theorem rematch1_top (b : Bytes) : rematch1 b ≠ .error .topLevelStream := by
  unfold rematch1
  intro h
  repeat' split at h
  all_goals first
    | exact Except.noConfusion h
    | (cases h; done)
    | (rename_i he; exact intHex_top _ (he.trans (by injection h with h; rw [h])))
    | (rename_i he _; exact intHex_top _ (he.trans (by injection h with h; rw [h])))
    | (rename_i he _ _; exact intHex_top _ (he.trans (by injection h with h; rw [h])))

theorem search_top : ∀ (n : Nat) (b : Bytes), search n b ≠ .error .topLevelStream
  | 0, _ => by simp [search]
  | n + 1, b => by
    unfold search versionAt
    split
    · rename_i r h
      split at h
      · injection h with h; rw [← h]; exact rematch2_top b
      · split at h
        · injection h with h; rw [← h]; exact rematch1_top b
        · exact absurd h (by simp)
    · exact search_top n _

theorem smell_top (b : Bytes) : smell b ≠ .error .topLevelStream := by
  unfold smell
  split
  · simp
  · exact search_top _ _

theorem reap_facts {β : Type} {L : Loader β} (hL : L.Sane) (v : Ver) (b : Bytes) : (reap L v b).val ≠ .error .topLevelStream ∧
    ∀ x, (reap L v b).val = .ok x → b ≠ [] ∧ 0 < (reap L v b).used := by
  unfold reap
  split
  · rename_i e he
    exact ⟨fun h => smell_top b (he.trans (by injection h with h; rw [h])), by simp⟩
  · rename_i m hm
    split
    · rename_i e he
      refine ⟨?_, by simp⟩
      intro h
      simp only at h
      injection h with h
      rw [h] at he
      unfold compatible at he
      repeat' split at he
      all_goals exact absurd he (by simp)
    · split
      · simp
      · refine ⟨hL.2 _ _, fun x h => ?_⟩
        simp only at h ⊢
        refine ⟨?_, ?_⟩
        · rintro rfl
          rw [List.take_nil] at h
          exact hL.1 _ _ h
        · rcases Nat.eq_zero_or_pos m.size with h0 | h0
          · rw [h0, List.take_zero] at h
            exact absurd h (hL.1 _ _)
          · exact h0

theorem extractor_reap_less {β : Type} {L : Loader β} (hL : L.Sane) {s : St} (hs : s.fut = []) :
    (∃ x s', extractor (reap L) true s = .ok x s' ∧ s'.fut = [] ∧ s'.buf.length < s.buf.length) ∨
      ∃ e s', extractor (reap L) true s = .err e s' ∧ e ≠ .topLevelStream := by
  obtain ⟨h1, h2⟩ := reap_facts hL s.ver s.buf
  unfold extractor
  rw [extractGo.eq_def]
  simp only
  cases hv : (reap L s.ver s.buf).val with
  | ok x =>
    left
    obtain ⟨g1, g2⟩ := h2 x hv
    have := List.length_pos_iff.2 g1
    exact ⟨x, _, rfl, hs, by simp only [List.length_drop]; omega⟩
  | error e =>
    right
    simp only [Bool.true_eq_false, and_false, if_false]
    exact ⟨e, _, rfl, fun h => h1 (by rw [hv, h])⟩

theorem less_err {α : Type} {n : Nat} {e : Err} {s : St} (h : e ≠ .topLevelStream) : Less (α := α) n (.err e s) := by
  cases e <;> first | trivial | exact absurd rfl h

theorem less_bind {α β : Type} {m : P α} {f : α → P β} {s : St} {n : Nat} {a : α} (hm : m s = .ok a s) (h : Less n (f a s)) : Less n ((m >>= f) s) := by
  rw [bind_ok hm]
  exact h

theorem P.assoc {α β γ : Type} (m : P α) (f : α → P β) (g : β → P γ) : (m >>= f) >>= g = m >>= fun a => f a >>= g := by
  funext s
  cases h : m s with
  | ok a s' => rw [bind_ok h]; cases h2 : f a s' with
    | ok b s2 => rw [bind_ok (show (m >>= f) s = .ok b s2 by rw [bind_ok h, h2]), bind_ok h2]
    | err e s2 => rw [bind_err (show (m >>= f) s = .err e s2 by rw [bind_ok h, h2]), bind_err h2]
    | wait => rw [bind_wait (show (m >>= f) s = .wait by rw [bind_ok h, h2]), bind_wait h2]
  | err e s' => rw [bind_err h, bind_err (bind_err h)]
  | wait => rw [bind_wait h, bind_wait (bind_wait h)]

/-- After the version at the front. -/
theorem rest_less {β : Type} {L : Loader β} (hL : L.Sane) {d : Nat} {s : St} {n : Nat} (hs : s.fut = []) (hn : s.buf.length ≤ n)
    (hg : s.buf.length < n ∨ ∀ cold c, sniff s.buf = .ok cold → peek cold true s = .ok c s → isGeneric s.ver c.code = false) :
    Less n ((do
      let cold ← sniffP
      if cold = .msg then do
        let b ← extractor (reap L) true
        let a ← attsOf (msg L d true) true false
        pure (.mk b a.atts a.nests)
      else do
        let c ← peek cold true
        let v ← getVer
        if isBodyWith v c.code then do
          delCtr cold c
          fill (ctrCount cold c) true
          let b ← takeBuf (ctrCount cold c)
          onCopy b (inBodyWith L (msg L d true) cold)
        else do
          let b ← bodyOf L c cold true
          let a ← attsOf (msg L d true) true false
          pure (.mk b a.atts a.nests) : P (Exts β)) s) := by
  cases hc : sniff s.buf with
  | error e =>
    have : sniffP s = .err e s := by simp only [sniffP, hc]
    rw [bind_err this]
    refine less_err ?_
    rintro rfl
    cases hb : s.buf with
    | nil => rw [hb] at hc; exact absurd hc (by simp [sniff])
    | cons x b =>
      rw [hb] at hc
      simp only [sniff] at hc
      repeat' split at hc
      all_goals exact absurd hc (by simp)
  | ok cold =>
    have h1 : sniffP s = .ok cold s := by simp only [sniffP, hc]
    refine less_bind h1 ?_
    by_cases hm : cold = .msg
    · rw [if_pos hm]
      rcases extractor_reap_less hL hs with ⟨x, s', e1, e2, e3⟩ | ⟨e, s', e1, e2⟩
      · rw [bind_ok e1]
        exact (Calm.bind (calm_attsOf (calm_msg L d) _) fun _ => Calm.pure _).less e2 (by omega)
      · rw [bind_err e1]
        exact less_err e2
    · rw [if_neg hm]
      rcases peek_cases (cold := cold) hs with ⟨c, e1, e2, e3⟩ | ⟨e, e1, e2⟩
      · refine less_bind e1 (less_bind (show getVer s = .ok s.ver s from rfl) ?_)
        have hlen := List.length_pos_iff.2 e2
        have hdel : ∀ k, 0 < k → (s.buf.drop k).length < n := by intro k hk; rw [List.length_drop]; omega
        by_cases hw : isBodyWith s.ver c.code = true
        · rw [if_pos hw]
          rw [bind_ok (show delCtr cold c s = .ok () { s with buf := s.buf.drop (ctrSize s.ver cold c) } from rfl)]
          exact (Calm.bind (calm_fill _) fun _ => Calm.bind (calm_takeBuf _) fun _ => calm_onCopy (calm_inBodyWith L (calm_msg L d) _)).less
            (s := { s with buf := s.buf.drop (ctrSize s.ver cold c) }) hs (hdel _ e3)
        · rw [if_neg hw]
          have cont : ∀ b : β, Calm (do
              let a ← attsOf (msg L d true) true false
              pure (.mk b a.atts a.nests) : P (Exts β)) := fun b => Calm.bind (calm_attsOf (calm_msg L d) _) fun _ => Calm.pure _
          unfold bodyOf
          rw [P.assoc]
          refine less_bind (show getVer s = .ok s.ver s from rfl) ?_
          by_cases k1 : isNonNative s.ver c.code = true
          · rw [if_pos k1, P.assoc]
            rw [bind_ok (show delCtr cold c s = .ok () { s with buf := s.buf.drop (ctrSize s.ver cold c) } from rfl)]
            exact (Calm.bind (Calm.bind (calm_extractor _) fun _ => Calm.lift _) cont).less
              (s := { s with buf := s.buf.drop (ctrSize s.ver cold c) }) hs (hdel _ e3)
          rw [if_neg k1]
          by_cases k2 : s.ver = .v1
          · rw [if_pos k2]
            exact less_err (by simp)
          rw [if_neg k2]
          by_cases k3 : letter c.code 'F' = true
          · rw [if_pos k3, P.assoc]
            refine less_bind (show fill _ true s = .ok () s from rfl) ?_
            rw [P.assoc, bind_ok (show takeBuf _ s = .ok _ { s with buf := s.buf.drop _ } from rfl)]
            exact (Calm.bind (Calm.lift _) cont).less (s := { s with buf := s.buf.drop _ }) hs (hdel _ (by omega))
          rw [if_neg k3]
          by_cases k4 : letter c.code 'G' = true
          · rw [if_pos k4, P.assoc]
            refine less_bind (show fill _ true s = .ok () s from rfl) ?_
            rw [P.assoc, bind_ok (show del _ s = .ok () { s with buf := s.buf.drop _ } from rfl)]
            exact less_err (by simp)
          rw [if_neg k4]
          by_cases k5 : isGeneric s.ver c.code = true
          · rcases hg with hg | hg
            · rw [if_pos k5]
              exact hg
            · rw [hg cold c hc e1] at k5
              exact absurd k5 (by simp)
          · rw [if_neg k5]
            exact less_err (by simp)
      · rw [bind_err e1]
        exact less_err e2

/-- If `groupParsator` goes on after a message, then there are fewer bytes than before. -/
theorem msg_less {β : Type} {L : Loader β} (hL : L.Sane) {d : Nat} {s : St} (hs : s.fut = [])
    (hg : ∀ cold c, sniff s.buf = .ok cold → peek cold true s = .ok c s → isGeneric s.ver c.code = false) : Less s.buf.length (msg L d true s) := by
  cases d with
  | zero => trivial
  | succ d =>
    unfold msg
    refine less_bind (show fill 1 true s = .ok () s from rfl) ?_
    unfold frontVersion
    rw [P.assoc]
    cases hc : sniff s.buf with
    | error e =>
      have := rest_less hL (d := d) hs (Nat.le_refl _) (Or.inr hg)
      have h1 : sniffP s = .err e s := by simp only [sniffP, hc]
      rw [bind_err h1] at this ⊢
      exact this
    | ok cold =>
      have h1 : sniffP s = .ok cold s := by simp only [sniffP, hc]
      refine less_bind h1 ?_
      by_cases hm : cold = .msg
      · rw [if_pos hm]
        refine less_bind (show (pure () : P Unit) s = .ok () s from rfl) ?_
        exact rest_less hL hs (Nat.le_refl _) (Or.inr hg)
      · rw [if_neg hm, P.assoc]
        rcases peek_cases (cold := cold) hs with ⟨c, e1, e2, e3⟩ | ⟨e, e1, e2⟩
        · refine less_bind e1 ?_
          have hlen := List.length_pos_iff.2 e2
          by_cases hgv : c.code = gvcCode
          · rw [if_pos hgv, P.assoc]
            rw [bind_ok (show delCtr cold c s = .ok () { s with buf := s.buf.drop (ctrSize s.ver cold c) } from rfl)]
            have hl : (s.buf.drop (ctrSize s.ver cold c)).length < s.buf.length := by rw [List.length_drop]; omega
            have hv := calm_setVer c { s with buf := s.buf.drop (ctrSize s.ver cold c) } hs
            cases hset : setVer c { s with buf := s.buf.drop (ctrSize s.ver cold c) } with
            | wait => rw [hset] at hv; exact absurd hv (by simp)
            | err e s' =>
              rw [bind_err hset]
              rw [hset] at hv
              have := Nat.lt_of_le_of_lt hv.2 hl
              cases e <;> first | exact this | trivial
            | ok a s' =>
              rw [bind_ok hset]
              rw [hset] at hv
              have := Nat.lt_of_le_of_lt hv.2 hl
              exact rest_less hL hv.1 (Nat.le_of_lt this) (Or.inl this)
          · rw [if_neg hgv]
            refine less_bind (show (pure () : P Unit) s = .ok () s from rfl) ?_
            exact rest_less hL hs (Nat.le_refl _) (Or.inr hg)
        · rw [bind_err e1]
          exact less_err e2

end Verif.Prs
