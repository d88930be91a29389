import Verif.Bsr.Lemmas

/-! # Every step keeps the store in order -/

namespace Verif.Bsr

open Verif.Kel (Id Dig Node Seal)

theorem obj_processEvent (nd : Node) (s : Store) (o : Obj) (e : REvt) :
    (processEvent nd s o e).obj.hab = o.hab ∧
    ((processEvent nd s o e).obj.regk = o.regk ∨ ((processEvent nd s o e).obj.regk = some e.regk ∧ ∃ r, validate s o e = some r)) := by
  unfold processEvent
  cases hv : validate s o e with
  | none => exact ⟨rfl, .inl rfl⟩
  | some r =>
    obtain ⟨x, prior⟩ := r
    cases x with
    | some x => exact ⟨rfl, .inr ⟨rfl, _, rfl⟩⟩
    | none =>
      dsimp only
      have hb : (bind1 o e).hab = o.hab ∧ ((bind1 o e).regk = o.regk ∨ (bind1 o e).regk = some e.regk) := by
        unfold bind1; split
        · exact ⟨rfl, .inr rfl⟩
        · exact ⟨rfl, .inl rfl⟩
      split
      · exact ⟨hb.1, hb.2.imp id fun h => ⟨h, _, rfl⟩⟩
      · unfold advance
        split
        · exact ⟨hb.1, .inr ⟨rfl, _, rfl⟩⟩
        · exact ⟨hb.1, hb.2.imp id fun h => ⟨h, _, rfl⟩⟩

theorem ws_invalid {nd : Node} {s : Store} {o : Obj} {e : REvt} (h : validate s o e = none) : (processEvent nd s o e).ws = [] := by
  unfold processEvent; rw [h]

theorem validate_regk {s : Store} {o : Obj} {e : REvt} {k : Dig} (h : o.regk = some k) (hne : e.regk ≠ k) : validate s o e = none := by
  cases hv : validate s o e with
  | none => rfl
  | some r => obtain ⟨x, p⟩ := r; exact absurd ((validate_some hv).2.2.1 k h).symm hne

theorem missOne_obj (nd : Node) (s : Store) (o : Obj) (k : Dig) (hk : o.regk = some k) (x : Nat × Dig) :
    (missOne nd s o k x).2.hab = o.hab ∧ (missOne nd s o k x).2.regk = some k := by
  unfold missOne
  split
  · exact ⟨rfl, hk⟩
  · rename_i e he
    split
    · exact ⟨rfl, hk⟩
    · split
      · exact ⟨rfl, hk⟩
      · have h := obj_processEvent nd s o e
        refine ⟨h.1, ?_⟩
        rcases h.2 with h2 | ⟨h2, r, hr⟩
        · rw [h2, hk]
        · obtain ⟨a, b⟩ := r
          rw [h2, ← (validate_some hr).2.2.1 k hk]

/-- Inceptions of another issuer. -/
def NotBy (hab : Id) (k : Dig) (e : REvt) : Prop := e.regk = k ∧ e.iss ≠ hab

theorem validate_none {s : Store} {o : Obj} {e : REvt} {k : Dig} {n : Nat} (hs : Slot e k n) (hk : o.regk = some k) (hx : s.seqEvent k n = none)
    (h : validate s o e = none) : (∃ p, s.before k n = some p ∧ p.said ≠ e.prior) ∨ (e.ilk = .rip ∧ e.iss ≠ o.hab) := by
  obtain ⟨rfl, rfl, hkind⟩ := hs
  unfold validate at h
  split at h
  · rename_i h1; rcases hkind with ⟨h2, _⟩ | ⟨h2, _⟩ <;> rw [h2] at h1 <;> cases h1
  split at h
  · rename_i h1; rcases hkind with ⟨_, h2⟩ | ⟨h2, _⟩
    · exact absurd h2 h1.2
    · rw [h2] at h1; exact absurd h1.1 (by decide)
  split at h
  · rename_i h1; exact .inr h1
  split at h
  · rename_i h1; rcases hkind with ⟨h2, _⟩ | ⟨_, h2⟩
    · exact absurd h2 h1.1
    · omega
  split at h
  · rename_i h1; rw [hk] at h1; simp at h1
  split at h
  · rename_i h1; rw [hx] at h1; simp at h1
  split at h
  · cases h
  split at h
  · rename_i h1
    cases hb : s.before e.regk e.n with
    | none => rw [hb] at h1; simp at h1
    | some p => rw [hb] at h1; exact .inl ⟨p, rfl, by simpa using h1⟩
  · cases h

theorem out_none {nd : Node} {s : Store} {o : Obj} {e : REvt} (h : (processEvent nd s o e).out = none) : validate s o e = none := by
  unfold processEvent at h
  cases hv : validate s o e with
  | none => rfl
  | some r =>
    rw [hv] at h
    obtain ⟨x, prior⟩ := r
    cases x with
    | some x => cases h
    | none =>
      dsimp only at h
      split at h
      · cases h
      · unfold advance at h
        split at h <;> cases h

theorem blk_drop1 {V : REvt → Prop} {J : REvt → Nat × Dig → Prop} {R : REvt → Prop} {s : Store} {k : Dig} {n : Nat} {d : Dig} (h : Reason R s k n d) :
    Blocks V J R s (clear k n d) := by
  have := Blocks.drop (V := V) (J := J) h (.nil _)
  rw [List.append_nil] at this; exact this

theorem missOne_blk {V : REvt → Prop} (hnc : NoColl V) (nd : Node) {s : Store} (hi : SInv V s) (o : Obj) (k : Dig) (hk : o.regk = some k) (x : Nat × Dig)
    (hx : ∃ e, s.evts x.2 = some e ∧ Slot e k x.1) : Blocks V (Anch nd o.hab k) (NotBy o.hab k) s (missOne nd s o k x).1 := by
  unfold missOne
  split
  · rename_i he; exact blk_drop1 (.inl he)
  · rename_i e he
    obtain ⟨e', he', hs⟩ := hx
    rw [he] at he'; cases he'
    split
    · rename_i h; exact blk_drop1 (.inr (.inl h))
    · rename_i hseq
      split
      · rename_i ho
        have hnone : s.seqEvent k x.1 = none := by cases h : s.seqEvent k x.1 <;> simp_all
        rcases validate_none hs hk hnone (out_none ho) with ⟨p, h1, h2⟩ | ⟨h1, h2⟩
        · exact blk_drop1 (.inr (.inr (.inl ⟨e, p, he, h1, h2⟩)))
        · exact blk_drop1 (.inr (.inr (.inr ⟨e, he, h1, hs.regk, h2⟩)))
      · have := blk_processEvent hnc (R := NotBy o.hab k) nd hi o (hi.evt _ _ he).2
        rw [hs.regk] at this; exact this

theorem missAll_blk {V : REvt → Prop} (hnc : NoColl V) (nd : Node) (k : Dig) (l : List (Nat × Dig)) {s : Store} (hi : SInv V s) (o : Obj)
    (hk : o.regk = some k) (hl : ∀ x ∈ l, ∃ e, s.evts x.2 = some e ∧ Slot e k x.1) :
    Blocks V (Anch nd o.hab k) (NotBy o.hab k) s (missAll nd k l s o).1 ∧ (missAll nd k l s o).2.hab = o.hab ∧ (missAll nd k l s o).2.regk = some k := by
  induction l generalizing s o with
  | nil => exact ⟨.nil _, rfl, hk⟩
  | cons x l ih =>
    have h1 := missOne_blk hnc nd hi o k hk x (hl x List.mem_cons_self)
    have h2 := missOne_obj nd s o k hk x
    have hx := blk_inv hnc hi h1
    have h3 := ih hx.1 _ h2.2 (fun y hy => let ⟨e, a, b⟩ := hl y (List.mem_cons_of_mem _ hy); ⟨e, hx.2.evts _ _ a, b⟩)
    rw [h2.1] at h3
    exact ⟨blk_append h1 h3.1, h3.2⟩

theorem escrows_blk {V : REvt → Prop} (hnc : NoColl V) (nd : Node) {s : Store} (hi : SInv V s) (o : Obj) :
    Blocks V (fun e c => ∃ k, o.regk = some k ∧ Anch nd o.hab k e c) (fun e => ∃ k, o.regk = some k ∧ NotBy o.hab k e) s (escrows nd s o).1 ∧
      (escrows nd s o).2.hab = o.hab ∧ (escrows nd s o).2.regk = o.regk := by
  unfold escrows
  cases hk : o.regk with
  | none => exact ⟨.nil _, rfl, hk⟩
  | some k =>
    have h := missAll_blk hnc nd k (s.maes k) hi o hk (fun x hx => hi.mae k x.1 x.2 hx)
    have hi1 := (blk_inv hnc hi h.1).1
    refine ⟨blk_append (blk_mono (fun e c hc => ⟨k, rfl, hc⟩) (fun e he => ⟨k, rfl, he⟩) h.1) (blk_drain hnc _ hi1 k), ?_⟩
    unfold regdOf
    dsimp only
    split <;> exact h.2

theorem anchorMsg_blk {V : REvt → Prop} (hnc : NoColl V) {R : REvt → Prop} (nd : Node) {s : Store} (hi : SInv V s) (o : Obj) (d : Dig) (num : Option Nat)
    (dig : Option Dig) :
    Blocks V (fun x c => ∃ e r, s.evts d = some e ∧ validate s o e = some r ∧ Anch nd o.hab e.regk x c) R s (anchorMsg nd s o d num dig).ws ∧
      (anchorMsg nd s o d num dig).obj.hab = o.hab ∧ ((anchorMsg nd s o d num dig).obj.regk = o.regk ∨
        ∃ e r, s.evts d = some e ∧ validate s o e = some r ∧ (anchorMsg nd s o d num dig).obj.regk = some e.regk) := by
  unfold anchorMsg
  split
  · exact ⟨.nil _, rfl, .inl rfl⟩
  · rename_i e he
    split
    · exact ⟨.nil _, rfl, .inl rfl⟩
    · split
      · exact ⟨.nil _, rfl, .inl rfl⟩
      · rename_i r hr
        split
        · exact ⟨.nil _, rfl, .inl rfl⟩
        · split
          · exact ⟨.nil _, rfl, .inl rfl⟩
          · rename_i c hc
            split
            · rename_i hv
              have hw : Wr.ok V (fun x c => ∃ e r, s.evts d = some e ∧ validate s o e = some r ∧ Anch nd o.hab e.regk x c) s (.anc d c) :=
                ⟨e, he, e, r, he, hr, rfl, hv⟩
              have hi1 := inv_apply hnc hi hw
              have hob := obj_processEvent nd (s.apply (.anc d c)) o e
              exact ⟨.plain trivial hw (blk_mono (fun x c' h => ⟨e, r, he, hr, h⟩) (fun _ h => h) (blk_processEvent hnc nd hi1 o (hi.evt _ _ he).2)), hob.1,
                hob.2.imp id fun h => ⟨e, r, he, hr, h.1⟩⟩
            · exact ⟨.nil _, rfl, .inl rfl⟩

/-- Objects act for registries that are theirs, in the sense of `P`. -/
def OInv (P : Id → Dig → Prop) (os : List Obj) : Prop := ∀ o ∈ os, ∀ k, o.regk = some k → P o.hab k

/-- What a call must be like for this to stay so. -/
structure Lic (V : REvt → Prop) (P : Id → Dig → Prop) (w : World) (c : Call) : Prop where
  within : ∀ e, Hands w c e → V e
  rip : ∀ e, V e → e.ilk = .rip → P e.iss e.said
  attach : ∀ hab k, c = .attach hab (some k) → P hab k
  event : ∀ h e o, c = .event h e → w.objs[h]? = some o → o.regk = none → e.ilk ≠ .rip → P o.hab e.regk
  anchor : ∀ h d num dig o e, c = .anchor h d num dig → w.objs[h]? = some o → o.regk = none → w.s.evts d = some e → e.ilk ≠ .rip → P o.hab e.regk

/-- A validated event is of a registry of the object. -/
theorem theirs {V : REvt → Prop} {P : Id → Dig → Prop} (hrip : ∀ e, V e → e.ilk = .rip → P e.iss e.said) {s : Store} {o : Obj} {e : REvt} (he : V e)
    {r : Option REvt × Option REvt} (hv : validate s o e = some r) (hO : ∀ k, o.regk = some k → P o.hab k)
    (hun : o.regk = none → e.ilk ≠ .rip → P o.hab e.regk) : P o.hab e.regk := by
  obtain ⟨x, p⟩ := r
  have h := validate_some hv
  cases hk : o.regk with
  | some k => rw [← h.2.2.1 k hk]; exact hO k hk
  | none =>
    by_cases hr : e.ilk = .rip
    · have := hrip e he hr
      rw [h.2.1 hr] at this
      unfold REvt.regk; rw [if_pos hr]; exact this
    · exact hun hk hr

/-- Inceptions that calls turn away. -/
def AwayP (P : Id → Dig → Prop) (e : REvt) : Prop := ∃ hab, P hab e.regk ∧ e.iss ≠ hab

/-- Anchors found by calls. -/
def AnchP (nd : Node) (P : Id → Dig → Prop) (e : REvt) (c : Nat × Dig) : Prop := ∃ hab, P hab e.regk ∧ verifyAnchor nd hab e c = true

theorem event_call {V : REvt → Prop} {P : Id → Dig → Prop} (hnc : NoColl V) (nd : Node) (hrip : ∀ e, V e → e.ilk = .rip → P e.iss e.said) {s : Store}
    (hi : SInv V s) {o : Obj} {e : REvt} (he : V e) (hO : ∀ k, o.regk = some k → P o.hab k) (hun : o.regk = none → e.ilk ≠ .rip → P o.hab e.regk) :
    Blocks V (AnchP nd P) (AwayP P) s (processEvent nd s o e).ws ∧ ∀ k, (processEvent nd s o e).obj.regk = some k → P (processEvent nd s o e).obj.hab k := by
  have ho := obj_processEvent nd s o e
  constructor
  · cases hv : validate s o e with
    | none => rw [ws_invalid hv]; exact .nil _
    | some r => exact blk_mono (fun x c hx => ⟨o.hab, by rw [hx.1]; exact theirs hrip he hv hO hun, hx.2⟩) (fun _ h => h) (blk_processEvent hnc nd hi o he)
  · intro k hk
    rw [ho.1]
    rcases ho.2 with h | ⟨h, r, hr⟩
    · rw [h] at hk; exact hO k hk
    · rw [h] at hk; cases hk; exact theirs hrip he hr hO hun

theorem sweep_blk {V : REvt → Prop} {P : Id → Dig → Prop} (hnc : NoColl V) (nd : Node) (l : List Nat) {s : Store} (hi : SInv V s) (os : List Obj)
    (hO : OInv P os) : Blocks V (AnchP nd P) (AwayP P) s (sweepAll nd l s os).1 ∧ OInv P (sweepAll nd l s os).2 := by
  induction l generalizing s os with
  | nil => exact ⟨.nil _, hO⟩
  | cons h l ih =>
    unfold sweepAll
    split
    · exact ih hi os hO
    · rename_i o ho
      have he := escrows_blk hnc nd hi o
      have hm := hO o (List.mem_of_getElem? ho)
      have hg : Blocks V (AnchP nd P) (AwayP P) s (escrows nd s o).1 :=
        blk_mono (fun x c hx => let ⟨k, hk, hx⟩ := hx; ⟨o.hab, by rw [hx.1]; exact hm k hk, hx.2⟩)
          (fun x hx => let ⟨k, hk, hx⟩ := hx; ⟨o.hab, by rw [hx.1]; exact hm k hk, hx.2⟩) he.1
      have hO' : OInv P (os.set h (escrows nd s o).2) := by
        intro x hx k hk
        rcases List.mem_or_eq_of_mem_set hx with hx | rfl
        · exact hO x hx k hk
        · rw [he.2.1]; rw [he.2.2] at hk; exact hm k hk
      have := ih (blk_inv hnc hi hg).1 _ hO'
      exact ⟨blk_append hg this.1, this.2⟩

theorem inception_eq (pre : Id) (said : Dig) : inception pre said = ⟨.rip, said, pre, 0, 0, 0⟩ := rfl

theorem hands_blind {w : World} {h : Nat} {a : Acdc} {said : Dig} {o : Obj} (ho : w.objs[h]? = some o) {k : Dig} {hd : REvt}
    (hb : blindHead w.s o a = some (k, hd)) : Hands w (.blind h a said) (update w.s k said hd) ∧ o.regk = some k ∧ w.s.headEvent k = some hd := by
  unfold blindHead at hb
  cases hk : o.regk with
  | none => rw [hk] at hb; cases hb
  | some k' =>
    rw [hk] at hb
    dsimp only at hb
    cases hh : w.s.headEvent k' with
    | none => rw [hh] at hb; cases hb
    | some x =>
      rw [hh] at hb
      dsimp only at hb
      split at hb
      · cases hb
        refine ⟨?_, rfl, hh⟩
        have hh' := hh
        unfold Store.headEvent at hh'
        cases hd' : w.s.heads k with
        | none => rw [hd'] at hh'; simp at hh'
        | some d =>
          rw [hd'] at hh'
          have : update w.s k said hd = ⟨.bup, said, 0, k, hd.n + 1, hd.said⟩ := by unfold update Store.next; rw [hh]
          rw [this]
          exact .blind h a said o k d hd ho hk hd' (by simpa using hh')
      · cases hb

theorem onObj_some {w : World} {h : Nat} {o : Obj} (ho : w.objs[h]? = some o) (f : Obj → List Wr × Obj × Out) :
    w.onObj h f = { ws := (f o).1, objs := w.objs.set h (f o).2.1, regs := w.regs, names := w.names, out := (f o).2.2 } := by
  unfold World.onObj; rw [ho]

theorem onObj_none {w : World} {h : Nat} (ho : w.objs[h]? = none) (f : Obj → List Wr × Obj × Out) : w.onObj h f = w.idle .unit := by
  unfold World.onObj; rw [ho]

theorem oinv_set {P : Id → Dig → Prop} {os : List Obj} (hO : OInv P os) (h : Nat) (o : Obj) (ho : ∀ k, o.regk = some k → P o.hab k) : OInv P (os.set h o) := by
  intro x hx k hk
  rcases List.mem_or_eq_of_mem_set hx with hx | rfl
  · exact hO x hx k hk
  · exact ho k hk

theorem oinv_add {P : Id → Dig → Prop} {os : List Obj} (hO : OInv P os) (o : Obj) (ho : ∀ k, o.regk = some k → P o.hab k) : OInv P (os ++ [o]) := by
  intro x hx k hk
  rcases List.mem_append.1 hx with hx | hx
  · exact hO x hx k hk
  · simp only [List.mem_singleton] at hx; subst hx; exact ho k hk

theorem stored_processEvent {V : REvt → Prop} (hnc : NoColl V) (nd : Node) {s : Store} (hi : SInv V s) (o : Obj) {e : REvt} (he : V e)
    (h : (processEvent nd s o e).out ≠ none) : (s.applyAll (processEvent nd s o e).ws).evts e.said = some e := by
  have hg := (blk_processEvent hnc (R := fun _ => True) nd hi o he).good hnc hi
  unfold processEvent at h hg ⊢
  cases hv : validate s o e with
  | none => rw [hv] at h; exact absurd rfl h
  | some r =>
    obtain ⟨x, prior⟩ := r
    have hval := validate_some hv
    rw [hv] at hg
    have first : ∀ l, Good V (Anch nd o.hab e.regk) s (.evt e :: l) → (s.applyAll (.evt e :: l)).evts e.said = some e := fun l hg => by
      have h1 := (good_inv hnc (inv_apply hnc hi hg.1) hg.2).2
      rw [applyAll_cons]
      exact h1.evts _ _ (by simp [Store.apply, put])
    cases x with
    | some x =>
      have hx := hval.2.2.2.1
      unfold Store.seqEvent at hx
      cases ht : s.tels e.regk e.n with
      | none => rw [ht] at hx; simp at hx
      | some d =>
        rw [ht] at hx
        have hev : s.evts d = some x := by simpa using hx.symm
        have hs := hi.evt _ _ hev
        have hsaid := hval.2.2.2.2.1 x rfl
        have : x = e := hnc _ _ hs.2 he hsaid
        subst this
        show s.evts x.said = some x
        rw [hs.1]; exact hev
    | none =>
      dsimp only at hg ⊢
      split at hg <;> rename_i hc
      · rw [if_pos hc]; exact first _ hg
      · rw [if_neg hc]
        unfold advance at hg ⊢
        split at hg <;> rename_i hc'
        · rw [if_pos hc']; exact first _ hg
        · rw [if_neg hc']; exact first _ hg

theorem call_blk {V : REvt → Prop} {P : Id → Dig → Prop} (hnc : NoColl V) {w : World} (hi : SInv V w.s) (hO : OInv P w.objs) {c : Call} (hl : Lic V P w c) :
    Blocks V (AnchP w.nd P) (AwayP P) w.s (w.call c).ws ∧ OInv P (w.call c).objs := by
  cases c with
  | attach hab k =>
    refine ⟨.nil _, oinv_add hO _ fun k' hk => ?_⟩
    cases hk; exact hl.attach hab k' rfl
  | event h e =>
    show Blocks _ _ _ _ (w.onObj h _).ws ∧ OInv P (w.onObj h _).objs
    cases ho : w.objs[h]? with
    | none => rw [onObj_none ho]; exact ⟨.nil _, hO⟩
    | some o =>
      rw [onObj_some ho]
      have h := event_call hnc w.nd hl.rip hi (hl.within e (.event h e)) (hO o (List.mem_of_getElem? ho)) (hl.event h e o rfl ho)
      exact ⟨h.1, oinv_set hO _ _ h.2⟩
  | anchor h d num dig =>
    show Blocks _ _ _ _ (w.onObj h _).ws ∧ OInv P (w.onObj h _).objs
    cases ho : w.objs[h]? with
    | none => rw [onObj_none ho]; exact ⟨.nil _, hO⟩
    | some o =>
      rw [onObj_some ho]
      have hg := anchorMsg_blk hnc (R := AwayP P) w.nd hi o d num dig
      have ht : ∀ e r, w.s.evts d = some e → validate w.s o e = some r → P o.hab e.regk := fun e r he hr =>
        theirs hl.rip (hi.evt _ _ he).2 hr (hO o (List.mem_of_getElem? ho)) (fun hn => hl.anchor h d num dig o e rfl ho hn he)
      refine ⟨blk_mono (fun x c hx => ?_) (fun _ h => h) hg.1, oinv_set hO _ _ fun k hk => ?_⟩
      · obtain ⟨e, r, he, hr, hx1, hx2⟩ := hx
        exact ⟨o.hab, by rw [hx1]; exact ht e r he hr, hx2⟩
      · dsimp only at hk ⊢
        rw [hg.2.1]
        rcases hg.2.2 with h2 | ⟨e, r, he, hr, h2⟩
        · rw [h2] at hk; exact hO o (List.mem_of_getElem? ho) k hk
        · rw [h2] at hk; cases hk; exact ht e r he hr
  | escrows h =>
    show Blocks _ _ _ _ (w.onObj h _).ws ∧ OInv P (w.onObj h _).objs
    cases ho : w.objs[h]? with
    | none => rw [onObj_none ho]; exact ⟨.nil _, hO⟩
    | some o =>
      rw [onObj_some ho]
      have he := escrows_blk hnc w.nd hi o
      have hm := hO o (List.mem_of_getElem? ho)
      refine ⟨blk_mono (fun x c hx => ?_) (fun x hx => ?_) he.1, oinv_set hO _ _ fun k hk => ?_⟩
      · obtain ⟨k, hk, hx1, hx2⟩ := hx
        exact ⟨o.hab, by rw [hx1]; exact hm k hk, hx2⟩
      · obtain ⟨k, hk, hx1, hx2⟩ := hx
        exact ⟨o.hab, by rw [hx1]; exact hm k hk, hx2⟩
      · dsimp only at hk ⊢; rw [he.2.1]; rw [he.2.2] at hk; exact hm k hk
  | make h said =>
    show Blocks _ _ _ _ (w.onObj h _).ws ∧ OInv P (w.onObj h _).objs
    cases ho : w.objs[h]? with
    | none => rw [onObj_none ho]; exact ⟨.nil _, hO⟩
    | some o =>
      rw [onObj_some ho]
      have h := event_call hnc w.nd hl.rip hi (hl.within _ (.make h said o ho)) (hO o (List.mem_of_getElem? ho)) (fun _ h => absurd rfl h)
      exact ⟨h.1, oinv_set hO _ _ h.2⟩
  | blind h a said =>
    show Blocks _ _ _ _ (w.onObj h _).ws ∧ OInv P (w.onObj h _).objs
    cases ho : w.objs[h]? with
    | none => rw [onObj_none ho]; exact ⟨.nil _, hO⟩
    | some o =>
      rw [onObj_some ho]
      unfold blind
      have hm := hO o (List.mem_of_getElem? ho)
      cases hb : blindHead w.s o a with
      | none => exact ⟨.nil _, oinv_set hO _ _ hm⟩
      | some r =>
        obtain ⟨k, hd⟩ := r
        have hh := hands_blind (said := said) ho hb
        have h := event_call hnc w.nd hl.rip hi (hl.within _ hh.1) hm (fun hn => by rw [hh.2.1] at hn; cases hn)
        exact ⟨h.1, oinv_set hO _ _ h.2⟩
  | makeRegistry name pre said =>
    show Blocks _ _ _ _ (w.makeRegistry name pre said).ws ∧ OInv P (w.makeRegistry name pre said).objs
    unfold World.makeRegistry
    split
    · exact ⟨.nil _, hO⟩
    · split
      · exact ⟨.nil _, hO⟩
      · split
        · exact ⟨.nil _, hO⟩
        · split
          · exact ⟨.nil _, hO⟩
          · rename_i b hb
            have hv := hl.within _ (.registry name pre said)
            have h := event_call (P := P) hnc w.nd hl.rip hi (o := ⟨pre, none, none⟩) hv (fun k hk => by cases hk) (fun _ h => absurd rfl h)
            refine ⟨blk_append h.1 (.plain trivial ⟨_, stored_processEvent hnc w.nd hi ⟨pre, none, none⟩ hv ?_, rfl⟩ (.nil _)), oinv_add hO _ h.2⟩
            rw [hb]; simp
  | sweep => exact sweep_blk hnc w.nd _ hi _ hO

theorem load_inv {V : REvt → Prop} {P : Id → Dig → Prop} (hrip : ∀ e, V e → e.ilk = .rip → P e.iss e.said) (l : List (Name × Dig)) {w w' : World}
    (hi : SInv V w.s) (hO : OInv P w.objs) (h : w.load l = some w') : w'.s = w.s ∧ w'.nd = w.nd ∧ w'.habs = w.habs ∧ OInv P w'.objs := by
  induction l generalizing w with
  | nil => cases h; exact ⟨rfl, rfl, rfl, hO⟩
  | cons x l ih =>
    unfold World.load at h
    cases h1 : w.load1 x with
    | none => rw [h1] at h; cases h
    | some w1 =>
      rw [h1] at h
      have : w1.s = w.s ∧ w1.nd = w.nd ∧ w1.habs = w.habs ∧ OInv P w1.objs := by
        unfold World.load1 at h1
        split at h1
        · cases h1
        · split at h1
          · cases h1
          · rename_i rip hr
            split at h1
            · cases h1
            · rename_i hk
              split at h1
              · cases h1
              · split at h1
                · cases h1; exact ⟨rfl, rfl, rfl, hO⟩
                · cases h1
                  refine ⟨rfl, rfl, rfl, oinv_add hO _ fun k hk' => ?_⟩
                  cases hk'
                  have := hi.evt _ _ hr
                  have h2 := hrip rip this.2 (by simpa using hk)
                  rw [this.1] at h2; exact h2
      have h2 := ih (by rw [this.1]; exact hi) this.2.2.2 h
      exact ⟨h2.1.trans this.1, h2.2.1.trans this.2.1, h2.2.2.1.trans this.2.2.1, h2.2.2.2⟩

/-- The invariant of the world. -/
structure WInv (V : REvt → Prop) (P : Id → Dig → Prop) (w : World) : Prop where
  s : SInv V w.s
  o : OInv P w.objs

theorem step_inv {env : Kel.Env} {V : REvt → Prop} {P : Id → Dig → Prop} (hnc : NoColl V) (hrip : ∀ e, V e → e.ilk = .rip → P e.iss e.said) {w : World}
    (hw : WInv V P w) {i : Inp} (hl : ∀ c, i.calls = some c → Lic V P w c) : WInv V P (w.step env i) ∧ Ext w.s (w.step env i).s := by
  cases i with
  | kel i => exact ⟨⟨hw.s, hw.o⟩, Ext.refl _⟩
  | config h => exact ⟨⟨hw.s, hw.o⟩, Ext.refl _⟩
  | call c =>
    have hg := call_blk hnc hw.s hw.o (hl c rfl)
    have := blk_inv hnc hw.s hg.1
    exact ⟨⟨this.1, hg.2⟩, this.2⟩
  | crash c m =>
    have hg := call_blk hnc hw.s hw.o (hl c rfl)
    have := good_inv hnc hw.s (good_take (hg.1.good hnc hw.s) m)
    exact ⟨⟨this.1, fun _ h => by cases h⟩, this.2⟩
  | reopen =>
    show WInv V P ((w.down.load w.s.records).getD w.down) ∧ Ext w.s ((w.down.load w.s.records).getD w.down).s
    cases h : w.down.load w.s.records with
    | none => exact ⟨⟨hw.s, fun _ h => by cases h⟩, Ext.refl _⟩
    | some w' =>
      have := load_inv (w := w.down) hrip _ hw.s (fun _ h => by cases h) h
      refine ⟨⟨?_, this.2.2.2⟩, ?_⟩
      · show SInv V w'.s; rw [this.1]; exact hw.s
      · show Ext w.s w'.s; rw [this.1]; exact Ext.refl _

theorem sinv_empty (V : REvt → Prop) : SInv V Store.empty := by
  refine ⟨?_, ?_, ?_, ?_, ?_, ?_⟩ <;> simp [Store.empty]

/-- The predicate that says nothing. -/
def PTrue (_ : Id) (_ : Dig) : Prop := True

theorem lic_true {V : REvt → Prop} {w : World} {i : Inp} (h : Within V w i) (c : Call) (hc : i.calls = some c) : Lic V PTrue w c :=
  ⟨fun e he => h c e hc he, fun _ _ _ => trivial, fun _ _ _ => trivial, fun _ _ _ _ _ _ _ => trivial, fun _ _ _ _ _ _ _ _ _ _ _ => trivial⟩

theorem hist_inv {env : Kel.Env} {V : REvt → Prop} (hnc : NoColl V) {G : World → Inp → Prop} (hG : ∀ w i, G w i → Within V w i) {w0 w : World}
    (h0 : SInv V w0.s) (h : Hist env G w0 w) : SInv V w.s ∧ Ext w0.s w.s := by
  induction h with
  | nil => exact ⟨h0, Ext.refl _⟩
  | step i _ g ih =>
    have := step_inv (env := env) (P := PTrue) hnc (fun _ _ _ => trivial) ⟨ih.1, fun _ _ _ _ => trivial⟩ (fun c hc => lic_true (hG _ _ g) c hc)
    exact ⟨this.1.s, ih.2.trans this.2⟩

theorem Reached.inv {env : Kel.Env} {V : REvt → Prop} (hnc : NoColl V) {w : World} (h : Reached env V w) : SInv V w.s := by
  obtain ⟨nd, habs, h⟩ := h
  exact (hist_inv hnc (fun _ _ h => h) (sinv_empty V) h).1

end Verif.Bsr
