import Verif.Iss.Lemmas

/-!
# What holds in all reached states of the issuing workflow
-/

namespace Verif.Iss

open Verif.Kel (Id Dig Event Couple upd upd2 NoColl)
open Verif.Tel (TEvt Reger TInv Kept NoCollT telGet InLog Registered)
open Verif.Vry (VNode VEnv VInp Cred Anchor VInv Grows NoCollC VDelivers)

variable {env : VEnv} {U : Event → Prop} {V : TEvt → Prop} {W : Cred → Anchor → Prop}

theorem anchorMsg_mono (r : Reger) (p : Id) (d : Dig) (c : Couple) {q : Id} {e : Dig} {x : Couple} (h : r.ancs q e = some x) :
    (anchorMsg r p d c).ancs q e = some x := by
  unfold anchorMsg
  split
  · rename_i hn
    simp only [upd2]
    split
    · rename_i hh; obtain ⟨rfl, rfl⟩ := hh; rw [h] at hn; cases hn
    · exact h
  · exact h

theorem anchorMsg_rest (r : Reger) (p : Id) (d : Dig) (c : Couple) : ∃ x, anchorMsg r p d c = { r with ancs := x } := by
  unfold anchorMsg
  split <;> exact ⟨_, rfl⟩

theorem TInv.ancs {e : Tel.TEnv} {n : Kel.Node} {r : Reger} (ht : TInv e U V n r) (x : Id → Dig → Option Couple) (hm : ∀ q d y, r.ancs q d = some y → x q d = some y) :
    TInv e U V n { r with ancs := x } := by
  refine ⟨ht.kel, ht.tvt, ht.ord, fun p on d hd => ?_, fun k t hk => ?_, fun k s hs => ?_, ht.mem⟩
  · have h := ht.ent p on d hd
    exact h.mono (n' := n) (r := r) (r' := { r with ancs := x }) (fun _ _ h => h) (fun _ _ _ h => h) (fun q e y hy => hm q e y hy) (fun _ _ h => h)
  · have h := ht.tev k t hk
    exact h.mono (n' := n) (r := r) (r' := { r with ancs := x }) (fun _ _ h => h) (fun _ _ _ h => h) (fun _ => Nat.le_refl _)
  · obtain ⟨t, h1, h2, h3⟩ := ht.sts k s hs
    exact ⟨t, h1, h2.mono (n' := n) (r := r) (r' := { r with ancs := x }) (fun _ _ h => h) (fun _ _ _ h => h) (fun _ => Nat.le_refl _), h3⟩

/-- Entering a source seal leaves all else valid. -/
theorem VInv.anchorMsg {v : VNode} (h : VInv env U V W v) (p : Id) (d : Dig) (c : Couple) :
    VInv env U V W { v with t := { v.t with reg := anchorMsg v.t.reg p d c } } ∧ Grows v { v with t := { v.t with reg := anchorMsg v.t.reg p d c } } := by
  have hm := fun {q e x} => anchorMsg_mono v.t.reg p d c (q := q) (e := e) (x := x)
  obtain ⟨x, hx⟩ := anchorMsg_rest v.t.reg p d c
  rw [hx] at hm ⊢
  have hg : Grows v { v with t := { v.t with reg := { v.t.reg with ancs := x } } } :=
    ⟨fun _ _ h => h, ⟨fun _ => List.prefix_refl _, fun _ _ _ h => h, fun q e y hy => hm hy⟩, fun _ _ h => h, List.prefix_refl _, fun _ h => h⟩
  exact ⟨h.of_grows hg (TInv.ancs h.tel x fun q d y hy => hm hy) h.store rfl, hg⟩

theorem telGet_mem {l : List (Nat × Dig)} {on : Nat} {d : Dig} (h : telGet l on = some d) : (on, d) ∈ l := by
  unfold telGet at h
  obtain ⟨x, h1, rfl⟩ := Option.map_eq_some_iff.1 h
  have h2 := List.mem_of_find?_eq_some h1
  have h3 := List.find?_some h1
  simp only [decide_eq_true_eq] at h3
  subst h3; exact h2

/-- The invariant. -/
structure IInv (env : VEnv) (U : Event → Prop) (V : TEvt → Prop) (W : Cred → Anchor → Prop) (w : World) : Prop where
  v : VInv env U V W w.v
  ctel : ∀ p sn d, w.ctel p sn = some d → ∃ dig, (sn, dig) ∈ w.v.t.reg.tels p
  msgs : ∀ m ∈ w.pmsgs ++ w.pcues, ∀ y ∈ m.evts, y ∈ w.v.t.reg.tels m.said
  cmse : ∀ x ∈ w.cmse, x.1.1 = x.2.said ∧ ∃ a, W x.2 a
  ccrd : ∀ d c, w.ccrd d = some c → c.said = d ∧ (∃ a, W c a) ∧ d ∈ w.v.s.saved ∧ ∃ sn, (w.ctel d sn).isSome = true

/-- The node grows. -/
theorem IInv.grow {w : World} (h : IInv env U V W w) {v' : VNode} (hv : VInv env U V W v') (g : Grows w.v v') : IInv env U V W { w with v := v' } := by
  refine ⟨hv, fun p sn d hd => ?_, fun m hm y hy => ?_, h.cmse, fun d c hc => ?_⟩
  · obtain ⟨dig, hd⟩ := h.ctel p sn d hd
    exact ⟨dig, (g.reg.tels p).subset hd⟩
  · exact (g.reg.tels _).subset (h.msgs m hm y hy)
  · obtain ⟨h1, h2, h3, h4⟩ := h.ccrd d c hc
    exact ⟨h1, h2, g.saved.subset h3, h4⟩

/-- Writes that are all right. -/
def Legit (W : Cred → Anchor → Prop) (w : World) : Wr → Prop
  | .pmsg m => ∀ y ∈ m.evts, y ∈ w.v.t.reg.tels m.said
  | .ctelPut k _ => ∃ dig, (k.2, dig) ∈ w.v.t.reg.tels k.1
  | .cmsePut k c => k.1 = c.said ∧ ∃ a, W c a
  | .ccrdPut d c => c.said = d ∧ (∃ a, W c a) ∧ d ∈ w.v.s.saved ∧ ∃ sn, (w.ctel d sn).isSome = true
  | _ => True

theorem IInv.apply {w : World} (h : IInv env U V W w) {x : Wr} (hl : Legit W w x) : IInv env U V W (w.apply x) := by
  cases x with
  | ancPut p d c =>
    obtain ⟨h1, h2⟩ := VInv.anchorMsg h.v p d c
    exact h.grow h1 h2
  | pmsg m =>
    refine ⟨h.v, h.ctel, fun m' hm => ?_, h.cmse, h.ccrd⟩
    simp only [World.apply, List.mem_append, List.mem_singleton] at hm
    rcases hm with (hm | rfl) | hm
    · exact h.msgs m' (by simp [hm])
    · exact hl
    · exact h.msgs m' (by simp [hm])
  | ctelPut k d =>
    simp only [World.apply]
    split
    · rename_i hn
      refine ⟨h.v, fun p sn e he => ?_, h.msgs, h.cmse, fun d c hc => ?_⟩
      · simp only [upd2] at he
        split at he
        · rename_i hh; obtain ⟨rfl, rfl⟩ := hh; exact hl
        · exact h.ctel p sn e he
      · obtain ⟨h1, h2, h3, sn, h4⟩ := h.ccrd d c hc
        refine ⟨h1, h2, h3, sn, ?_⟩
        simp only [upd2]
        split
        · rfl
        · exact h4
    · exact h
  | cmsePut k c =>
    refine ⟨h.v, h.ctel, h.msgs, fun x hx => ?_, h.ccrd⟩
    rcases mem_onePut hx with rfl | hx
    · exact hl
    · exact h.cmse x hx
  | cmseRem k => exact ⟨h.v, h.ctel, h.msgs, fun x hx => h.cmse x (mem_remKey.1 hx).1, h.ccrd⟩
  | ccrdPut d c =>
    simp only [World.apply]
    split
    · refine ⟨h.v, h.ctel, h.msgs, h.cmse, fun e c' hc => ?_⟩
      simp only [upd] at hc
      split at hc
      · rename_i hh; subst hh; injection hc with hc; subst hc; exact hl
      · exact h.ccrd e c' hc
    · exact h
  | _ => exact ⟨h.v, h.ctel, h.msgs, h.cmse, h.ccrd⟩

/-- Whether a write is all right depends on the logs, the saved credentials and what is complete; none of them shrinks. -/
theorem Legit.mono {w w' : World} {x : Wr} (h : Legit W w x) (fr : Frame w w') (hc : ∀ d sn, (w.ctel d sn).isSome = true → (w'.ctel d sn).isSome = true) :
    Legit W w' x := by
  cases x <;> simp only [Legit] at h ⊢ <;> first | trivial | (rw [fr.tels]; exact h) | skip
  · obtain ⟨h1, h2, h3, sn, h4⟩ := h
    exact ⟨h1, h2, by rw [fr.s]; exact h3, sn, hc _ _ h4⟩

theorem ctel_apply {w : World} {d : Id} {sn : Nat} (h : (w.ctel d sn).isSome = true) (x : Wr) : ((w.apply x).ctel d sn).isSome = true := by
  cases x with
  | ctelPut k e =>
    simp only [World.apply]
    split
    · simp only [upd2]; split
      · rfl
      · exact h
    · exact h
  | ccrdPut d c => simp only [World.apply]; split <;> exact h
  | _ => exact h

theorem ctel_applyAll {w : World} {d : Id} {sn : Nat} (h : (w.ctel d sn).isSome = true) (ws : List Wr) : ((w.applyAll ws).ctel d sn).isSome = true := by
  induction ws generalizing w with
  | nil => exact h
  | cons x ws ih => exact ih (ctel_apply h x)

theorem IInv.writes {w : World} (h : IInv env U V W w) {ws : List Wr} (hl : ∀ x ∈ ws, Legit W w x) : IInv env U V W (w.applyAll ws) := by
  induction ws generalizing w with
  | nil => exact h
  | cons x ws ih =>
    exact ih (h.apply (hl x (by simp))) (fun y hy => (hl y (by simp [hy])).mono (frame_apply w x) (fun _ _ hc => ctel_apply hc x))

theorem witness_legit (w : World) (x : Slot × Val) : ∀ y ∈ (witness w x).1, Legit W w y := by
  unfold witness
  split
  · simp
  split
  · simp [Legit]
  split
  · split
    · simp
    · split <;> simp [Legit]
  · simp

theorem multisig_legit (w : World) (x : (Slot × Dig) × Val) : ∀ y ∈ (multisig w x).1, Legit W w y := by
  unfold multisig
  split <;> simp [Legit]

theorem disseminate_legit (w : World) (x : Slot × Val) : ∀ y ∈ (disseminate w x).1, Legit W w y := by
  unfold disseminate
  split
  · simp
  · rename_i d hd
    intro y hy
    simp only [List.mem_cons, List.not_mem_nil, or_false] at hy
    rcases hy with rfl | rfl | rfl
    · trivial
    · intro y hy; exact (List.mem_filter.1 hy).1
    · exact ⟨d, telGet_mem hd⟩

theorem ask_legit (w : World) (a : Ask) : ∀ y ∈ (ask w a).1, Legit W w y := by
  unfold ask
  split
  · simp
  split
  · split <;> simp [Legit]
  · split <;> simp [Legit]

theorem missingSig_legit {w : World} {x : (Dig × Nat) × Cred} (hx : x.1.1 = x.2.said ∧ ∃ a, W x.2 a) : ∀ y ∈ (missingSig w x).1, Legit W w y := by
  unfold missingSig
  split
  · simp
  rename_i hc
  split
  · simp
  rename_i hs
  intro y hy
  simp only [List.mem_cons, List.not_mem_nil, or_false] at hy
  rcases hy with rfl | rfl
  · trivial
  · refine ⟨hx.1.symm, hx.2, by simpa using hs, x.1.2, ?_⟩
    simp only [complete, Bool.not_eq_true', Bool.not_eq_false] at hc
    simpa using (Bool.and_eq_true_iff.1 (by simpa using hc)).1

theorem mem_take {α} {l : List α} {n : Nat} {x : α} (h : x ∈ l.take n) : x ∈ l := List.mem_of_mem_take h

theorem IInv.registrar {w : World} (h : IInv env U V W w) (n : Nat) : IInv env U V W (w.applyAll ((Iss.registrar w).1.take n)) :=
  registrar_part (P := IInv env U V W) (fun w' _ h' x _ n => h'.writes fun y hy => witness_legit w' x y (mem_take hy))
    (fun _ _ _ w' _ h' x _ n => h'.writes fun y hy => multisig_legit w' x y (mem_take hy))
    (fun _ _ _ w' _ h' x _ n => h'.writes fun y hy => disseminate_legit w' x y (mem_take hy)) h n

theorem IInv.credentialer {w : World} (h : IInv env U V W w) (n : Nat) : IInv env U V W (w.applyAll ((Iss.credentialer w).1.take n)) :=
  pass_part (P := IInv env U V W) _ (fun w' _ h' x hx n => h'.writes fun y hy => missingSig_legit (h.cmse x hx) y (mem_take hy)) h n

theorem take_self {α} (l : List α) : l.take l.length = l := List.take_length

theorem inp_inner {i : VInp} (h : VDelivers U V W [i]) :
    (∀ j, i.inner = some j → (∀ e, j.event = some e → U e) ∧ (∀ e, j.tevent = some e → V e)) ∧ ∀ c a, i.cred? = some (c, a) → W c a := by
  refine ⟨fun j hj => ?_, fun c a hc => h.creds i (by simp) c a hc⟩
  have h1 := h.inner
  simp only [List.filterMap_cons, hj, List.filterMap_nil] at h1
  exact ⟨fun e he => h1.1 j (by simp) e he, fun e he => h1.2 j (by simp) e he⟩

theorem IInv.restarted (hnk : NoColl U) (hnt : NoCollT V) (hnc : NoCollC W) {w : World} (h : IInv env U V W w) : IInv env U V W (w.restarted env) := by
  have hs := VInv.step (env := env) hnk hnt hnc h.v (.tel .restart) (by intro j hj; injection hj with hj; subst hj; exact ⟨by simp [Tel.TInp.event], by simp [Tel.TInp.tevent]⟩)
    (by simp [VInp.cred?])
  have h2 := h.grow hs.1 hs.2
  exact ⟨h2.v, h2.ctel, by simp [World.restarted], h2.cmse, h2.ccrd⟩

theorem IInv.step (hnk : NoColl U) (hnt : NoCollT V) (hnc : NoCollC W) {w : World} (h : IInv env U V W w) {i : Inp} (g : Delivered U V W w i) :
    IInv env U V W (w.step env i) := by
  cases i with
  | node i =>
    obtain ⟨h1, h2⟩ := inp_inner g
    obtain ⟨h3, h4⟩ := VInv.step (env := env) hnk hnt hnc h.v i h1 h2
    exact h.grow h3 h4
  | registry k p => exact ⟨h.v, h.ctel, h.msgs, h.cmse, h.ccrd⟩
  | ask a => exact h.writes (ask_legit w a)
  | registrar => have := h.registrar (Iss.registrar w).1.length; rwa [take_self] at this
  | counseled p n d => simp only [World.step]; split <;> exact ⟨h.v, h.ctel, h.msgs, h.cmse, h.ccrd⟩
  | receipted => exact ⟨h.v, h.ctel, h.msgs, h.cmse, h.ccrd⟩
  | published =>
    simp only [World.step, publish]
    split
    · exact h
    rename_i m r hm
    have hms := h.msgs
    rw [hm] at hms
    split
    · exact ⟨h.v, h.ctel, fun m' hm' => hms m' (by simp only [List.mem_append] at hm'; simp only [List.cons_append, List.mem_cons, List.mem_append]; grind), h.cmse, h.ccrd⟩
    · exact ⟨h.v, h.ctel, fun m' hm' => hms m' (by simp only [List.mem_append, List.mem_singleton] at hm'; simp only [List.cons_append, List.mem_cons, List.mem_append]; grind), h.cmse, h.ccrd⟩
  | issue late c a =>
    have h1 : IInv env U V W (w.apply (.cmsePut (c.said, a.2.1) c)) := h.apply ⟨rfl, a, g⟩
    exact h1.grow (VInv.process hnc h1.v late g) (Vry.process_grows late c a _)
  | credentialer => have := h.credentialer (Iss.credentialer w).1.length; rwa [take_self] at this
  | crashAsk a n => exact (h.writes (ws := (Iss.ask w a).1.take n) fun y hy => ask_legit w a y (mem_take hy)).restarted hnk hnt hnc
  | crashRegistrar n => exact (h.registrar n).restarted hnk hnt hnc
  | crashIssue c a => exact (h.apply (x := .cmsePut (c.said, a.2.1) c) ⟨rfl, a, g⟩).restarted hnk hnt hnc
  | crashCredentialer n => exact (h.credentialer n).restarted hnk hnt hnc
  | restart => exact h.restarted hnk hnt hnc

theorem Reached.inv (hnk : NoColl U) (hnt : NoCollT V) (hnc : NoCollC W) {w : World} (h : Reached env U V W w) : IInv env U V W w := by
  obtain ⟨pr, gr, mid, habs, h⟩ := h
  induction h with
  | nil =>
    have hv : VInv env U V W (VNode.start pr gr mid) := Vry.VReached.inv hnk hnt hnc ⟨pr, gr, mid, [], ⟨⟨by simp, by simp⟩, by simp⟩, rfl⟩
    exact ⟨hv, by simp [World.start], by simp [World.start], by simp [World.start], by simp [World.start]⟩
  | step i _ g ih => exact ih.step hnk hnt hnc g

end Verif.Iss
