import Verif.Iss.Inv
import Verif.Vry.PropsCred

/-!
# Properties of the issuing workflow: what is reported as complete
-/

namespace Verif.Iss

open Verif.Kel (Id Dig Event Couple upd upd2 NoColl)
open Verif.Tel (TEvt Reger TInv NoCollT InLog Registered Sealed)
open Verif.Vry (VNode VEnv VInp Cred Anchor VInv NoCollC Saved Allowed)
open Verif.Grp (Num completed)

variable {env : VEnv} {U : Event → Prop} {V : TEvt → Prop} {W : Cred → Anchor → Prop}

theorem inLog_of {n : Kel.Node} {r : Reger} {e : Tel.TEnv} (h : TInv e U V n r) {p : Id} {sn : Nat} {d : Dig} (hd : (sn, d) ∈ r.tels p) :
    ∃ x k v, InLog r p sn x ∧ x.said = d ∧ x.pre = p ∧ x.sn = sn ∧ x.regk = some k ∧ Registered e n r k v ∧ Sealed e n v.issuer x := by
  obtain ⟨x, k, v, h1, h2, h3, h4, h5, _⟩ := h.ent p sn d hd
  obtain ⟨g1, g2, _⟩ := h.tvt p d x h1
  exact ⟨x, k, v, ⟨by rw [g2]; exact hd, by rw [g2]; exact h1⟩, g2, g1, h2, h3, h4, h5⟩

/-- **C153, logged.** A registry or credential event reported as complete is in its log, and the controller of its registry has sealed it in an accepted key event. -/
theorem c153_logged (hnk : NoColl U) (hnt : NoCollT V) (hnc : NoCollC W) {w : World} (h : Reached env U V W w) {p : Id} {sn : Nat} (hc : complete w p sn = true) :
    ∃ e k v, InLog w.v.t.reg p sn e ∧ e.pre = p ∧ e.sn = sn ∧ e.regk = some k ∧ Registered env.tel w.v.t.node w.v.t.reg k v ∧
      Sealed env.tel w.v.t.node v.issuer e := by
  have hi := h.inv hnk hnt hnc
  obtain ⟨d, hd⟩ := Option.isSome_iff_exists.1 (Bool.and_eq_true_iff.1 hc).1
  obtain ⟨dig, hdig⟩ := hi.ctel p sn d hd
  obtain ⟨e, k, v, h1, _, h3, h4, h5, h6, h7⟩ := inLog_of hi.v.tel hdig
  exact ⟨e, k, v, h1, h3, h4, h5, h6, h7⟩

/-- **C153, sent.** Whatever is handed to the WitnessPublisher as part of a log is in that log, and sealed. -/
theorem c153_sent (hnk : NoColl U) (hnt : NoCollT V) (hnc : NoCollC W) {w : World} (h : Reached env U V W w) {m : Msg} (hm : m ∈ w.pmsgs ++ w.pcues) {sn : Nat} {d : Dig}
    (hd : (sn, d) ∈ m.evts) :
    ∃ e k v, InLog w.v.t.reg m.said sn e ∧ e.said = d ∧ e.regk = some k ∧ Registered env.tel w.v.t.node w.v.t.reg k v ∧ Sealed env.tel w.v.t.node v.issuer e := by
  have hi := h.inv hnk hnt hnc
  obtain ⟨e, k, v, h1, h2, _, _, h5, h6, h7⟩ := inLog_of hi.v.tel (hi.msgs m hm _ hd)
  exact ⟨e, k, v, h1, h2, h5, h6, h7⟩

/-! ## Where it comes from -/

/-- Past moments: `A` the event was asked for, `R` its key event had been receipted or completed. -/
structure Marks where
  A : Slot → Id → Nat → Dig → Prop
  R : Id → Nat → Dig → Prop

/-- The stores hold only what is so marked. -/
structure MInv (m : Marks) (w : World) : Prop where
  tpwe : ∀ x ∈ w.tpwe, m.A x.1 x.2.1 x.2.2.1.num x.2.2.2
  tmse : ∀ x ∈ w.tmse, m.A x.1.1 x.2.1 x.2.2.1.num x.2.2.2
  tede : ∀ x ∈ w.tede, m.A x.1 x.2.1 x.2.2.1.num x.2.2.2 ∧ m.R x.2.1 x.2.2.1.num x.2.2.2
  ctel : ∀ p sn d, w.ctel p sn = some d → ∃ q n, m.A (p, sn) q n d ∧ m.R q n d

def Marked (m : Marks) : Wr → Prop
  | .tpweAdd k x => m.A k x.1 x.2.1.num x.2.2
  | .tmseAdd k x => m.A k.1 x.1 x.2.1.num x.2.2
  | .tedeAdd k x => m.A k x.1 x.2.1.num x.2.2 ∧ m.R x.1 x.2.1.num x.2.2
  | .ctelPut k d => ∃ q n, m.A k q n d ∧ m.R q n d
  | _ => True

theorem MInv.apply {m : Marks} {w : World} (h : MInv m w) {x : Wr} (hl : Marked m x) : MInv m (w.apply x) := by
  cases x with
  | tpweAdd k x =>
    refine ⟨fun y hy => ?_, h.tmse, h.tede, h.ctel⟩
    rcases mem_setAdd.1 hy with rfl | hy
    · exact hl
    · exact h.tpwe y hy
  | tpweRem k => exact ⟨fun y hy => h.tpwe y (mem_remKey.1 hy).1, h.tmse, h.tede, h.ctel⟩
  | tmseAdd k x =>
    refine ⟨h.tpwe, fun y hy => ?_, h.tede, h.ctel⟩
    rcases mem_setAdd.1 hy with rfl | hy
    · exact hl
    · exact h.tmse y hy
  | tmseRem k => exact ⟨h.tpwe, fun y hy => h.tmse y (mem_remKey.1 hy).1, h.tede, h.ctel⟩
  | tedeAdd k x =>
    refine ⟨h.tpwe, h.tmse, fun y hy => ?_, h.ctel⟩
    rcases mem_setAdd.1 hy with rfl | hy
    · exact hl
    · exact h.tede y hy
  | tedeRem k => exact ⟨h.tpwe, h.tmse, fun y hy => h.tede y (mem_remKey.1 hy).1, h.ctel⟩
  | ctelPut k d =>
    simp only [World.apply]
    split
    · refine ⟨h.tpwe, h.tmse, h.tede, fun p sn e he => ?_⟩
      simp only [upd2] at he
      split at he
      · rename_i hh; obtain ⟨rfl, rfl⟩ := hh; injection he with he; subst he; exact hl
      · exact h.ctel p sn e he
    · exact h
  | ccrdPut d c => simp only [World.apply]; split <;> exact ⟨h.tpwe, h.tmse, h.tede, h.ctel⟩
  | _ => exact ⟨h.tpwe, h.tmse, h.tede, h.ctel⟩

theorem MInv.writes {m : Marks} {w : World} (h : MInv m w) {ws : List Wr} (hl : ∀ x ∈ ws, Marked m x) : MInv m (w.applyAll ws) :=
  writes_keep (fun _ _ h l => h.apply l) ws hl h

theorem MInv.mono {m m' : Marks} {w : World} (h : MInv m w) (ha : ∀ k p n d, m.A k p n d → m'.A k p n d) (hr : ∀ p n d, m.R p n d → m'.R p n d) : MInv m' w :=
  ⟨fun x hx => ha _ _ _ _ (h.tpwe x hx), fun x hx => ha _ _ _ _ (h.tmse x hx), fun x hx => ⟨ha _ _ _ _ (h.tede x hx).1, hr _ _ _ (h.tede x hx).2⟩,
    fun p sn d hc => by obtain ⟨q, n, h1, h2⟩ := h.ctel p sn d hc; exact ⟨q, n, ha _ _ _ _ h1, hr _ _ _ h2⟩⟩

theorem witness_marked {m : Marks} {w : World} {x : Slot × Val} (ha : m.A x.1 x.2.1 x.2.2.1.num x.2.2.2)
    (hr : Receipted w x.2.1 x.2.2.2 → m.R x.2.1 x.2.2.1.num x.2.2.2) : ∀ y ∈ (witness w x).1, Marked m y := by
  unfold witness
  split
  · simp
  rename_i k hk
  split
  · rename_i hw
    have := hr ⟨k, hk, .inl hw⟩
    simp [Marked, ha, this]
  split
  · rename_i hw
    have := hr ⟨k, hk, .inr hw⟩
    split
    · simp
    · split <;> simp [Marked, ha, this]
  · simp

theorem multisig_marked {m : Marks} {w : World} {x : (Slot × Dig) × Val} (ha : m.A x.1.1 x.2.1 x.2.2.1.num x.2.2.2)
    (hr : GroupDone w x.2.1 x.2.2.1.num x.2.2.2 → m.R x.2.1 x.2.2.1.num x.2.2.2) : ∀ y ∈ (multisig w x).1, Marked m y := by
  unfold multisig
  split
  · simp [Marked]
  · simp
  · rename_i hc
    have hg : w.cgms x.2.1 x.2.2.1 = some x.2.2.2 := by
      unfold completed at hc
      split at hc
      · cases hc
      · rename_i c hcg
        dsimp only at hc
        split at hc
        · rename_i he; rw [hcg, he]
        · cases hc
    have := hr ⟨_, rfl, hg⟩
    simp [Marked, number, ha, this]

theorem disseminate_marked {m : Marks} {w : World} {x : Slot × Val} (ha : m.A x.1 x.2.1 x.2.2.1.num x.2.2.2 ∧ m.R x.2.1 x.2.2.1.num x.2.2.2) :
    ∀ y ∈ (disseminate w x).1, Marked m y := by
  unfold disseminate
  split
  · simp
  · simp [Marked]
    exact ⟨_, _, ha⟩

theorem ask_marked {m : Marks} {w : World} {a : Ask} (ha : ∀ p n d, About w a p n d → m.A a.slot p n d) : ∀ y ∈ (ask w a).1, Marked m y := by
  unfold ask
  split
  · simp
  rename_i p hp
  split
  · rename_i hh
    split
    · simp [Marked, number]
      exact ha _ _ _ ⟨hp, .inl ⟨hh, rfl⟩⟩
    · simp
  · rename_i hh
    split
    · simp
    · rename_i k hk
      simp [Marked, number]
      exact ha _ _ _ ⟨hp, .inr ⟨hh, k, hk, rfl, rfl⟩⟩

theorem Frame.receipted {w w' : World} (h : Frame w w') {p : Id} {d : Dig} (hr : Receipted w' p d) : Receipted w p d := by
  unfold Receipted at hr ⊢
  rw [h.node] at hr
  exact hr

theorem Frame.groupDone {w w' : World} (h : Frame w w') {p : Id} {sn : Nat} {d : Dig} (hr : GroupDone w' p sn d) : GroupDone w p sn d := by
  unfold GroupDone at hr ⊢
  rw [h.cgms] at hr
  exact hr

theorem MInv.registrar {m : Marks} {w : World} (h : MInv m w) (h1 : ∀ p n d, Receipted w p d → m.R p n d) (h2 : ∀ p n d, GroupDone w p n d → m.R p n d) (n : Nat) :
    MInv m (w.applyAll ((Iss.registrar w).1.take n)) :=
  registrar_part (P := MInv m) (fun w' fr h' x hx _ => h'.writes fun y hy => witness_marked (h.tpwe x hx) (fun r => h1 _ _ _ (fr.receipted r)) y (mem_take hy))
    (fun w1 _ h1' w' fr h' x hx _ => h'.writes fun y hy => multisig_marked (h1'.tmse x hx) (fun r => h2 _ _ _ (fr.groupDone r)) y (mem_take hy))
    (fun w1 _ h1' w' _ h' x hx _ => h'.writes fun y hy => disseminate_marked (h1'.tede x hx) y (mem_take hy)) h n

theorem credentialer_kinds {w : World} {n : Nat} {P : World → Prop} (hP : ∀ w x, P w → (∃ k, x = .cmseRem k) ∨ (∃ d c, x = .ccrdPut d c) → P (w.apply x)) (h : P w) :
    P (w.applyAll ((Iss.credentialer w).1.take n)) := by
  refine pass_part (P := P) _ (fun w' _ h' x _ n => writes_keep (P := P) hP _ (fun y hy => ?_) h') h n
  have hy := mem_take hy
  unfold missingSig at hy
  split at hy
  · simp at hy
  split at hy
  · simp at hy
  · simp at hy
    rcases hy with rfl | rfl
    · exact .inl ⟨_, rfl⟩
    · exact .inr ⟨_, _, rfl⟩

theorem MInv.restarted {m : Marks} {w : World} (h : MInv m w) : MInv m (w.restarted env) := ⟨h.tpwe, h.tmse, h.tede, h.ctel⟩

/-- The marks of a history. -/
def marks (env : VEnv) (G : World → Inp → Prop) (w0 w : World) : Marks where
  A := fun k p n d => Asked env G w0 w fun w1 a => a.slot = k ∧ About w1 a p n d
  R := fun p n d => Was env G w0 w fun w1 => Receipted w1 p d ∨ GroupDone w1 p n d

theorem MInv.hist {G : World → Inp → Prop} {v : VNode} {habs : Id → Option Bool} {w : World} (h : Hist env G (World.start v habs) w) :
    MInv (marks env G (World.start v habs) w) w := by
  induction h with
  | nil => exact ⟨by simp [World.start], by simp [World.start], by simp [World.start], by simp [World.start]⟩
  | @step w i hw g ih =>
    have hm : MInv (marks env G (World.start v habs) (w.step env i)) w := ih.mono (fun _ _ _ _ ha => ha.next g) (fun _ _ _ hr => hr.next g)
    have hR : ∀ p n d, Receipted w p d ∨ GroupDone w p n d → (marks env G (World.start v habs) (w.step env i)).R p n d :=
      fun p n d hr => ⟨w, hw, .step i .nil g, hr⟩
    have hA : ∀ a, i.asks a → ∀ p n d, About w a p n d → (marks env G (World.start v habs) (w.step env i)).A a.slot p n d :=
      fun a ha p n d hb => ⟨w, i, a, hw, g, .nil, ha, rfl, hb⟩
    generalize hm' : marks env G (World.start v habs) (w.step env i) = m at hm hR hA
    clear hm'
    cases i with
    | ask a => exact hm.writes (ask_marked (hA a rfl))
    | crashAsk a n => exact (hm.writes (ws := (ask w a).1.take n) fun y hy => ask_marked (hA a rfl) y (mem_take hy)).restarted
    | registrar =>
      have := hm.registrar (fun p n d r => hR p n d (.inl r)) (fun p n d r => hR p n d (.inr r)) (Iss.registrar w).1.length
      rwa [take_self] at this
    | crashRegistrar n => exact (hm.registrar (fun p n d r => hR p n d (.inl r)) (fun p n d r => hR p n d (.inr r)) n).restarted
    | counseled p n d => simp only [World.step]; split <;> exact ⟨hm.tpwe, hm.tmse, hm.tede, hm.ctel⟩
    | published => simp only [World.step, publish]; split <;> (try split) <;> exact ⟨hm.tpwe, hm.tmse, hm.tede, hm.ctel⟩
    | credentialer =>
      have := credentialer_kinds (w := w) (n := (Iss.credentialer w).1.length) (P := MInv m)
        (fun w x h hx => h.apply (by rcases hx with ⟨_, rfl⟩ | ⟨_, _, rfl⟩ <;> trivial)) hm
      rwa [take_self] at this
    | crashCredentialer n =>
      exact (credentialer_kinds (w := w) (n := n) (P := MInv m) (fun w x h hx => h.apply (by rcases hx with ⟨_, rfl⟩ | ⟨_, _, rfl⟩ <;> trivial)) hm).restarted
    | crashIssue c a => exact (hm.apply (x := .cmsePut (c.said, a.2.1) c) trivial).restarted
    | issue late c a =>
      have := hm.apply (x := .cmsePut (c.said, a.2.1) c) trivial
      exact ⟨this.tpwe, this.tmse, this.tede, this.ctel⟩
    | _ => exact ⟨hm.tpwe, hm.tmse, hm.tede, hm.ctel⟩

theorem slot_for {a : Ask} {p : Id} {sn : Nat} (h : a.slot = (p, sn)) : a.For p sn := by
  obtain ⟨h1, h2⟩ := Prod.mk.inj h
  refine ⟨h1, ?_⟩
  by_cases hc : a.call = .incept
  · rw [if_pos hc] at h2; exact .inl ⟨hc, h2.symm⟩
  · rw [if_neg hc] at h2; exact .inr ⟨hc, h2.symm⟩

theorem for_slot {a : Ask} {p : Id} {sn : Nat} (h : a.For p sn) : a.slot = (p, sn) := by
  obtain ⟨rfl, ⟨h1, rfl⟩ | ⟨h1, rfl⟩⟩ := h <;> simp [Ask.slot, h1]

/-- **C153, asked for and receipted.** What is reported as complete was asked for by a call of the Registrar. The key event that call was about had as many receipts as its controller had
witnesses at some moment, or was completed by its group. -/
theorem c153_asked {G : World → Inp → Prop} {v : VNode} {habs : Id → Option Bool} {w : World} (h : Hist env G (World.start v habs) w) {p : Id} {sn : Nat}
    (hc : complete w p sn = true) :
    ∃ q n d, (Asked env G (World.start v habs) w fun w1 a => a.For p sn ∧ About w1 a q n d) ∧
      (Was env G (World.start v habs) w fun w1 => Receipted w1 q d ∨ GroupDone w1 q n d) := by
  obtain ⟨d, hd⟩ := Option.isSome_iff_exists.1 (Bool.and_eq_true_iff.1 hc).1
  obtain ⟨q, n, h1, h2⟩ := (MInv.hist h).ctel p sn d hd
  obtain ⟨w1, i, a, g1, g2, g3, g4, g5, g6⟩ := h1
  exact ⟨q, n, d, ⟨w1, i, a, g1, g2, g3, g4, slot_for g5, g6⟩, h2⟩

/-! ## Nothing done is undone -/

theorem done_step {w : World} {k : Slot} (h : Done w k) (i : Inp) : Done (w.step env i) k := by
  cases i with
  | ask a => exact ctel_applyAll h _
  | registrar => exact ctel_applyAll h _
  | counseled p n d => simp only [World.step]; split <;> exact h
  | published => simp only [World.step, publish]; split <;> (try split) <;> exact h
  | credentialer => exact ctel_applyAll h _
  | crashAsk a n => exact ctel_applyAll (w := w) h _
  | crashRegistrar n => exact ctel_applyAll (w := w) h _
  | crashCredentialer n => exact ctel_applyAll (w := w) h _
  | _ => exact h

theorem ccrd_apply {w : World} {d : Dig} {c : Cred} (h : w.ccrd d = some c) (x : Wr) : (w.apply x).ccrd d = some c := by
  cases x with
  | ccrdPut e c' =>
    simp only [World.apply]
    split
    · rename_i hn
      simp only [upd]; split
      · rename_i hh; subst hh; rw [h] at hn; cases hn
      · exact h
    · exact h
  | ctelPut k e => simp only [World.apply]; split <;> exact h
  | _ => exact h

theorem ccrd_applyAll {w : World} {d : Dig} {c : Cred} (h : w.ccrd d = some c) (ws : List Wr) : (w.applyAll ws).ccrd d = some c := by
  induction ws generalizing w with
  | nil => exact h
  | cons x ws ih => exact ih (ccrd_apply h x)

theorem ccrd_step {w : World} {d : Dig} {c : Cred} (h : w.ccrd d = some c) (i : Inp) : (w.step env i).ccrd d = some c := by
  cases i with
  | ask a => exact ccrd_applyAll h _
  | registrar => exact ccrd_applyAll h _
  | counseled p n d => simp only [World.step]; split <;> exact h
  | published => simp only [World.step, publish]; split <;> (try split) <;> exact h
  | credentialer => exact ccrd_applyAll h _
  | crashAsk a n => exact ccrd_applyAll (w := w) h _
  | crashRegistrar n => exact ccrd_applyAll (w := w) h _
  | crashCredentialer n => exact ccrd_applyAll (w := w) h _
  | _ => exact h

/-! ## Credentials -/

/-- **C157.** A credential reported as issued was accepted by the verifier: it is saved, fits its schema, its edges lead to saved credentials as they demand; some event of its log was
entered as complete, and that event is sealed by the controller of its registry. -/
theorem c157_issued (hnk : NoColl U) (hnt : NoCollT V) (hnc : NoCollC W) {w : World} (h : Reached env U V W w) {d : Dig} (hc : credComplete w d = true) :
    ∃ c, w.ccrd d = some c ∧ c.said = d ∧ Saved w.v.s c ∧ (∃ r, Registered env.tel w.v.t.node w.v.t.reg c.regid r) ∧ env.fits c.schema c = true ∧
      (∃ es, c.edges = some es ∧ ∀ e ∈ es, ∃ far, e.n = some far.said ∧ Saved w.v.s far ∧ Allowed c far e.ops) ∧
      ∃ sn e k v, (w.ctel d sn).isSome = true ∧ InLog w.v.t.reg d sn e ∧ e.regk = some k ∧ Registered env.tel w.v.t.node w.v.t.reg k v ∧
        Sealed env.tel w.v.t.node v.issuer e := by
  have hi := h.inv hnk hnt hnc
  obtain ⟨c, hcc⟩ := Option.isSome_iff_exists.1 hc
  obtain ⟨h1, ⟨a, ha⟩, h3, sn, h4⟩ := hi.ccrd d c hcc
  obtain ⟨d', hd'⟩ := Option.isSome_iff_exists.1 h4
  obtain ⟨dig, hdig⟩ := hi.ctel d sn d' hd'
  obtain ⟨e, k, v, g1, _, _, _, g5, g6, g7⟩ := inLog_of hi.v.tel hdig
  obtain ⟨l, l', hl⟩ := List.append_of_mem h3
  obtain ⟨x, hx, hb⟩ := hi.v.based l d l' hl
  obtain ⟨k1, b, _, k2⟩ := hi.v.store.creds d x hx
  have : x = c := hnc x c b a k2 ha (by rw [k1, h1])
  subst this
  refine ⟨x, hcc, h1, ⟨by rw [h1]; exact h3, by rw [h1]; exact hx⟩, hb.reg, hb.fits, ?_, sn, e, k, v, h4, g1, g5, g6, g7⟩
  obtain ⟨es, e1, e2⟩ := hb.edges
  refine ⟨es, e1, fun y hy => ?_⟩
  obtain ⟨far, f1, f2, f3, f4, _⟩ := e2 y hy
  exact ⟨far, f1, ⟨by rw [hl]; exact List.mem_append_left _ f2, f3⟩, f4⟩

/-- **C157, for good.** Whatever happens afterwards, including stops at any point, a credential reported as issued stays so, and with the same contents. -/
theorem c157_kept {G : World → Inp → Prop} {w w' : World} (h : Hist env G w w') {d : Dig} {c : Cred} (hc : w.ccrd d = some c) :
    w'.ccrd d = some c ∧ credComplete w' d = true := by
  have : w'.ccrd d = some c := by
    induction h with
    | nil => exact hc
    | step i _ _ ih => exact ccrd_step ih i
  exact ⟨this, by rw [credComplete, this]; rfl⟩

end Verif.Iss
