import Verif.Rpy.PropsBada

/-! # C43: accepted replies only move forward (transferable identifiers) -/

namespace Verif.Rpy

open Verif.Kel (Id Dig Sig ioPut oset mem_ioPut mem_oset nodup_oset)
open Verif.Thold (Thold)

/-- Order of two replies for the same data: later establishment event, or the same and a later date-time. -/
def Later (G : Rpy → Nat × Dig) (a b : Rpy) : Prop := (G a).1 < (G b).1 ∨ ((G a).1 = (G b).1 ∧ a.dt < b.dt)

theorem Later.trans {G : Rpy → Nat × Dig} {a b c : Rpy} (h : Later G a b) (k : Later G b c) : Later G a c := by
  unfold Later at *; omega

/-- What is fixed in a history for the data at `s`: replies, the establishment event each is endorsed under, and the log of the source. -/
structure Ctx where
  U : Rpy → Prop
  s : Slot
  G : Rpy → Nat × Dig
  L : Nat → Option Est

/-- The log a step sees is part of the fixed one. -/
def Ctx.Sees (x : Ctx) (v : View) : Prop := ∀ sn e, v.log x.s.2.1 sn = some e → x.L sn = some e

/-- Some signature that verifies under the event's keys. -/
structure Good (env : Env) (x : Ctx) (r : Rpy) (ss : List Sig) : Prop where
  ev : ∃ e, x.L (x.G r).1 = some e ∧ e.said = (x.G r).2 ∧ e.keys ≠ [] ∧ Thold.size e.kt ≤ e.keys.length ∧
    ∃ s ∈ ss, ∃ k, e.keys[s.index]? = some k ∧ env.verify k s.raw r = true

theorem Good.mono {env : Env} {x : Ctx} {r : Rpy} {ss tt : List Sig} (h : Good env x r ss) (k : ∀ s ∈ ss, s ∈ tt) : Good env x r tt := by
  obtain ⟨e, a, b, c, d, s, m, f⟩ := h.ev
  exact ⟨e, a, b, c, d, s, k s m, f⟩

/-- The artifacts of the current reply. -/
structure Cur (env : Env) (x : Ctx) (db : Db) (r : Rpy) : Prop where
  sdts : db.sdts r.said = some r.dt
  rpys : db.rpys r.said = some r
  tsgs : ∃ ss, db.tsgs r.said = [(x.G r, ss)] ∧ Good env x r ss

/-- Groups stored for a reply are of its event. -/
def Shape (x : Ctx) (db : Db) (r : Rpy) : Prop := db.tsgs r.said = [] ∨ ∃ ss, db.tsgs r.said = [(x.G r, ss)]

theorem Cur.shape {env : Env} {x : Ctx} {db : Db} {r : Rpy} (h : Cur env x db r) : Shape x db r := by
  obtain ⟨ss, e, _⟩ := h.tsgs; exact .inr ⟨ss, e⟩

theorem Cur.keep {env : Env} {x : Ctx} {a b : Db} {r : Rpy} (h : Cur env x a r) (k : Keep r.said a b) : Cur env x b r := by
  obtain ⟨ss, e, g⟩ := h.tsgs
  exact ⟨k.sdts.trans h.sdts, k.rpys.trans h.rpys, ss, k.tsgs.trans e, g⟩

theorem Shape.keep {x : Ctx} {a b : Db} {r : Rpy} (h : Shape x a r) (k : Keep r.said a b) : Shape x b r := by
  unfold Shape; rw [k.tsgs]; exact h

theorem con_rpys_put (U : Rpy → Prop) (hU : Universe U) (db : Db) (c : Con U db) (r : Rpy) (hr : U r) : (db.putReply r).rpys r.said = some r := by
  simp only [Db.putReply, upd_same]
  cases h : db.rpys r.said with
  | none => rfl
  | some t =>
    obtain ⟨a, b⟩ := c.rpys _ _ h
    rw [hU.inj t r a hr b]; rfl

/-- Storing a group of the event of the reply. -/
theorem put_shape (x : Ctx) (db : Db) (r : Rpy) (ss : List Sig) (h : Shape x db r) :
    ∃ tt, putGroup (x.G r) ss (db.tsgs r.said) = [(x.G r, tt)] ∧ (∀ s ∈ ss, s ∈ tt) ∧ ∀ s ∈ db.groupSigs r.said (x.G r), s ∈ tt := by
  rcases h with h | ⟨t, h⟩
  · exact ⟨oset ss, by rw [h]; rfl, fun s m => (mem_oset _ _).2 m, by simp [Db.groupSigs, h]⟩
  · refine ⟨ioPut t ss, by rw [h]; simp [putGroup], fun s m => (mem_ioPut _ _ _).2 (.inr m), fun s m => ?_⟩
    simp [Db.groupSigs, h] at m
    exact (mem_ioPut _ _ _).2 (.inl m)

theorem escrow_shape (x : Ctx) (db : Db) (r : Rpy) (g : Group) (ss : List Sig) (hg : (g.sn, g.dig) = x.G r) (h : Shape x db r) :
    Shape x (db.escrowReply r g ss) r := by
  unfold Db.escrowReply
  split
  · exact h
  · obtain ⟨tt, e, _⟩ := put_shape x db r ss h
    exact .inr ⟨tt, by simp only [upd_same, hg, e]⟩

theorem escrow_cur (env : Env) (x : Ctx) (hU : Universe x.U) (db : Db) (c : Con x.U db) (r : Rpy) (hr : x.U r) (g : Group) (ss : List Sig)
    (hg : (g.sn, g.dig) = x.G r) (h : Cur env x db r) : Cur env x (db.escrowReply r g ss) r := by
  unfold Db.escrowReply
  split
  · exact h
  · obtain ⟨tt, e, _, m⟩ := put_shape x db r ss h.shape
    obtain ⟨t, e2, gd⟩ := h.tsgs
    refine ⟨con_sdts_put _ hU _ c _ hr, con_rpys_put _ hU _ c _ hr, tt, by simp only [upd_same, hg, e], gd.mono fun s ms => m s ?_⟩
    simpa [Db.groupSigs, e2] using ms

theorem update_cur (env : Env) (x : Ctx) (hU : Universe x.U) (db : Db) (c : Con x.U db) (r : Rpy) (hr : x.U r) (g : Group) (ss : List Sig)
    (hg : (g.sn, g.dig) = x.G r) (h : Shape x db r) (hne : ss ≠ []) (gd : Good env x r ss) : Cur env x (db.updateTsg r g ss) r := by
  unfold Db.updateTsg
  rw [if_neg hne]
  obtain ⟨tt, e, m, _⟩ := put_shape x db r ss h
  exact ⟨con_sdts_put _ hU _ c _ hr, con_rpys_put _ hU _ c _ hr, tt, by simp only [upd_same, hg, e], gd.mono m⟩

theorem cur_trim {env : Env} {x : Ctx} {db : Db} {r : Rpy} (h : Cur env x db r) (g : Group) (hg : (g.sn, g.dig) = x.G r) : trimRaises db r g = false := by
  obtain ⟨ss, e, _⟩ := h.tsgs
  have e1 : (x.G r).1 = g.sn := by rw [← hg]
  have e2 : (x.G r).2 = g.dig := by rw [← hg]
  simp [trimRaises, e, e1, e2]

/-- What a full group stores is good. -/
theorem full_good (env : Env) (x : Ctx) (r : Rpy) (hrs : r.slot = x.s) (v : View) (hv : x.Sees v) (g : Group) (hp : g.pre = r.aid)
    (hg : (g.sn, g.dig) = x.G r) (est : Est) (hl : v.log g.pre g.sn = some est) (hsd : est.said = g.dig) (hk : est.keys ≠ [])
    (hsz : Thold.size est.kt ≤ est.keys.length) (tt ss : List Sig) (hss : ss = verifySigs env r tt est.keys) (hne : ss ≠ []) : Good env x r ss := by
  have e1 : (x.G r).1 = g.sn := by rw [← hg]
  have e2 : (x.G r).2 = g.dig := by rw [← hg]
  have ea : x.s.2.1 = r.aid := by rw [← hrs]; rfl
  obtain ⟨s, m⟩ := List.exists_mem_of_ne_nil _ hne
  refine ⟨est, ?_, hsd.trans e2.symm, hk, hsz, s, m, ?_⟩
  · rw [e1]; exact hv _ _ (by rw [ea, ← hp]; exact hl)
  · rw [hss] at m; exact (((verifySigs_spec ..).2 s).1 m).2

/-- A group of the current reply never raises and keeps it current, if the old reply is another one. -/
theorem loop_current (env : Env) (x : Ctx) (hU : Universe x.U) (cfg : Cfg) (v : View) (hv : x.Sees v) (r : Rpy) (hr : x.U r) (hrs : r.slot = x.s)
    (os : Option Dig) (hos : os ≠ some r.said) (od : Option Nat) (gs : List Group) (hgs : ∀ g ∈ gs, g.pre = r.aid → (g.sn, g.dig) = x.G r)
    (db : Db) (c : Con x.U db) (acc : Bool) (h : Cur env x db r) :
    Cur env x (tsgLoop cfg env v r os od gs db acc).1 r ∧ ∃ b, (tsgLoop cfg env v r os od gs db acc).2 = .ok b ∧ (acc = true → b = true) := by
  induction gs generalizing db acc with
  | nil => exact ⟨h, acc, rfl, id⟩
  | cons g gs ih =>
    have ih' := fun db1 c1 acc1 => ih (fun g m => hgs g (List.mem_cons_of_mem _ m)) db1 c1 acc1
    have hg := hgs g List.mem_cons_self
    have k := tsgStep_out cfg env v r os od db g
    unfold tsgLoop
    generalize tsgStep cfg env v r os od db g = y at k
    have fin : ∀ (db1 : Db) (b : Bool), Con x.U db1 → Cur env x db1 r →
        Cur env x (tsgLoop cfg env v r os od gs db1 (acc || b)).1 r ∧
          ∃ b', (tsgLoop cfg env v r os od gs db1 (acc || b)).2 = .ok b' ∧ (acc = true → b' = true) := by
      intro db1 b c1 h1
      obtain ⟨p, b', q, w⟩ := ih' db1 c1 (acc || b) h1
      exact ⟨p, b', q, fun e => w (by simp [e])⟩
    cases k with
    | skip => exact fin _ _ c h
    | wait hp => exact fin _ _ (con_escrow _ _ _ _ _ hr c) (escrow_cur env x hU db c r hr g _ (hg hp) h)
    | bad est hp _ hl hbad =>
      exfalso
      obtain ⟨ss, es, gd⟩ := h.tsgs
      obtain ⟨e, e1, e2, e3, e4, s, m, k, k1, k2⟩ := gd.ev
      have ea : x.s.2.1 = r.aid := by rw [← hrs]; rfl
      have hl' := hv g.sn est (by rw [ea, ← hp]; exact hl)
      have eg1 : (x.G r).1 = g.sn := by rw [← hg hp]
      have eg2 : (x.G r).2 = g.dig := by rw [← hg hp]
      rw [eg1, hl', Option.some.injEq] at e1
      subst e1
      have hnil := hbad (e2.trans eg2) e3 e4
      have : s ∈ verifySigs env r (g.sigs ++ db.groupSigs r.said (g.sn, g.dig)) est.keys := by
        refine ((verifySigs_spec ..).2 s).2 ⟨List.mem_append.2 (.inr ?_), k, k1, k2⟩
        rw [hg hp]; simpa [Db.groupSigs, es] using m
      rw [hnil] at this
      exact absurd this (by simp)
    | part est hp => exact fin _ _ (con_escrow _ _ _ _ _ hr c) (escrow_cur env x hU db c r hr g _ (hg hp) h)
    | full est ss res hp _ _ hl hsd hk hsz hss hne _ hres =>
      have k1 := update_cur env x hU db c r hr g ss (hg hp) h.shape hne (full_good env x r hrs v hv g hp (hg hp) est hl hsd hk hsz _ ss hss hne)
      have k2 := k1.keep (keep_remove _ os r.said hos)
      rw [cur_trim k2 g (hg hp)] at hres
      subst hres
      exact fin _ _ (con_remove _ _ _ (con_update _ _ _ _ _ hr c)) k2

/-- The groups of another reply for the same data, given the current one (if any). -/
theorem loop_next (env : Env) (x : Ctx) (hU : Universe x.U) (cfg : Cfg) (v : View) (hv : x.Sees v) (r : Rpy) (hr : x.U r) (hrs : r.slot = x.s)
    (o : Option Rpy) (ho : ∀ q ∈ o, x.U q ∧ q.said ≠ r.said) (gs : List Group) (hgs : ∀ g ∈ gs, g.pre = r.aid → (g.sn, g.dig) = x.G r)
    (db : Db) (c : Con x.U db) (hsh : Shape x db r) (h : ∀ q ∈ o, Cur env x db q) :
    let out := tsgLoop cfg env v r (o.map (·.said)) (o.map (·.dt)) gs db false
    (out.2 = .ok true ∧ Cur env x out.1 r ∧ ∀ q ∈ o, Later x.G q r) ∨
    (out.2 ≠ .ok true ∧ (∀ q ∈ o, Cur env x out.1 q) ∧ Shape x out.1 r) := by
  induction gs generalizing db with
  | nil => exact .inr ⟨by simp [tsgLoop], h, hsh⟩
  | cons g gs ih =>
    have hgs' : ∀ g ∈ gs, g.pre = r.aid → (g.sn, g.dig) = x.G r := fun g m => hgs g (List.mem_cons_of_mem _ m)
    have ih' := fun db1 c1 => ih hgs' db1 c1
    have hg := hgs g List.mem_cons_self
    have k := tsgStep_out cfg env v r (o.map (·.said)) (o.map (·.dt)) db g
    unfold tsgLoop
    dsimp only
    generalize tsgStep cfg env v r (o.map (·.said)) (o.map (·.dt)) db g = y at k
    have hold : ∀ ss, ∀ q ∈ o, Cur env x (db.escrowReply r g ss) q := fun ss q m => (h q m).keep (keep_escrow _ _ _ _ _ (ho q m).2)
    cases k with
    | skip => exact ih' _ c hsh h
    | wait hp => exact ih' _ (con_escrow _ _ _ _ _ hr c) (escrow_shape _ _ _ _ _ (hg hp) hsh) (hold _)
    | bad => exact .inr ⟨by simp, h, hsh⟩
    | part est hp => exact ih' _ (con_escrow _ _ _ _ _ hr c) (escrow_shape _ _ _ _ _ (hg hp) hsh) (hold _)
    | full est ss res hp _ hst hl hsd hk hsz hss hne _ hres =>
      have hos : o.map (·.said) ≠ some r.said := by
        cases o with
        | none => simp
        | some q => simpa using (ho q rfl).2
      have k1 := update_cur env x hU db c r hr g ss (hg hp) hsh hne (full_good env x r hrs v hv g hp (hg hp) est hl hsd hk hsz _ ss hss hne)
      have k2 := k1.keep (keep_remove _ (o.map (·.said)) r.said hos)
      rw [cur_trim k2 g (hg hp)] at hres
      subst hres
      obtain ⟨p, b, q, w⟩ := loop_current env x hU cfg v hv r hr hrs (o.map (·.said)) hos (o.map (·.dt)) gs hgs' _
        (con_remove _ _ _ (con_update _ _ _ _ _ hr c)) true k2
      refine .inl ⟨q.trans (by rw [w rfl]), p, fun q' m => ?_⟩
      cases o with
      | none => simp at m
      | some q0 =>
        simp only [Option.mem_def, Option.some.injEq] at m
        subst m
        obtain ⟨tt, e, _⟩ := (h q0 rfl).tsgs
        have e1 : (x.G r).1 = g.sn := by rw [← hg hp]
        simp only [staleTsg, Option.map_some, e, Bool.or_eq_false_iff, decide_eq_false_iff_not, Bool.and_eq_false_iff] at hst
        have a1 : ¬ g.sn < (x.G q0).1 := hst.1
        have a2 : ¬ g.sn = (x.G q0).1 ∨ ¬ r.dt ≤ q0.dt := hst.2
        unfold Later
        rw [e1]
        omega

/-- All groups of a reply that is its own old reply are stale. -/
theorem loop_self (env : Env) (x : Ctx) (cfg : Cfg) (v : View) (r : Rpy) (gs : List Group)
    (hgs : ∀ g ∈ gs, g.pre = r.aid → (g.sn, g.dig) = x.G r) (db : Db) (h : Cur env x db r) :
    tsgLoop cfg env v r (some r.said) (some r.dt) gs db false = (db, .ok false) := by
  induction gs with
  | nil => rfl
  | cons g gs ih =>
    have hst : g.pre = r.aid → staleTsg db (some r.said) (some r.dt) r g = true := by
      intro hp
      obtain ⟨tt, e, _⟩ := h.tsgs
      have e1 : (x.G r).1 = g.sn := by rw [← hgs g List.mem_cons_self hp]
      simp [staleTsg, e, e1]
    have : tsgStep cfg env v r (some r.said) (some r.dt) db g = (db, .ok false) := by
      have k := tsgStep_out cfg env v r (some r.said) (some r.dt) db g
      generalize tsgStep cfg env v r (some r.said) (some r.dt) db g = y at k ⊢
      cases k with
      | skip => rfl
      | wait hp f => rw [hst hp] at f; exact absurd f (by simp)
      | bad _ hp f => rw [hst hp] at f; exact absurd f (by simp)
      | part _ hp f => rw [hst hp] at f; exact absurd f (by simp)
      | full _ _ _ hp _ f => rw [hst hp] at f; exact absurd f (by simp)
    simp only [tsgLoop, this, Bool.or_false]
    exact ih fun g m => hgs g (List.mem_cons_of_mem _ m)

/-- Invariant for the data at `s`, with the replies accepted for it so far. -/
structure GInv (env : Env) (x : Ctx) (db : Db) (l : List Rpy) : Prop where
  con : Con x.U db
  shape : ∀ r, x.U r → r.slot = x.s → Shape x db r
  cur : (l = [] ∧ db.ans x.s = none) ∨ ∃ r, x.U r ∧ r.slot = x.s ∧ db.ans x.s = some r.said ∧ Cur env x db r ∧ ∀ a ∈ l, Later x.G a r ∨ a = r
  pw : l.Pairwise fun a b => Later x.G a b ∨ (a = b ∧ a.kind = .endRole)

theorem keep_drop (db : Db) (f : Route → List Dig) (d : Dig) : Keep d db { db with rpes := f } := ⟨rfl, rfl, rfl⟩

theorem ginv_other (env : Env) (x : Ctx) (hU : Universe x.U) (cfg : Cfg) (v : View) (db : Db) (r : Rpy) (hr : x.U r)
    (cigs : List (Id × Nat)) (tsgs : List Group) (hs : r.slot ≠ x.s) (l : List Rpy) (h : GInv env x db l) :
    GInv env x (processReply cfg env v db r cigs tsgs).1 l := by
  have kp : ∀ q, x.U q → q.slot = x.s → Keep q.said db (processReply cfg env v db r cigs tsgs).1 := by
    intro q hq qs
    have ne : r.slot ≠ q.slot := fun e => hs (e.trans qs)
    exact processReply_keep cfg env v db r cigs tsgs q.said (fun e => ne (congrArg Rpy.slot (hU.inj q r hq hr e)).symm)
      (oldSaid_ne x.U hU db h.con r q hq ne)
  have ha := processReply_ans_ne cfg env v db r cigs tsgs x.s (Ne.symm hs)
  refine ⟨con_process _ _ _ _ _ _ hr _ _ h.con, fun q hq qs => (h.shape q hq qs).keep (kp q hq qs), ?_, h.pw⟩
  rcases h.cur with ⟨a, b⟩ | ⟨q, hq, qs, qa, qc, ql⟩
  · exact .inl ⟨a, ha.trans b⟩
  · exact .inr ⟨q, hq, qs, ha.trans qa, qc.keep (kp q hq qs), ql⟩

/-- Removing artifacts that are not those of the current reply. -/
theorem ginv_remove (env : Env) (x : Ctx) (db : Db) (d : Dig) (f : Route → List Dig) (l : List Rpy)
    (hd : ∀ q, x.U q → q.slot = x.s → db.ans x.s = some q.said → Cur env x db q → q.said ≠ d)
    (hf : Con x.U { db with rpes := f }) (h : GInv env x db l) : GInv env x (({ db with rpes := f } : Db).removeReply (some d)) l := by
  refine ⟨con_remove _ _ _ hf, fun q hq qs => ?_, ?_, h.pw⟩
  · by_cases e : q.said = d
    · exact .inl (by simp [Db.removeReply, e])
    · exact ((h.shape q hq qs).keep (keep_drop db f _)).keep (keep_remove _ _ _ (by simpa using Ne.symm e))
  · rcases h.cur with a | ⟨q, hq, qs, qa, qc, ql⟩
    · exact .inl a
    · exact .inr ⟨q, hq, qs, qa, (qc.keep (keep_drop db f _)).keep (keep_remove _ _ _ (by simpa using Ne.symm (hd q hq qs qa qc))), ql⟩

theorem ginv_drop (env : Env) (x : Ctx) (db : Db) (f : Route → List Dig) (l : List Rpy) (hf : Con x.U { db with rpes := f }) (h : GInv env x db l) :
    GInv env x { db with rpes := f } l := by
  refine ⟨hf, fun q hq qs => (h.shape q hq qs).keep (keep_drop db f _), ?_, h.pw⟩
  rcases h.cur with a | ⟨q, hq, qs, qa, qc, ql⟩
  · exact .inl a
  · exact .inr ⟨q, hq, qs, qa, qc.keep (keep_drop db f _), ql⟩

theorem find_none (cfg : Cfg) (env : Env) (r : Rpy) (ht : env.transferable r.aid = true) (od : Option Nat) (cigs : List (Id × Nat)) :
    cigs.find? (cigOk cfg env r od) = none := by
  rw [List.find?_eq_none]
  intro c _ h
  simp only [cigOk, Bool.and_eq_true, Bool.not_eq_true', decide_eq_true_eq] at h
  obtain ⟨⟨⟨⟨p1, _⟩, p3⟩, _⟩, _⟩ := h
  rw [← p3, ht] at p1
  exact absurd p1 (by simp)

/-- Processing of a reply for the data at `s`. Besides, refusing the current reply leaves it waiting at most. -/
theorem ginv_own (env : Env) (x : Ctx) (hU : Universe x.U) (hs : x.s.1 ≠ .ksn) (ht : env.transferable x.s.2.1 = true) (cfg : Cfg) (v : View)
    (hv : x.Sees v) (db : Db) (r : Rpy) (hr : x.U r) (cigs : List (Id × Nat)) (tsgs : List Group) (hrs : r.slot = x.s)
    (hgs : ∀ g ∈ tsgs, g.pre = r.aid → (g.sn, g.dig) = x.G r) (l : List Rpy) (h : GInv env x db l) :
    GInv env x (processReply cfg env v db r cigs tsgs).1
      (l ++ (match (processReply cfg env v db r cigs tsgs).2 with | .ok () => [r] | .error _ => [])) ∧
    ((∃ e, (processReply cfg env v db r cigs tsgs).2 = .error e ∧ e ≠ .unverified) →
      ∀ q, x.U q → q.slot = x.s → (processReply cfg env v db r cigs tsgs).1.ans x.s = some q.said → q.said ≠ r.said) := by
  have hk : r.kind ≠ .ksn := by rw [← hrs] at hs; exact hs
  have hta : env.transferable r.aid = true := by rw [← hrs] at ht; exact ht
  have hcon := con_process x.U cfg env v db r hr cigs tsgs h.con
  have hacc : acceptReply cfg env v db r (db.oldSaid r) cigs tsgs =
      tsgLoop cfg env v r (db.oldSaid r) ((db.oldSaid r).bind db.sdts) tsgs db false := by
    unfold acceptReply; simp only [find_none cfg env r hta]
  -- artifacts of other replies for the data: kept, or removed as the old ones
  have oth : ∀ q, x.U q → q.slot = x.s → q.said ≠ r.said → Shape x (processReply cfg env v db r cigs tsgs).1 q := by
    intro q hq qs ne
    by_cases e : db.oldSaid r = some q.said
    · -- shape of the old reply along the loop
      have gen : ∀ (gs : List Group) (db1 : Db) (acc : Bool) (od : Option Nat), Shape x db1 q →
          Shape x (tsgLoop cfg env v r (some q.said) od gs db1 acc).1 q := by
        intro gs
        induction gs with
        | nil => intro db1 acc od hq1; exact hq1
        | cons g gs ih =>
          intro db1 acc od hq1
          have k := tsgStep_out cfg env v r (some q.said) od db1 g
          unfold tsgLoop
          generalize tsgStep cfg env v r (some q.said) od db1 g = y at k
          cases k with
          | skip => exact ih _ _ _ hq1
          | wait => exact ih _ _ _ (hq1.keep (keep_escrow _ _ _ _ _ ne))
          | bad => exact hq1
          | part => exact ih _ _ _ (hq1.keep (keep_escrow _ _ _ _ _ ne))
          | full est ss res =>
            have e0 : Shape x ((db1.updateTsg r g ss).removeReply (some q.said)) q := .inl (by simp [Db.removeReply])
            cases res with
            | error _ => exact e0
            | ok b => exact ih _ _ _ e0
      have k := gen tsgs db false ((db.oldSaid r).bind db.sdts) (h.shape q hq qs)
      rw [← e, ← hacc] at k
      rcases processReply_cases cfg env v db r cigs tsgs with ⟨e, he, _⟩ | ⟨db1, e, he, ha, _⟩ | ⟨db1, he, ha⟩
      · rw [he]; exact h.shape q hq qs
      · rw [he]; rw [ha] at k; exact k
      · rw [he]; rw [ha] at k; exact k.keep (keep_record _ _ _)
    · exact (h.shape q hq qs).keep (processReply_keep cfg env v db r cigs tsgs q.said ne e)
  have mkShape : Shape x (processReply cfg env v db r cigs tsgs).1 r →
      ∀ q, x.U q → q.slot = x.s → Shape x (processReply cfg env v db r cigs tsgs).1 q := by
    intro hsr q hq qs
    by_cases e : q.said = r.said
    · rw [hU.inj q r hq hr e]; exact hsr
    · exact oth q hq qs e
  -- the three situations of the old reply
  have sit : (∃ o : Option Rpy, db.oldSaid r = o.map (·.said) ∧ (db.oldSaid r).bind db.sdts = o.map (·.dt) ∧
        (∀ q ∈ o, x.U q ∧ q.said ≠ r.said) ∧ (∀ q ∈ o, Cur env x db q ∧ q.slot = x.s ∧ db.ans x.s = some q.said ∧ ∀ a ∈ l, Later x.G a q ∨ a = q) ∧
        (o = none → l = [] ∧ db.ans x.s = none)) ∨
      (db.ans x.s = some r.said ∧ Cur env x db r ∧ (∀ a ∈ l, Later x.G a r ∨ a = r) ∧
        ((r.kind = .endRole ∧ db.oldSaid r = none) ∨ db.oldSaid r = some r.said)) := by
    rcases h.cur with ⟨hl, hn⟩ | ⟨q, hq, qs, qa, qc, ql⟩
    · refine .inl ⟨none, ?_, ?_, by simp, by simp, fun _ => ⟨hl, hn⟩⟩
      · rcases oldSaid_cases db r with ⟨e, _⟩ | ⟨e, _⟩ <;> rw [e]
        · rfl
        · rw [hrs, hn]; rfl
      · rcases oldSaid_cases db r with ⟨e, _⟩ | ⟨e, _⟩ <;> rw [e]
        · rfl
        · rw [hrs, hn]; rfl
    · by_cases e : q.said = r.said
      · have := hU.inj q r hq hr e
        subst this
        refine .inr ⟨qa, qc, ql, ?_⟩
        rcases oldSaid_cases db q with ⟨e1, e2 | ⟨e2, _⟩⟩ | ⟨e1, _⟩
        · rw [hrs, qa] at e2; exact absurd e2 (by simp)
        · exact .inl ⟨e2, e1⟩
        · rw [hrs, qa] at e1; exact .inr e1
      · have e1 : db.oldSaid r = some q.said := by
          rcases oldSaid_cases db r with ⟨_, e2 | ⟨_, e2⟩⟩ | ⟨e1, _⟩
          · rw [hrs, qa] at e2; exact absurd e2 (by simp)
          · rw [hrs, qa, Option.some.injEq] at e2; exact absurd e2 e
          · rw [hrs, qa] at e1; exact e1
        refine .inl ⟨some q, e1, by rw [e1]; exact qc.sdts, ?_, ?_, by simp⟩
        · intro q' m; simp only [Option.mem_def, Option.some.injEq] at m; subst m; exact ⟨hq, e⟩
        · intro q' m; simp only [Option.mem_def, Option.some.injEq] at m; subst m; exact ⟨qc, qs, qa, ql⟩
  have hcases := processReply_cases cfg env v db r cigs tsgs
  have hsame := acceptReply_same cfg env v db r (db.oldSaid r) cigs tsgs
  rw [hacc] at hcases hsame
  -- recording the reply as accepted
  have accept : ∀ db1 : Db, processReply cfg env v db r cigs tsgs = (db1.record r, .ok ()) → Cur env x db1 r →
      (∀ a ∈ l, Later x.G a r ∨ (a = r ∧ r.kind = .endRole)) →
      GInv env x (processReply cfg env v db r cigs tsgs).1
        (l ++ (match (processReply cfg env v db r cigs tsgs).2 with | .ok () => [r] | .error _ => [])) := by
    intro db1 he hc1 hle
    have hc2 : Cur env x (processReply cfg env v db r cigs tsgs).1 r := by rw [he]; exact hc1.keep (keep_record _ _ _)
    refine ⟨hcon, mkShape hc2.shape, .inr ⟨r, hr, hrs, ?_, hc2, ?_⟩, ?_⟩
    · rw [he, ← hrs]; exact record_ans _ _ hk
    · rw [he]
      intro a m
      rcases List.mem_append.1 m with m | m
      · exact (hle a m).imp id And.left
      · exact .inr (List.mem_singleton.1 m)
    · rw [he]
      refine List.pairwise_append.2 ⟨h.pw, List.pairwise_singleton _ _, fun a ma b mb => ?_⟩
      rw [List.mem_singleton] at mb
      subst mb
      rcases hle a ma with y | ⟨y, z⟩
      · exact .inl y
      · exact .inr ⟨y, y ▸ z⟩
  rcases sit with ⟨o, ho1, ho2, ho3, ho4, ho5⟩ | ⟨ra, rc, rl, hold⟩
  · have k := loop_next env x hU cfg v hv r hr hrs o ho3 tsgs hgs db h.con (h.shape r hr hrs) fun q m => (ho4 q m).1
    rw [← ho1, ← ho2] at k
    dsimp only at k
    rcases hcases with ⟨e, he, _, ek⟩ | ⟨db1, e, he, ha, hres⟩ | ⟨db1, he, ha⟩
    · exact absurd ek hk
    · rcases k with ⟨k1, _⟩ | ⟨_, k2, k3⟩
      · rcases hres hk with y | y
        · rw [k1] at y; exact absurd y (by simp)
        · rw [k1] at y; exact absurd y.1 (by simp)
      · have hans : (processReply cfg env v db r cigs tsgs).1.ans x.s = db.ans x.s := by rw [he, ← ha]; exact congrFun hsame.ans _
        have hdb : (processReply cfg env v db r cigs tsgs).1 = db1 := by rw [he]
        rw [ha] at k2 k3
        refine ⟨⟨hcon, mkShape (by rw [hdb]; exact k3), ?_, by rw [he]; simpa using h.pw⟩, fun _ q hq qs qa => ?_⟩
        · cases o with
          | none =>
            obtain ⟨a, b⟩ := ho5 rfl
            exact .inl ⟨by rw [he]; simpa using a, hans.trans b⟩
          | some q =>
            obtain ⟨_, qs, qa, ql⟩ := ho4 q rfl
            exact .inr ⟨q, (ho3 q rfl).1, qs, hans.trans qa, by rw [hdb]; exact k2 q rfl, by rw [he]; simpa using ql⟩
        · rw [hans] at qa
          cases o with
          | none => rw [(ho5 rfl).2] at qa; exact absurd qa (by simp)
          | some q' =>
            rw [(ho4 q' rfl).2.2.1, Option.some.injEq] at qa
            rw [← qa]; exact (ho3 q' rfl).2
    · rw [ha] at k
      rcases k with ⟨_, k2, k3⟩ | ⟨k1, _⟩
      · refine ⟨accept db1 he k2 fun a m => .inl ?_, fun ⟨e, y, _⟩ => by rw [he] at y; exact absurd y (by simp)⟩
        cases o with
        | none => rw [(ho5 rfl).1] at m; exact absurd m (by simp)
        | some q =>
          rcases (ho4 q rfl).2.2.2 a m with y | y
          · exact y.trans (k3 q rfl)
          · rw [y]; exact k3 q rfl
      · exact absurd rfl k1
  · rcases hold with ⟨hend, hold⟩ | hold
    · have k := loop_current env x hU cfg v hv r hr hrs (db.oldSaid r) (by rw [hold]; simp) ((db.oldSaid r).bind db.sdts) tsgs hgs db h.con false rc
      obtain ⟨k1, b, k2, _⟩ := k
      rcases hcases with ⟨e, he, _, ek⟩ | ⟨db1, e, he, ha, hres⟩ | ⟨db1, he, ha⟩
      · exact absurd ek hk
      · have hans : (processReply cfg env v db r cigs tsgs).1.ans x.s = db.ans x.s := by rw [he, ← ha]; exact congrFun hsame.ans _
        have hdb : (processReply cfg env v db r cigs tsgs).1 = db1 := by rw [he]
        have hun : e = .unverified := by
          rcases hres hk with y | y
          · rw [k2] at y; exact absurd y (by simp)
          · exact y.2
        rw [ha] at k1
        refine ⟨⟨hcon, mkShape (by rw [hdb]; exact k1.shape), .inr ⟨r, hr, hrs, hans.trans ra, by rw [hdb]; exact k1, by rw [he]; simpa using rl⟩,
          by rw [he]; simpa using h.pw⟩, fun ⟨e', y, z⟩ => ?_⟩
        rw [he] at y
        simp only [Except.error.injEq] at y
        exact absurd (y.symm.trans hun) z
      · rw [ha] at k1
        exact ⟨accept db1 he k1 fun a m => (rl a m).imp id fun y => ⟨y, hend⟩, fun ⟨e, y, _⟩ => by rw [he] at y; exact absurd y (by simp)⟩
    · have k := loop_self env x cfg v r tsgs hgs db rc
      have hb : (db.oldSaid r).bind db.sdts = some r.dt := by rw [hold]; exact rc.sdts
      rw [hold] at hcases
      rw [hold] at hb
      rw [hb, k] at hcases
      rcases hcases with ⟨e, he, _, ek⟩ | ⟨db1, e, he, ha, hres⟩ | ⟨db1, he, ha⟩
      · exact absurd ek hk
      · have hun : e = .unverified := by
          rcases hres hk with y | y
          · exact absurd y (by simp)
          · exact y.2
        have hdb : db = db1 := ha
        rw [he, ← hdb]
        refine ⟨by simpa using h, fun ⟨e', y, z⟩ => ?_⟩
        simp only [Except.error.injEq] at y
        exact absurd (y.symm.trans hun) z
      · exact absurd ha (by simp)

theorem ginv_escrowOne (env : Env) (x : Ctx) (hU : Universe x.U) (hs : x.s.1 ≠ .ksn) (ht : env.transferable x.s.2.1 = true) (cfg : Cfg) (v : View)
    (hv : x.Sees v) (late : Rpy → Bool) (hl : ∀ r, r.slot = x.s → late r = false) (rt : Route) (db : Db) (d : Dig) (l : List Rpy) (h : GInv env x db l) :
    GInv env x (escrowOne cfg env v late rt db d).1 (l ++ (escrowOne cfg env v late rt db d).2.toList.filter fun r => decide (r.slot = x.s)) := by
  have miss : (db.rpys d = none ∨ db.sdts d = none ∨ db.tsgs d = []) → ∀ q, x.U q → q.slot = x.s → Cur env x db q → q.said ≠ d := by
    intro m q _ _ qc e
    subst e
    obtain ⟨ss, e1, _⟩ := qc.tsgs
    rcases m with m | m | m
    · rw [qc.rpys] at m; exact absurd m (by simp)
    · rw [qc.sdts] at m; exact absurd m (by simp)
    · rw [e1] at m; exact absurd m (by simp)
  unfold escrowOne
  split
  · rename_i r _ hr _
    obtain ⟨hu, hsd⟩ := h.con.rpys _ _ hr
    split
    · rename_i hm
      simp only [Option.toList_none, List.filter_nil, List.append_nil]
      refine ginv_remove env x db d _ l (fun q hq qs _ qc e => ?_) (con_drop _ _ _ _ h.con) h
      rcases hm with hm | hm
      · exact miss (.inr (.inr hm)) q hq qs qc e
      · have : q = r := hU.inj q r hq hu (e.trans hsd.symm)
        rw [hl r (this ▸ qs)] at hm
        exact absurd hm (by simp)
    · by_cases e : r.slot = x.s
      · have hgs : ∀ g ∈ db.fetchTsgs r, g.pre = r.aid → (g.sn, g.dig) = x.G r := by
          intro g m _
          simp only [Db.fetchTsgs, List.mem_map] at m
          obtain ⟨y, m, rfl⟩ := m
          rcases h.shape r hu e with z | ⟨ss, z⟩
          · rw [z] at m; exact absurd m (by simp)
          · rw [z, List.mem_singleton] at m; subst m; rfl
        have k := ginv_own env x hU hs ht cfg v hv db r hu [] (db.fetchTsgs r) e hgs l h
        split <;> rename_i hp <;> rw [hp] at k
        · simp only [Option.toList_some, List.filter_cons, e, decide_true, if_true, List.filter_nil]
          exact ginv_drop env x _ _ _ (con_drop _ _ _ _ k.1.con) k.1
        · simpa using k.1
        · rename_i ex hex
          simp only [Option.toList_none, List.filter_nil]
          exact ginv_remove env x _ d _ _ (fun q hq qs qa _ => hsd ▸ k.2 ⟨ex, rfl, hex⟩ q hq qs qa) (con_drop _ _ _ _ k.1.con) k.1
      · have k := ginv_other env x hU cfg v db r hu [] (db.fetchTsgs r) e l h
        split <;> rename_i hp <;> rw [hp] at k
        · simp only [Option.toList_some, List.filter_cons, e, decide_false, List.filter_nil]
          simpa using ginv_drop env x _ _ _ (con_drop _ _ _ _ k.con) k
        · simpa using k
        · simp only [Option.toList_none, List.filter_nil, List.append_nil]
          refine ginv_remove env x _ d _ _ (fun q hq qs _ _ e2 => e ?_) (con_drop _ _ _ _ k.con) k
          rw [← hU.inj q r hq hu (e2.trans hsd.symm)]; exact qs
  · rename_i hm
    simp only [Option.toList_none, List.filter_nil, List.append_nil]
    refine ginv_remove env x db d _ l (fun q hq qs _ => miss ?_ q hq qs) (con_drop _ _ _ _ h.con) h
    cases h1 : db.rpys d with
    | none => exact .inl rfl
    | some r =>
      cases h2 : db.sdts d with
      | none => exact .inr (.inl rfl)
      | some t => exact absurd h2 (hm r t h1)

theorem ginv_escrowLoop (env : Env) (x : Ctx) (hU : Universe x.U) (hs : x.s.1 ≠ .ksn) (ht : env.transferable x.s.2.1 = true) (cfg : Cfg) (v : View)
    (hv : x.Sees v) (late : Rpy → Bool) (hl : ∀ r, r.slot = x.s → late r = false) (ents : List (Route × Dig)) (db : Db) (l : List Rpy)
    (h : GInv env x db l) :
    GInv env x (escrowLoop cfg env v late ents db).1 (l ++ (escrowLoop cfg env v late ents db).2.filter fun r => decide (r.slot = x.s)) := by
  induction ents generalizing db l with
  | nil => simpa [escrowLoop] using h
  | cons e ents ih =>
    obtain ⟨rt, d⟩ := e
    have k := ih _ _ (ginv_escrowOne env x hU hs ht cfg v hv late hl rt db d l h)
    simpa [escrowLoop, List.filter_append] using k

/-- Restrictions on a history: its replies are in the universe; replies for the data at `s` carry groups of one establishment event of
their authority (`G`), whose log does not change at a number; passes over the escrow come before replies for that data time out. -/
def GroupStep (x : Ctx) : Step → Prop
  | .deliver v r _ tsgs => x.U r ∧ x.Sees v ∧ (r.slot = x.s → ∀ g ∈ tsgs, g.pre = r.aid → (g.sn, g.dig) = x.G r)
  | .escrows v late _ => x.Sees v ∧ ∀ r, r.slot = x.s → late r = false

theorem ginv_step (env : Env) (x : Ctx) (hU : Universe x.U) (hs : x.s.1 ≠ .ksn) (ht : env.transferable x.s.2.1 = true) (cfg : Cfg) (db : Db) (st : Step)
    (hst : GroupStep x st) (l : List Rpy) (h : GInv env x db l) :
    GInv env x (step cfg env db st).1 (l ++ (step cfg env db st).2.filter fun r => decide (r.slot = x.s)) := by
  cases st with
  | deliver v r cigs tsgs =>
    obtain ⟨hr, hv, hg⟩ := hst
    by_cases e : r.slot = x.s
    · have k := (ginv_own env x hU hs ht cfg v hv db r hr cigs tsgs e (hg e) l h).1
      simp only [step]
      split <;> rename_i hp <;> rw [hp] at k <;> simpa [e] using k
    · have k := ginv_other env x hU cfg v db r hr cigs tsgs e l h
      simp only [step]
      split <;> rename_i hp <;> rw [hp] at k <;> simpa [e] using k
  | escrows v late routes => exact ginv_escrowLoop env x hU hs ht cfg v hst.1 late hst.2 _ db l h

/-- C43 for transferable identifiers. In histories as `GroupStep` says, with any replays, partial endorsements and passes over the
escrow, the replies accepted for one endpoint role, location or watched identifier increase in number of the establishment event, then
in date-time; only the current endpoint role reply may be accepted again.

Missing for the full claim: a reply endorsed under several establishment events (false: `c43_old_keys_lower_bar`,
`c43_clean_up_raises`), replies that time out in escrow (false: `c43_escrow_erases`), key state notices (false:
`c43_notice_goes_back`), notices naming the said of a reply as an event (false: `c43_notice_erases`). -/
theorem c43_groups_partial (x : Ctx) (hU : Universe x.U) (hs : x.s.1 ≠ .ksn) (cfg : Cfg) (env : Env) (ht : env.transferable x.s.2.1 = true)
    (ss : List Step) (hss : ∀ st ∈ ss, GroupStep x st) :
    ((run cfg env .empty ss).2.filter fun r => decide (r.slot = x.s)).Pairwise fun a b =>
      (x.G a).1 < (x.G b).1 ∨ ((x.G a).1 = (x.G b).1 ∧ a.dt < b.dt) ∨ (a = b ∧ a.kind = .endRole) := by
  have gen : ∀ (ss : List Step) (db : Db) (l : List Rpy), (∀ st ∈ ss, GroupStep x st) → GInv env x db l →
      GInv env x (run cfg env db ss).1 (l ++ (run cfg env db ss).2.filter fun r => decide (r.slot = x.s)) := by
    intro ss
    induction ss with
    | nil => intro db l _ h; simpa [run] using h
    | cons st ss ih =>
      intro db l hss h
      have k := ih _ _ (fun x m => hss x (List.mem_cons_of_mem _ m)) (ginv_step env x hU hs ht cfg db st (hss st List.mem_cons_self) l h)
      simpa [run, List.filter_append] using k
  have k := (gen ss .empty [] hss ⟨.empty x.U, fun r _ _ => .inl rfl, .inl ⟨rfl, rfl⟩, .nil⟩).pw
  rw [List.nil_append] at k
  exact k.imp fun h => by
    unfold Later at h
    rcases h with (h | h) | h
    · exact .inl h
    · exact .inr (.inl h)
    · exact .inr (.inr h)

open DemoRpy in
/-- The hypotheses are met: a reply under the first keys, one completed in two parts under the second keys, an old one and a pass. -/
example : ∃ (x : Ctx) (ss : List Step), Universe x.U ∧ x.s = (.loc, 100, 7) ∧ (∀ st ∈ ss, GroupStep x st) ∧
    (run cfg env .empty ss).2.map (fun r => (r.said, r.dt)) = [(1, 10), (2, 5)] := by
  let a := loc 1 10 1
  let b := loc 2 5 0
  refine ⟨⟨fun r => r = a ∨ r = b, (.loc, 100, 7), fun r => if r = a then (0, 900) else (1, 901), view.log 100⟩,
    [.deliver view a [] [g0 1], .deliver view b [] [⟨100, 1, 901, [sg 3 0 2]⟩], .escrows view (fun _ => false) [(.loc, 0)],
     .deliver view b [] [⟨100, 1, 901, [sg 4 1 2]⟩], .deliver view a [] [g0 1], .escrows view (fun _ => false) [(.loc, 0)]],
    ⟨?_, ?_⟩, rfl, ?_, by decide +kernel⟩
  · rintro x y (rfl | rfl) (rfl | rfl) h <;> first | rfl | exact absurd h (by decide)
  · rintro x y (rfl | rfl) _ h <;> exact absurd h (by decide)
  · intro st m
    simp only [List.mem_cons, List.not_mem_nil, or_false] at m
    rcases m with rfl | rfl | rfl | rfl | rfl | rfl <;> simp [GroupStep, Ctx.Sees, g0, a, b, loc]

/-- C42, C43: a reply with enough verifying signatures of its authority's event, later than the current one's first group or with none
current, is accepted and recorded. -/
theorem c43_later_group_accepted (cfg : Cfg) (env : Env) (v : View) (db : Db) (r : Rpy) (g : Group) (est : Est) (hk : r.kind ≠ .ksn)
    (hp : g.pre = r.aid) (ho : r.aid ∉ cfg.own) (hl : v.log r.aid g.sn = some est) (hsd : est.said = g.dig) (hke : est.keys ≠ [])
    (hsz : Thold.size est.kt ≤ est.keys.length) (hnd : g.sigs.Nodup) (hne : g.sigs ≠ [])
    (hver : ∀ s ∈ g.sigs, ∃ k, est.keys[s.index]? = some k ∧ env.verify k s.raw r = true)
    (hsat : Thold.satisfy est.kt (g.sigs.map Sig.index) = true) (hnew : db.tsgs r.said = [])
    (hd : ∀ o, db.ans r.slot = some o → o ≠ r.said ∧ ∀ osn odig oss rest, db.tsgs o = ((osn, odig), oss) :: rest →
      osn < g.sn ∨ (osn = g.sn ∧ ∀ t, db.sdts o = some t → t < r.dt)) :
    (processReply cfg env v db r [] [g]).2 = .ok () ∧ (processReply cfg env v db r [] [g]).1.vals r.slot = some r.val := by
  have hvs : verifySigs env r g.sigs est.keys = g.sigs := by
    unfold verifySigs
    rw [Kel.oset_of_nodup _ hnd]
    refine List.filter_eq_self.2 fun s m => ?_
    obtain ⟨k, k1, k2⟩ := hver s m
    simp [k1, k2]
  have hos : db.oldSaid r ≠ some r.said ∧ staleTsg db (db.oldSaid r) ((db.oldSaid r).bind db.sdts) r g = false := by
    rcases oldSaid_cases db r with ⟨e, _⟩ | ⟨e, _⟩
    · rw [e]; simp [staleTsg]
    · rw [e]
      cases h1 : db.ans r.slot with
      | none => simp [staleTsg]
      | some o =>
        obtain ⟨d1, d2⟩ := hd o h1
        refine ⟨by simpa using d1, ?_⟩
        cases h2 : db.tsgs o with
        | nil => simp [staleTsg, h2]
        | cons y ys =>
          obtain ⟨⟨osn, odig⟩, oss⟩ := y
          have d3 := d2 osn odig oss ys h2
          simp only [staleTsg, h2, Option.bind_some, Bool.or_eq_false_iff, decide_eq_false_iff_not, Bool.and_eq_false_iff]
          cases h3 : db.sdts o with
          | none => simp; omega
          | some t =>
            simp only [h3, Option.some.injEq, forall_eq'] at d3
            simp only [decide_eq_false_iff_not]
            omega
  have hgs : db.groupSigs r.said (g.sn, g.dig) = [] := by simp [Db.groupSigs, hnew]
  have htr : trimRaises ((db.updateTsg r g g.sigs).removeReply (db.oldSaid r)) r g = false := by
    have e1 : ((db.updateTsg r g g.sigs).removeReply (db.oldSaid r)).tsgs r.said = [((g.sn, g.dig), oset g.sigs)] := by
      rw [(keep_remove _ _ _ hos.1).tsgs]
      simp [Db.updateTsg, hne, hnew, putGroup]
    simp [trimRaises, e1]
  have hst : tsgStep cfg env v r (db.oldSaid r) ((db.oldSaid r).bind db.sdts) db g =
      ((db.updateTsg r g g.sigs).removeReply (db.oldSaid r), .ok true) := by
    have hsk : skipOwn cfg r.aid = false := by simp [skipOwn, ho]
    simp only [tsgStep, hp, hsk, hos.2, hl, hsd, hgs, List.append_nil, hvs, hsat, htr, hne, hke]
    simp [Nat.not_lt.2 hsz]
  have hpr : processReply cfg env v db r [] [g] = (((db.updateTsg r g g.sigs).removeReply (db.oldSaid r)).record r, .ok ()) := by
    simp only [processReply, hk, false_and, if_false, acceptReply, List.find?_nil, tsgLoop, hst, Bool.false_or]
  rw [hpr]
  refine ⟨rfl, ?_⟩
  unfold Db.record
  split
  · contradiction
  · simp

open DemoRpy in
/-- Replies that wait for the log of their source, or for more signatures, are accepted by a pass over the escrow once they can be. -/
example : (run cfg env .empty [.deliver { view with log := fun _ _ => none } (loc 1 10 1) [] [g0 1], .escrows view (fun _ => false) [(.loc, 0)]]).2.map
    (·.said) = [1] := by decide +kernel

/-! ## Where accepted replies go back -/

open DemoRpy in
/-- Disagreement with C43: the current endpoint role reply endorsed again under older keys is accepted and lowers the bar, so that the
older keys, no longer in control, can replace what was said under the newer ones. -/
theorem c43_old_keys_lower_bar : ∃ ss : List Step,
    (∀ st ∈ ss, ∃ r gs, st = .deliver view r [] gs ∧ gs.length = 1) ∧
    (run cfg env .empty ss).2.map (·.said) = [1, 1, 2] ∧ (run cfg env .empty (ss.take 1 ++ ss.drop 2)).2.map (·.said) = [1] ∧
    ss.getLast? = some (.deliver view (ends 2 20 0) [] [g0 2]) := by
  refine ⟨[.deliver view (ends 1 10 1) [] [g1 1], .deliver view (ends 1 10 1) [] [g0 1], .deliver view (ends 2 20 0) [] [g0 2]], ?_,
    by decide +kernel, by decide +kernel, rfl⟩
  intro st m
  simp only [List.mem_cons, List.not_mem_nil, or_false] at m
  rcases m with rfl | rfl | rfl <;> exact ⟨_, _, rfl, rfl⟩

open DemoRpy in
/-- Disagreement with C43: when a reply was first endorsed in part under older keys, its acceptance under newer keys raises in the clean
up, after the old record is gone; an older reply is then accepted. -/
theorem c43_clean_up_raises : ∃ ss : List Step,
    (run cfg env .empty ss).2.map (fun r => (r.said, r.dt)) = [(1, 10), (3, 5)] ∧
    (run cfg env .empty (ss.take 1 ++ ss.drop 3)).2.map (fun r => (r.said, r.dt)) = [(1, 10)] ∧
    (processReply cfg env view (run cfg env .empty (ss.take 2)).1 (loc 2 20 0) [] [g1 2]).2 = .error .value := by
  exact ⟨[.deliver view (loc 1 10 1) [] [g0 1], .deliver view (loc 2 20 0) [] [⟨100, 0, 900, [sg 1 0 2]⟩], .deliver view (loc 2 20 0) [] [g1 2],
    .deliver view (loc 3 5 2) [] [g0 3]], by decide +kernel, by decide +kernel, by decide +kernel⟩

open DemoRpy in
/-- Disagreement with C43: a reply that waited in escrow and was then completed by a second delivery stays listed there; when it times out
its artifacts are removed though it is the current one, and an older reply is accepted. -/
theorem c43_escrow_erases : ∃ ss : List Step,
    (run cfg env .empty ss).2.map (fun r => (r.said, r.dt)) = [(1, 10), (2, 5)] := by
  exact ⟨[.deliver view (loc 1 10 1) [] [⟨100, 0, 900, [sg 1 0 1]⟩], .deliver view (loc 1 10 1) [] [⟨100, 0, 900, [sg 2 1 1]⟩],
    .escrows view (fun _ => true) [(.loc, 0)], .deliver view (loc 2 5 2) [] [g0 2]], by decide +kernel⟩

open DemoRpy in
/-- Disagreement with C43: key state notices are not checked against the last one of their source, so an older one is accepted. -/
theorem c43_notice_goes_back : ∃ a b : Rpy, a.slot = b.slot ∧ b.dt < a.dt ∧
    (run cfg env .empty [.deliver view a [] [g0 1], .deliver view b [] [g0 2]]).2 = [a, b] := by
  exact ⟨⟨1, .ksn, 100, 100, 100, 10, 1, 800⟩, ⟨2, .ksn, 100, 100, 100, 5, 2, 801⟩, by decide +kernel⟩

open DemoRpy in
/-- Disagreement with C42 and C43: an identifier can erase the record of another's reply, with two notices of its own, the first of which
names the said of that reply as an event not yet seen. An older reply of the other is then accepted. -/
theorem c43_notice_erases : ∃ ss : List Step,
    (run cfg env .empty ss).2.map (fun r => (r.aid, r.kind, r.dt)) = [(100, .loc, 10), (101, .ksn, 20), (101, .ksn, 20), (100, .loc, 5)] := by
  exact ⟨[.deliver view (loc 1 10 1) [] [g0 1], .deliver view ⟨2, .ksn, 101, 101, 101, 20, 0, 1⟩ [] [⟨101, 0, 902, [sg 5 0 2]⟩],
    .deliver view ⟨3, .ksn, 101, 101, 101, 20, 0, 800⟩ [] [⟨101, 0, 902, [sg 5 0 3]⟩], .deliver view (loc 4 5 2) [] [g0 4]], by decide +kernel⟩

end Verif.Rpy
