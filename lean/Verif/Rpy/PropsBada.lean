import Verif.Rpy.PropsAuth

/-! # C43: accepted replies only move forward (identifiers that are bare keys) -/

namespace Verif.Rpy

open Verif.Kel (Id Dig Sig ioPut oset mem_ioPut mem_oset nodup_oset)
open Verif.Thold (Thold)

/-! ## Who waits in escrow -/

theorem tsgStep_rpes (cfg : Cfg) (env : Env) (v : View) (r : Rpy) (os : Option Dig) (od : Option Nat) (db : Db) (g : Group) (rt : Route) (d : Dig)
    (h : d ∈ (tsgStep cfg env v r os od db g).1.rpes rt) : d ∈ db.rpes rt ∨ (d = r.said ∧ g.pre = r.aid) := by
  have esc : ∀ ss, g.pre = r.aid → d ∈ (db.escrowReply r g ss).rpes rt → d ∈ db.rpes rt ∨ (d = r.said ∧ g.pre = r.aid) := by
    intro ss hp h
    unfold Db.escrowReply at h
    split at h
    · exact .inl h
    · by_cases e : rt = r.route
      · subst e
        simp only [upd_same, mem_ioPut, List.mem_singleton] at h
        exact h.imp id fun x => ⟨x, hp⟩
      · simp only [upd_ne _ _ _ _ e] at h; exact .inl h
  have k := tsgStep_out cfg env v r os od db g
  generalize tsgStep cfg env v r os od db g = x at k h
  cases k with
  | skip => exact .inl h
  | wait hp => exact esc _ hp h
  | bad => exact .inl h
  | part _ hp => exact esc _ hp h
  | full est ss res =>
    refine .inl ?_
    have e1 : ((db.updateTsg r g ss).removeReply os).rpes = db.rpes := by
      unfold Db.removeReply Db.updateTsg
      split <;> split <;> rfl
    rwa [e1] at h

theorem tsgLoop_rpes (cfg : Cfg) (env : Env) (v : View) (r : Rpy) (os : Option Dig) (od : Option Nat) (gs : List Group) (db : Db) (acc : Bool)
    (rt : Route) (d : Dig) (h : d ∈ (tsgLoop cfg env v r os od gs db acc).1.rpes rt) :
    d ∈ db.rpes rt ∨ (d = r.said ∧ ∃ g ∈ gs, g.pre = r.aid) := by
  induction gs generalizing db acc with
  | nil => exact .inl h
  | cons g gs ih =>
    have k := tsgStep_rpes cfg env v r os od db g rt d
    unfold tsgLoop at h
    generalize tsgStep cfg env v r os od db g = x at k h
    have k' : d ∈ x.1.rpes rt → d ∈ db.rpes rt ∨ (d = r.said ∧ ∃ g' ∈ g :: gs, g'.pre = r.aid) := fun m =>
      (k m).imp id fun y => ⟨y.1, g, List.mem_cons_self, y.2⟩
    obtain ⟨db1, _ | b⟩ := x
    · exact k' h
    · rcases ih _ _ h with m | ⟨e, g', m, y⟩
      · exact k' m
      · exact .inr ⟨e, g', List.mem_cons_of_mem _ m, y⟩

theorem processReply_rpes (cfg : Cfg) (env : Env) (v : View) (db : Db) (r : Rpy) (cigs : List (Id × Nat)) (tsgs : List Group) (rt : Route) (d : Dig)
    (h : d ∈ (processReply cfg env v db r cigs tsgs).1.rpes rt) : d ∈ db.rpes rt ∨ (d = r.said ∧ ∃ g ∈ tsgs, g.pre = r.aid) := by
  have acc : d ∈ (acceptReply cfg env v db r (db.oldSaid r) cigs tsgs).1.rpes rt → d ∈ db.rpes rt ∨ (d = r.said ∧ ∃ g ∈ tsgs, g.pre = r.aid) := by
    intro h
    unfold acceptReply at h
    dsimp only at h
    split at h
    · rename_i c _
      rcases tsgLoop_rpes _ _ _ _ _ _ _ _ _ _ _ h with m | m
      · have e1 : ((db.updateCig r c).removeReply (db.oldSaid r)).rpes = db.rpes := by unfold Db.removeReply; split <;> rfl
        rw [e1] at m; exact .inl m
      · exact .inr m
    · exact tsgLoop_rpes _ _ _ _ _ _ _ _ _ _ _ h
  rcases processReply_cases cfg env v db r cigs tsgs with ⟨e, he, _⟩ | ⟨db1, e, he, ha, _⟩ | ⟨db1, he, ha⟩
  · rw [he] at h; exact .inl h
  · rw [he] at h; rw [ha] at acc; exact acc h
  · rw [he] at h; rw [ha] at acc
    have e1 : (db1.record r).rpes = db1.rpes := by unfold Db.record; split <;> rfl
    exact acc (e1 ▸ h)

/-! ## Bare keys -/

theorem tsgLoop_foreign (cfg : Cfg) (env : Env) (v : View) (r : Rpy) (os : Option Dig) (od : Option Nat) (gs : List Group) (db : Db) (acc : Bool)
    (h : ∀ g ∈ gs, g.pre ≠ r.aid) : tsgLoop cfg env v r os od gs db acc = (db, .ok acc) := by
  induction gs generalizing acc with
  | nil => rfl
  | cons g gs ih =>
    have : tsgStep cfg env v r os od db g = (db, .ok false) := by
      have hg := h g List.mem_cons_self
      have k := tsgStep_out cfg env v r os od db g
      generalize tsgStep cfg env v r os od db g = x at k ⊢
      cases k with
      | skip => rfl
      | wait e => exact absurd e hg
      | bad _ e => exact absurd e hg
      | part _ e => exact absurd e hg
      | full _ _ _ e => exact absurd e hg
    simp only [tsgLoop, this, Bool.or_false]
    exact ih acc fun g m => h g (List.mem_cons_of_mem _ m)

/-- Order of two replies for the same data, by date-time. -/
def DtLater (a b : Rpy) : Prop := a.dt < b.dt

/-- Invariant for the data at `s`, with the replies accepted for it so far. -/
structure CInv (U : Rpy → Prop) (s : Slot) (db : Db) (l : List Rpy) : Prop where
  con : Con U db
  wait : ∀ rt d, d ∈ db.rpes rt → ∀ r, U r → r.said = d → r.slot ≠ s
  cur : (l = [] ∧ db.ans s = none) ∨ ∃ r, U r ∧ r.slot = s ∧ db.ans s = some r.said ∧ db.sdts r.said = some r.dt ∧ ∀ a ∈ l, DtLater a r ∨ a = r
  pw : l.Pairwise fun a b => DtLater a b ∨ (a = b ∧ a.kind = .endRole)

/-- Processing of other data. -/
theorem cinv_other (U : Rpy → Prop) (hU : Universe U) (s : Slot) (cfg : Cfg) (env : Env) (v : View) (db : Db) (r : Rpy) (hr : U r)
    (cigs : List (Id × Nat)) (tsgs : List Group) (hs : r.slot ≠ s) (l : List Rpy) (h : CInv U s db l) :
    CInv U s (processReply cfg env v db r cigs tsgs).1 l := by
  refine ⟨con_process _ _ _ _ _ _ hr _ _ h.con, fun rt d m x hx e => ?_, ?_, h.pw⟩
  · rcases processReply_rpes _ _ _ _ _ _ _ _ _ m with m | ⟨m, _⟩
    · exact h.wait rt d m x hx e
    · rw [hU.inj x r hx hr (e.trans m)]; exact hs
  · have ha := processReply_ans_ne cfg env v db r cigs tsgs s (Ne.symm hs)
    rcases h.cur with ⟨a, b⟩ | ⟨x, hx, xs, xa, xd, xl⟩
    · exact .inl ⟨a, ha.trans b⟩
    · have ne : r.slot ≠ x.slot := fun e => hs (e.trans xs)
      have k := processReply_keep cfg env v db r cigs tsgs x.said (fun e => ne (congrArg Rpy.slot (hU.inj x r hx hr e)).symm)
        (oldSaid_ne U hU db h.con r x hx ne)
      exact .inr ⟨x, hx, xs, ha.trans xa, k.sdts.trans xd, xl⟩

theorem removeReply_ans (db : Db) (o : Option Dig) : (db.removeReply o).ans = db.ans := (same_remove db o).ans

theorem cinv_remove (U : Rpy → Prop) (s : Slot) (db : Db) (d : Dig) (rt : Route) (hd : ∀ r, U r → r.said = d → r.slot ≠ s) (l : List Rpy)
    (h : CInv U s db l) :
    CInv U s (({ db with rpes := upd db.rpes rt ((db.rpes rt).filter (fun x => decide (x ≠ d))) } : Db).removeReply (some d)) l := by
  refine ⟨con_remove _ _ _ (con_drop _ _ _ _ h.con), fun rt' x m => ?_, ?_, h.pw⟩
  · have m' : x ∈ upd db.rpes rt ((db.rpes rt).filter (fun x => decide (x ≠ d))) rt' := m
    by_cases e : rt' = rt
    · subst e; simp only [upd_same, List.mem_filter] at m'; exact h.wait _ _ m'.1
    · simp only [upd_ne _ _ _ _ e] at m'; exact h.wait _ _ m'
  · rcases h.cur with a | ⟨x, hx, xs, xa, xd, xl⟩
    · exact .inl a
    · have : x.said ≠ d := fun e => hd x hx e xs
      exact .inr ⟨x, hx, xs, xa, (upd_ne _ _ _ _ this).trans xd, xl⟩

theorem cinv_drop (U : Rpy → Prop) (s : Slot) (db : Db) (d : Dig) (rt : Route) (l : List Rpy) (h : CInv U s db l) :
    CInv U s { db with rpes := upd db.rpes rt ((db.rpes rt).filter (fun x => decide (x ≠ d))) } l := by
  refine ⟨con_drop _ _ _ _ h.con, fun rt' x m => ?_, h.cur, h.pw⟩
  by_cases e : rt' = rt
  · subst e; simp only [upd_same, List.mem_filter] at m; exact h.wait _ _ m.1
  · simp only [upd_ne _ _ _ _ e] at m; exact h.wait _ _ m

theorem cinv_escrowOne (U : Rpy → Prop) (hU : Universe U) (s : Slot) (cfg : Cfg) (env : Env) (v : View) (late : Rpy → Bool) (rt : Route) (db : Db)
    (d : Dig) (hd : ∀ r, U r → r.said = d → r.slot ≠ s) (l : List Rpy) (h : CInv U s db l) :
    CInv U s (escrowOne cfg env v late rt db d).1 l ∧ ∀ r, (escrowOne cfg env v late rt db d).2 = some r → r.slot ≠ s := by
  refine ⟨?_, fun r e => ?_⟩
  · unfold escrowOne
    split
    · rename_i r _ hr _
      obtain ⟨hu, hsd⟩ := h.con.rpys _ _ hr
      split
      · exact cinv_remove _ _ _ _ _ hd _ h
      · have k := cinv_other U hU s cfg env v db r hu [] (db.fetchTsgs r) (hd r hu hsd) l h
        split <;> rename_i hp <;> rw [hp] at k
        · exact cinv_drop _ _ _ _ _ _ k
        · exact k
        · exact cinv_remove _ _ _ _ _ hd _ k
    · exact cinv_remove _ _ _ _ _ hd _ h
  · obtain ⟨hr, _⟩ := escrowOne_out _ _ _ _ _ _ _ _ e
    obtain ⟨hu, hsd⟩ := h.con.rpys _ _ hr
    exact hd r hu hsd

theorem cinv_escrowLoop (U : Rpy → Prop) (hU : Universe U) (s : Slot) (cfg : Cfg) (env : Env) (v : View) (late : Rpy → Bool)
    (ents : List (Route × Dig)) (db : Db) (hd : ∀ x ∈ ents, ∀ r, U r → r.said = x.2 → r.slot ≠ s) (l : List Rpy) (h : CInv U s db l) :
    CInv U s (escrowLoop cfg env v late ents db).1 l ∧ ∀ r ∈ (escrowLoop cfg env v late ents db).2, r.slot ≠ s := by
  induction ents generalizing db with
  | nil => exact ⟨h, by simp [escrowLoop]⟩
  | cons e ents ih =>
    obtain ⟨rt, d⟩ := e
    have k := cinv_escrowOne U hU s cfg env v late rt db d (hd _ List.mem_cons_self) l h
    have k2 := ih _ (fun x m => hd x (List.mem_cons_of_mem _ m)) k.1
    refine ⟨k2.1, fun r m => ?_⟩
    simp only [escrowLoop, List.mem_append, Option.mem_toList] at m
    exact m.elim (k.2 r) (k2.2 r)

theorem oldSaid_cases (db : Db) (r : Rpy) :
    (db.oldSaid r = none ∧ (db.ans r.slot = none ∨ (r.kind = .endRole ∧ db.ans r.slot = some r.said))) ∨
    (db.oldSaid r = db.ans r.slot ∧ (r.kind = .endRole → db.ans r.slot ≠ some r.said)) := by
  unfold Db.oldSaid
  split
  · rename_i e
    split
    · rename_i h; exact .inl ⟨rfl, .inr ⟨e, h⟩⟩
    · rename_i h; exact .inr ⟨rfl, fun _ => h⟩
  · rename_i e; exact .inr ⟨rfl, fun x => absurd x e⟩

theorem con_sdts_put (U : Rpy → Prop) (hU : Universe U) (db : Db) (c : Con U db) (r : Rpy) (hr : U r) : (db.putReply r).sdts r.said = some r.dt := by
  simp only [Db.putReply, upd_same]
  cases h : db.sdts r.said with
  | none => rfl
  | some t =>
    obtain ⟨x, hx, e, e2⟩ := c.sdts _ _ h
    rw [hU.inj x r hx hr e] at e2
    simp [e2]

/-- Processing of a reply for the data at `s` with couples only. -/
theorem cinv_own (U : Rpy → Prop) (hU : Universe U) (s : Slot) (hs : s.1 ≠ .ksn) (cfg : Cfg) (env : Env) (v : View) (db : Db) (r : Rpy) (hr : U r)
    (cigs : List (Id × Nat)) (tsgs : List Group) (hrs : r.slot = s) (hg : ∀ g ∈ tsgs, g.pre ≠ r.aid) (l : List Rpy) (h : CInv U s db l) :
    CInv U s (processReply cfg env v db r cigs tsgs).1
      (l ++ (match (processReply cfg env v db r cigs tsgs).2 with | .ok () => [r] | .error _ => [])) := by
  have hk : r.kind ≠ .ksn := by rw [← hrs] at hs; exact hs
  have hcon := con_process U cfg env v db r hr cigs tsgs h.con
  have hwait : ∀ rt d, d ∈ (processReply cfg env v db r cigs tsgs).1.rpes rt → ∀ x, U x → x.said = d → x.slot ≠ s := by
    intro rt d m
    rcases processReply_rpes _ _ _ _ _ _ _ _ _ m with m | ⟨_, g, gm, ge⟩
    · exact h.wait rt d m
    · exact absurd ge (hg g gm)
  rcases processReply_cases cfg env v db r cigs tsgs with ⟨e, he, _, ek⟩ | ⟨db1, e, he, ha, hres⟩ | ⟨db1, he, ha⟩
  · exact absurd ek hk
  · have hdb : db1 = db := by
      unfold acceptReply at ha hres
      dsimp only at ha hres
      split at ha
      · rename_i c hc
        simp only [hc, tsgLoop_foreign _ _ _ _ _ _ _ _ _ hg] at hres
        rcases hres hk with x | x
        · exact absurd x (by simp)
        · exact absurd x.1 (by simp)
      · rw [tsgLoop_foreign _ _ _ _ _ _ _ _ _ hg] at ha; exact ha.symm
    rw [he, hdb]; simpa using h
  · rw [he] at hcon hwait ⊢
    unfold acceptReply at ha
    dsimp only at ha
    split at ha
    · rename_i c hc
      rw [tsgLoop_foreign _ _ _ _ _ _ _ _ _ hg] at ha
      simp only [Prod.mk.injEq] at ha
      have hp := List.find?_some hc
      simp only [cigOk, Bool.and_eq_true] at hp
      have hdt := hp.1.2
      -- the old reply, if any, is another one and older, or it is this one
      have key : (∀ a ∈ l, DtLater a r ∨ (a = r ∧ r.kind = .endRole)) ∧ db.oldSaid r ≠ some r.said := by
        rcases h.cur with ⟨hl, hn⟩ | ⟨x, hx, xs, xa, xd, xl⟩
        · refine ⟨by simp [hl], ?_⟩
          rcases oldSaid_cases db r with ⟨e, _⟩ | ⟨e, _⟩ <;> rw [e]
          · simp
          · rw [hrs, hn]; simp
        · rcases oldSaid_cases db r with ⟨e, e2⟩ | ⟨e, e2⟩
          · refine ⟨?_, by rw [e]; simp⟩
            rcases e2 with e2 | ⟨e3, e2⟩
            · rw [hrs, xa] at e2; exact absurd e2 (by simp)
            · rw [hrs, xa, Option.some.injEq] at e2
              have := hU.inj x r hx hr e2
              subst this
              exact fun a m => (xl a m).imp id fun y => ⟨y, e3⟩
          · rw [hrs, xa] at e
            rw [e] at hdt
            simp only [Option.bind_some, xd, decide_eq_true_eq] at hdt
            refine ⟨fun a m => .inl ?_, ?_⟩
            · rcases xl a m with y | y
              · exact Nat.lt_trans y hdt
              · rw [y]; exact hdt
            · rw [e]; intro y
              rw [Option.some.injEq] at y
              rw [hU.inj x r hx hr y] at hdt
              exact absurd hdt (Nat.lt_irrefl _)
      refine ⟨hcon, hwait, .inr ⟨r, hr, hrs, ?_, ?_, ?_⟩, ?_⟩
      · rw [← hrs]; exact record_ans _ _ hk
      · rw [(keep_record db1 r r.said).sdts, ← ha.1, (keep_remove _ _ _ key.2).sdts]
        exact con_sdts_put U hU db h.con r hr
      · intro a m
        rcases List.mem_append.1 m with m | m
        · exact (key.1 a m).imp id And.left
        · exact .inr (List.mem_singleton.1 m)
      · refine List.pairwise_append.2 ⟨h.pw, List.pairwise_singleton _ _, fun a ma b mb => ?_⟩
        rw [List.mem_singleton] at mb
        subst mb
        rcases key.1 a ma with y | ⟨y, z⟩
        · exact .inl y
        · exact .inr ⟨y, y ▸ z⟩
    · rw [tsgLoop_foreign _ _ _ _ _ _ _ _ _ hg] at ha
      exact absurd ha (by simp)

/-- Restrictions on a history: its replies are in the universe, and those for the data at `s` come without groups of their authority. -/
def CoupleStep (U : Rpy → Prop) (s : Slot) : Step → Prop
  | .deliver _ r _ tsgs => U r ∧ (r.slot = s → ∀ g ∈ tsgs, g.pre ≠ r.aid)
  | .escrows _ _ _ => True

theorem cinv_step (U : Rpy → Prop) (hU : Universe U) (s : Slot) (hs : s.1 ≠ .ksn) (cfg : Cfg) (env : Env) (db : Db) (st : Step)
    (hst : CoupleStep U s st) (l : List Rpy) (h : CInv U s db l) :
    CInv U s (step cfg env db st).1 (l ++ (step cfg env db st).2.filter fun r => decide (r.slot = s)) := by
  cases st with
  | deliver v r cigs tsgs =>
    by_cases e : r.slot = s
    · have k := cinv_own U hU s hs cfg env v db r hst.1 cigs tsgs e (hst.2 e) l h
      simp only [step]
      split <;> rename_i hp <;> rw [hp] at k <;> simpa [e] using k
    · have k := cinv_other U hU s cfg env v db r hst.1 cigs tsgs e l h
      simp only [step]
      split <;> rename_i hp <;> rw [hp] at k <;> simpa [e] using k
  | escrows v late routes =>
    have k := cinv_escrowLoop U hU s cfg env v late (routes.flatMap fun rt => (db.rpes rt).map fun d => (rt, d)) db (fun x m => by
      simp only [List.mem_flatMap, List.mem_map] at m
      obtain ⟨rt, _, d, m, e⟩ := m
      subst e
      exact h.wait rt d m) l h
    have e : (step cfg env db (.escrows v late routes)).2.filter (fun r => decide (r.slot = s)) = [] :=
      List.filter_eq_nil_iff.2 fun r m => by simpa using k.2 r m
    rw [e, List.append_nil]
    exact k.1

/-- C43 for bare keys. Whatever the history, with any replays and passes over the escrow, the replies accepted for one endpoint role,
location or watched identifier of an identifier that endorses with couples have increasing date-times; only the current endpoint role
reply may be accepted again.

Missing for the full claim: sources that endorse the same data with groups (`c43_groups_partial`) and key state notices
(`c43_notice_goes_back`). -/
theorem c43_couples_partial (U : Rpy → Prop) (hU : Universe U) (s : Slot) (hs : s.1 ≠ .ksn) (cfg : Cfg) (env : Env) (ss : List Step)
    (hss : ∀ st ∈ ss, CoupleStep U s st) :
    ((run cfg env .empty ss).2.filter fun r => decide (r.slot = s)).Pairwise fun a b => a.dt < b.dt ∨ (a = b ∧ a.kind = .endRole) := by
  have gen : ∀ (ss : List Step) (db : Db) (l : List Rpy), (∀ st ∈ ss, CoupleStep U s st) → CInv U s db l →
      CInv U s (run cfg env db ss).1 (l ++ (run cfg env db ss).2.filter fun r => decide (r.slot = s)) := by
    intro ss
    induction ss with
    | nil => intro db l _ h; simpa [run] using h
    | cons st ss ih =>
      intro db l hss h
      have k := ih _ _ (fun x m => hss x (List.mem_cons_of_mem _ m)) (cinv_step U hU s hs cfg env db st (hss st List.mem_cons_self) l h)
      simpa [run, List.filter_append] using k
  simpa [DtLater] using (gen ss .empty [] hss ⟨.empty U, by simp [Db.empty], .inl ⟨rfl, rfl⟩, .nil⟩).pw

open DemoRpy in
/-- The hypotheses are met by replies of two bare keys: a newer, an older and the current one once more. -/
example : ∃ (U : Rpy → Prop) (ss : List Step), Universe U ∧ (∀ st ∈ ss, CoupleStep U (.endRole, 50, 7) st) ∧
    (run cfg env .empty ss).2.map (fun r => (r.aid, r.dt)) = [(50, 10), (60, 5), (50, 20), (50, 20)] := by
  let a := ends 1 10 1 (aid := 50)
  let b := ends 2 20 0 (aid := 50)
  let c := ends 3 5 0 (aid := 60)
  refine ⟨fun r => r = a ∨ r = b ∨ r = c, [.deliver view a [(50, 50001)] [], .deliver view c [(60, 60003)] [], .deliver view b [(50, 50002)] [],
    .deliver view a [(50, 50001)] [], .escrows view (fun _ => true) [(.endRole, 0)], .deliver view b [(50, 50002)] []], ⟨?_, ?_⟩, ?_, by decide +kernel⟩
  · rintro x y (rfl | rfl | rfl) (rfl | rfl | rfl) h <;> first | rfl | exact absurd h (by decide)
  · rintro x y (rfl | rfl | rfl) _ h <;> exact absurd h (by decide)
  · intro st m
    simp only [List.mem_cons, List.not_mem_nil, or_false] at m
    rcases m with rfl | rfl | rfl | rfl | rfl | rfl <;> simp [CoupleStep]

/-- C42, C43: a reply of a bare key that is later than the current one, or the first, is accepted. -/
theorem c43_later_accepted (cfg : Cfg) (env : Env) (v : View) (db : Db) (r : Rpy) (raw : Nat) (hk : r.kind ≠ .ksn)
    (hn : env.transferable r.aid = false) (hv : env.verify r.aid raw r = true) (ho : r.aid ∉ cfg.own)
    (hd : ∀ o t, db.ans r.slot = some o → db.sdts o = some t → t < r.dt) :
    (processReply cfg env v db r [(r.aid, raw)] []).2 = .ok () ∧ (processReply cfg env v db r [(r.aid, raw)] []).1.vals r.slot = some r.val := by
  have hok : cigOk cfg env r ((db.oldSaid r).bind db.sdts) (r.aid, raw) = true := by
    simp only [cigOk, hn, skipOwn, ho, hv, decide_false, Bool.and_false, Bool.false_and, Bool.not_false, Bool.and_true, decide_true]
    rcases oldSaid_cases db r with ⟨e, _⟩ | ⟨e, _⟩
    · simp [e]
    · rw [e]
      cases h1 : db.ans r.slot with
      | none => rfl
      | some o =>
        cases h2 : db.sdts o with
        | none => simp [h2]
        | some t => simp [h2, hd o t h1 h2]
  have hp : processReply cfg env v db r [(r.aid, raw)] [] = (((db.updateCig r (r.aid, raw)).removeReply (db.oldSaid r)).record r, .ok ()) := by
    simp only [processReply, hk, false_and, if_false, acceptReply, List.find?_cons, hok, tsgLoop]
  rw [hp]
  refine ⟨rfl, ?_⟩
  unfold Db.record
  split
  · contradiction
  · simp

end Verif.Rpy
