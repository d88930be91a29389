import Verif.Rpy.Model
import Verif.Kel.Val

/-! # Lemmas about reply processing -/

namespace Verif.Rpy

open Verif.Kel (Id Dig Sig ioPut oset mem_ioPut mem_oset nodup_oset)
open Verif.Thold (Thold)

@[simp] theorem upd_same {α β} [DecidableEq α] (f : α → β) (a : α) (b : β) : upd f a b a = b := by simp [upd]
theorem upd_ne {α β} [DecidableEq α] (f : α → β) (a x : α) (b : β) (h : x ≠ a) : upd f a b x = f x := by simp [upd, h]

/-- Records of what has been accepted are the same. -/
structure Same (a b : Db) : Prop where
  ans : b.ans = a.ans
  vals : b.vals = a.vals
  ksns : b.ksns = a.ksns

theorem Same.refl (a : Db) : Same a a := ⟨rfl, rfl, rfl⟩
theorem Same.trans {a b c : Db} (h : Same a b) (k : Same b c) : Same a c :=
  ⟨k.ans.trans h.ans, k.vals.trans h.vals, k.ksns.trans h.ksns⟩

theorem same_update (db : Db) (r : Rpy) (g : Group) (ss : List Sig) : Same db (db.updateTsg r g ss) := by
  unfold Db.updateTsg; split <;> exact ⟨rfl, rfl, rfl⟩
theorem same_cig (db : Db) (r : Rpy) (c : Id × Nat) : Same db (db.updateCig r c) := ⟨rfl, rfl, rfl⟩
theorem same_remove (db : Db) (o : Option Dig) : Same db (db.removeReply o) := by
  unfold Db.removeReply; split <;> exact ⟨rfl, rfl, rfl⟩
theorem same_escrow (db : Db) (r : Rpy) (g : Group) (ss : List Sig) : Same db (db.escrowReply r g ss) := by
  unfold Db.escrowReply; split <;> exact ⟨rfl, rfl, rfl⟩

/-- What one group can lead to. -/
inductive TsgOut (cfg : Cfg) (env : Env) (v : View) (r : Rpy) (os : Option Dig) (od : Option Nat) (db : Db) (g : Group) : Db × Except Exn Bool → Prop
  | skip : (g.pre = r.aid → skipOwn cfg g.pre = true ∨ staleTsg db os od r g = true) → TsgOut cfg env v r os od db g (db, .ok false)
  | wait : g.pre = r.aid → staleTsg db os od r g = false → v.log g.pre g.sn = none →
      TsgOut cfg env v r os od db g (db.escrowReply r g g.sigs, .ok false)
  | bad (est : Est) : g.pre = r.aid → staleTsg db os od r g = false → v.log g.pre g.sn = some est →
      (est.said = g.dig → est.keys ≠ [] → Thold.size est.kt ≤ est.keys.length →
        verifySigs env r (g.sigs ++ db.groupSigs r.said (g.sn, g.dig)) est.keys = []) → TsgOut cfg env v r os od db g (db, .error .validation)
  | part (est : Est) : g.pre = r.aid → staleTsg db os od r g = false → v.log g.pre g.sn = some est →
      TsgOut cfg env v r os od db g (db.escrowReply r g (verifySigs env r (g.sigs ++ db.groupSigs r.said (g.sn, g.dig)) est.keys), .ok false)
  | full (est : Est) (ss : List Sig) (res : Except Exn Bool) : g.pre = r.aid → skipOwn cfg g.pre = false → staleTsg db os od r g = false →
      v.log g.pre g.sn = some est → est.said = g.dig → est.keys ≠ [] → Thold.size est.kt ≤ est.keys.length →
      ss = verifySigs env r (g.sigs ++ db.groupSigs r.said (g.sn, g.dig)) est.keys → ss ≠ [] →
      Thold.satisfy est.kt (ss.map Sig.index) = true →
      res = (if trimRaises ((db.updateTsg r g ss).removeReply os) r g then .error .value else .ok true) →
      TsgOut cfg env v r os od db g ((db.updateTsg r g ss).removeReply os, res)

theorem tsgStep_out (cfg : Cfg) (env : Env) (v : View) (r : Rpy) (os : Option Dig) (od : Option Nat) (db : Db) (g : Group) :
    TsgOut cfg env v r os od db g (tsgStep cfg env v r os od db g) := by
  unfold tsgStep
  by_cases h1 : skipOwn cfg g.pre = true
  · rw [if_pos h1]; exact .skip fun _ => .inl h1
  rw [if_neg h1]
  by_cases h2 : r.aid ≠ g.pre
  · rw [if_pos h2]; exact .skip fun e => absurd e.symm h2
  rw [if_neg h2]
  have h2' : g.pre = r.aid := (Decidable.not_not.1 h2).symm
  by_cases h3 : staleTsg db os od r g = true
  · rw [if_pos h3]; exact .skip fun _ => .inr h3
  rw [if_neg h3]
  simp only [Bool.not_eq_true] at h1 h3
  cases h4 : v.log g.pre g.sn with
  | none => exact .wait h2' h3 h4
  | some est =>
    dsimp only
    by_cases h5 : est.said ≠ g.dig
    · rw [if_pos h5]; exact .bad est h2' h3 h4 fun e => absurd e h5
    rw [if_neg h5]
    by_cases h6 : est.keys = []
    · rw [if_pos h6]; exact .bad est h2' h3 h4 fun _ e => absurd h6 e
    rw [if_neg h6]
    by_cases h7 : est.keys.length < Thold.size est.kt
    · rw [if_pos h7]; exact .bad est h2' h3 h4 fun _ _ e => by omega
    rw [if_neg h7]
    by_cases h8 : verifySigs env r (g.sigs ++ db.groupSigs r.said (g.sn, g.dig)) est.keys = []
    · rw [if_pos h8]; exact .bad est h2' h3 h4 fun _ _ _ => h8
    rw [if_neg h8]
    by_cases h9 : Thold.satisfy est.kt ((verifySigs env r (g.sigs ++ db.groupSigs r.said (g.sn, g.dig)) est.keys).map Sig.index) = true
    · rw [if_pos h9]
      have := TsgOut.full (cfg := cfg) (env := env) (v := v) (r := r) (os := os) (od := od) (db := db) (g := g) est _ _ h2' h1 h3 h4
        (Decidable.not_not.1 h5) h6 (by omega) rfl h8 h9 rfl
      split <;> rename_i h10 <;> simpa [h10] using this
    · rw [if_neg h9]; exact .part est h2' h3 h4

theorem tsgStep_same (cfg : Cfg) (env : Env) (v : View) (r : Rpy) (os : Option Dig) (od : Option Nat) (db : Db) (g : Group) :
    Same db (tsgStep cfg env v r os od db g).1 := by
  have h := tsgStep_out cfg env v r os od db g
  generalize tsgStep cfg env v r os od db g = x at h
  cases h with
  | skip => exact .refl _
  | wait => exact same_escrow _ _ _ _
  | bad => exact .refl _
  | part => exact same_escrow _ _ _ _
  | full => exact (same_update _ _ _ _).trans (same_remove _ _)

theorem tsgLoop_same (cfg : Cfg) (env : Env) (v : View) (r : Rpy) (os : Option Dig) (od : Option Nat) (gs : List Group) (db : Db) (acc : Bool) :
    Same db (tsgLoop cfg env v r os od gs db acc).1 := by
  induction gs generalizing db acc with
  | nil => exact .refl _
  | cons g gs ih =>
    have h := tsgStep_same cfg env v r os od db g
    unfold tsgLoop
    generalize tsgStep cfg env v r os od db g = x at h
    obtain ⟨db1, _ | b⟩ := x
    · exact h
    · exact h.trans (ih _ _)

theorem acceptReply_same (cfg : Cfg) (env : Env) (v : View) (db : Db) (r : Rpy) (os : Option Dig) (cigs : List (Id × Nat)) (tsgs : List Group) :
    Same db (acceptReply cfg env v db r os cigs tsgs).1 := by
  unfold acceptReply
  dsimp only
  split
  · exact ((same_cig _ _ _).trans (same_remove _ _)).trans (tsgLoop_same ..)
  · exact tsgLoop_same ..

/-- Processing is acceptance and then recording, or no recording. -/
theorem processReply_cases (cfg : Cfg) (env : Env) (v : View) (db : Db) (r : Rpy) (cigs : List (Id × Nat)) (tsgs : List Group) :
    (∃ e, processReply cfg env v db r cigs tsgs = (db, .error e) ∧ e ≠ .unverified ∧ r.kind = .ksn) ∨
    (∃ db1 e, processReply cfg env v db r cigs tsgs = (db1, .error e) ∧ (acceptReply cfg env v db r (db.oldSaid r) cigs tsgs).1 = db1 ∧
      (r.kind ≠ .ksn → (acceptReply cfg env v db r (db.oldSaid r) cigs tsgs).2 = .error e ∨
        ((acceptReply cfg env v db r (db.oldSaid r) cigs tsgs).2 = .ok false ∧ e = .unverified))) ∨
    (∃ db1, processReply cfg env v db r cigs tsgs = (db1.record r, .ok ()) ∧ acceptReply cfg env v db r (db.oldSaid r) cigs tsgs = (db1, .ok true)) := by
  unfold processReply
  split
  · rename_i h; exact .inl ⟨_, rfl, by simp, h.1⟩
  split
  · rename_i db1 e he; exact .inr (.inl ⟨_, _, rfl, by rw [he], fun _ => .inl (by rw [he])⟩)
  · rename_i db1 he; exact .inr (.inl ⟨_, _, rfl, by rw [he], fun _ => .inr ⟨by rw [he], rfl⟩⟩)
  · rename_i db1 he
    split
    · rename_i h; exact .inr (.inl ⟨_, _, rfl, by rw [he], fun k => absurd h.1 k⟩)
    · exact .inr (.inr ⟨_, rfl, he⟩)

/-! ## Artifacts of other replies -/

/-- The artifacts of `d` are the same. -/
structure Keep (d : Dig) (a b : Db) : Prop where
  sdts : b.sdts d = a.sdts d
  rpys : b.rpys d = a.rpys d
  tsgs : b.tsgs d = a.tsgs d

theorem Keep.refl (d : Dig) (a : Db) : Keep d a a := ⟨rfl, rfl, rfl⟩
theorem Keep.trans {d : Dig} {a b c : Db} (h : Keep d a b) (k : Keep d b c) : Keep d a c :=
  ⟨k.sdts.trans h.sdts, k.rpys.trans h.rpys, k.tsgs.trans h.tsgs⟩

theorem keep_put (db : Db) (r : Rpy) (d : Dig) (h : d ≠ r.said) : Keep d db (db.putReply r) :=
  ⟨upd_ne _ _ _ _ h, upd_ne _ _ _ _ h, rfl⟩
theorem keep_update (db : Db) (r : Rpy) (g : Group) (ss : List Sig) (d : Dig) (h : d ≠ r.said) : Keep d db (db.updateTsg r g ss) := by
  unfold Db.updateTsg; split
  · exact keep_put _ _ _ h
  · exact ⟨upd_ne _ _ _ _ h, upd_ne _ _ _ _ h, upd_ne _ _ _ _ h⟩
theorem keep_cig (db : Db) (r : Rpy) (c : Id × Nat) (d : Dig) (h : d ≠ r.said) : Keep d db (db.updateCig r c) :=
  ⟨upd_ne _ _ _ _ h, upd_ne _ _ _ _ h, rfl⟩
theorem keep_escrow (db : Db) (r : Rpy) (g : Group) (ss : List Sig) (d : Dig) (h : d ≠ r.said) : Keep d db (db.escrowReply r g ss) := by
  unfold Db.escrowReply; split
  · exact .refl _ _
  · exact ⟨upd_ne _ _ _ _ h, upd_ne _ _ _ _ h, upd_ne _ _ _ _ h⟩
theorem keep_remove (db : Db) (o : Option Dig) (d : Dig) (h : o ≠ some d) : Keep d db (db.removeReply o) := by
  unfold Db.removeReply; split
  · exact .refl _ _
  · rename_i x
    have hx : d ≠ x := fun e => h (by rw [e])
    exact ⟨upd_ne _ _ _ _ hx, upd_ne _ _ _ _ hx, upd_ne _ _ _ _ hx⟩

theorem tsgStep_keep (cfg : Cfg) (env : Env) (v : View) (r : Rpy) (os : Option Dig) (od : Option Nat) (db : Db) (g : Group)
    (d : Dig) (h : d ≠ r.said) (ho : os ≠ some d) : Keep d db (tsgStep cfg env v r os od db g).1 := by
  have k := tsgStep_out cfg env v r os od db g
  generalize tsgStep cfg env v r os od db g = x at k
  cases k with
  | skip => exact .refl _ _
  | wait => exact keep_escrow _ _ _ _ _ h
  | bad => exact .refl _ _
  | part => exact keep_escrow _ _ _ _ _ h
  | full => exact (keep_update _ _ _ _ _ h).trans (keep_remove _ _ _ ho)

theorem tsgLoop_keep (cfg : Cfg) (env : Env) (v : View) (r : Rpy) (os : Option Dig) (od : Option Nat) (gs : List Group) (db : Db) (acc : Bool)
    (d : Dig) (h : d ≠ r.said) (ho : os ≠ some d) : Keep d db (tsgLoop cfg env v r os od gs db acc).1 := by
  induction gs generalizing db acc with
  | nil => exact .refl _ _
  | cons g gs ih =>
    have k := tsgStep_keep cfg env v r os od db g d h ho
    unfold tsgLoop
    generalize tsgStep cfg env v r os od db g = x at k
    obtain ⟨db1, _ | b⟩ := x
    · exact k
    · exact k.trans (ih _ _)

theorem acceptReply_keep (cfg : Cfg) (env : Env) (v : View) (db : Db) (r : Rpy) (os : Option Dig) (cigs : List (Id × Nat)) (tsgs : List Group)
    (d : Dig) (h : d ≠ r.said) (ho : os ≠ some d) : Keep d db (acceptReply cfg env v db r os cigs tsgs).1 := by
  unfold acceptReply
  dsimp only
  split
  · exact ((keep_cig _ _ _ _ h).trans (keep_remove _ _ _ ho)).trans (tsgLoop_keep _ _ _ _ _ _ _ _ _ _ h ho)
  · exact tsgLoop_keep _ _ _ _ _ _ _ _ _ _ h ho

theorem keep_record (db : Db) (r : Rpy) (d : Dig) : Keep d db (db.record r) := by
  unfold Db.record; split <;> exact ⟨rfl, rfl, rfl⟩

theorem processReply_keep (cfg : Cfg) (env : Env) (v : View) (db : Db) (r : Rpy) (cigs : List (Id × Nat)) (tsgs : List Group)
    (d : Dig) (h : d ≠ r.said) (ho : db.oldSaid r ≠ some d) : Keep d db (processReply cfg env v db r cigs tsgs).1 := by
  have k := acceptReply_keep cfg env v db r (db.oldSaid r) cigs tsgs d h ho
  rcases processReply_cases cfg env v db r cigs tsgs with ⟨e, he, _⟩ | ⟨db1, e, he, ha, _⟩ | ⟨db1, he, ha⟩
  · rw [he]; exact .refl _ _
  · rw [he]; rw [ha] at k; exact k
  · rw [he]; rw [ha] at k; exact k.trans (keep_record _ _ _)

/-! ## Recorded answers -/

theorem record_ans_ne (db : Db) (r : Rpy) (s : Slot) (h : s ≠ r.slot) : (db.record r).ans s = db.ans s := by
  unfold Db.record; split <;> exact upd_ne _ _ _ _ h
theorem record_ans (db : Db) (r : Rpy) (h : r.kind ≠ .ksn) : (db.record r).ans r.slot = some r.said := by
  unfold Db.record; split
  · contradiction
  · simp

theorem processReply_ans_ne (cfg : Cfg) (env : Env) (v : View) (db : Db) (r : Rpy) (cigs : List (Id × Nat)) (tsgs : List Group)
    (s : Slot) (h : s ≠ r.slot) : (processReply cfg env v db r cigs tsgs).1.ans s = db.ans s := by
  have k := acceptReply_same cfg env v db r (db.oldSaid r) cigs tsgs
  rcases processReply_cases cfg env v db r cigs tsgs with ⟨e, he, _⟩ | ⟨db1, e, he, ha, _⟩ | ⟨db1, he, ha⟩
  · rw [he]
  · rw [he]; rw [ha] at k; exact congrFun k.ans s
  · rw [he]; rw [ha] at k; exact (record_ans_ne _ _ _ h).trans (congrFun k.ans s)

/-! ## Universal consistency -/

/-- The replies of a history: a said names one reply, and no event digest in a notice is the said of a reply. -/
structure Universe (U : Rpy → Prop) : Prop where
  inj : ∀ a b, U a → U b → a.said = b.said → a = b
  evd : ∀ a b, U a → U b → a.kind = .ksn → a.evd ≠ b.said

/-- Stored artifacts are those of replies seen. -/
structure Con (U : Rpy → Prop) (db : Db) : Prop where
  sdts : ∀ d t, db.sdts d = some t → ∃ r, U r ∧ r.said = d ∧ r.dt = t
  rpys : ∀ d r, db.rpys d = some r → U r ∧ r.said = d
  rpes : ∀ rt d, d ∈ db.rpes rt → ∃ r, U r ∧ r.said = d
  ans : ∀ s d, db.ans s = some d → ∃ r, U r ∧ r.slot = s ∧ ((r.kind ≠ .ksn ∧ r.said = d) ∨ (r.kind = .ksn ∧ r.evd = d))

theorem Con.empty (U : Rpy → Prop) : Con U .empty :=
  ⟨by simp [Db.empty], by simp [Db.empty], by simp [Db.empty], by simp [Db.empty]⟩

theorem con_put (U : Rpy → Prop) (db : Db) (r : Rpy) (hr : U r) (c : Con U db) : Con U (db.putReply r) := by
  refine ⟨?_, ?_, c.rpes, c.ans⟩
  · intro d t h
    by_cases e : d = r.said
    · subst e
      simp only [Db.putReply, upd_same, Option.some.injEq] at h
      cases h2 : db.sdts r.said with
      | none => rw [h2] at h; exact ⟨r, hr, rfl, h⟩
      | some x => rw [h2] at h; exact c.sdts _ _ (h2.trans (congrArg some h))
    · simp only [Db.putReply, upd_ne _ _ _ _ e] at h; exact c.sdts _ _ h
  · intro d x h
    by_cases e : d = r.said
    · subst e
      simp only [Db.putReply, upd_same, Option.some.injEq] at h
      cases h2 : db.rpys r.said with
      | none => rw [h2] at h; subst h; exact ⟨hr, rfl⟩
      | some y => rw [h2] at h; exact c.rpys _ _ (h2.trans (congrArg some h))
    · simp only [Db.putReply, upd_ne _ _ _ _ e] at h; exact c.rpys _ _ h

theorem con_update (U : Rpy → Prop) (db : Db) (r : Rpy) (g : Group) (ss : List Sig) (hr : U r) (c : Con U db) : Con U (db.updateTsg r g ss) := by
  have k := con_put U db r hr c
  unfold Db.updateTsg; split
  · exact k
  · exact ⟨k.sdts, k.rpys, k.rpes, k.ans⟩
theorem con_cig (U : Rpy → Prop) (db : Db) (r : Rpy) (x : Id × Nat) (hr : U r) (c : Con U db) : Con U (db.updateCig r x) := by
  have k := con_put U db r hr c
  exact ⟨k.sdts, k.rpys, k.rpes, k.ans⟩
theorem con_escrow (U : Rpy → Prop) (db : Db) (r : Rpy) (g : Group) (ss : List Sig) (hr : U r) (c : Con U db) : Con U (db.escrowReply r g ss) := by
  have k := con_put U db r hr c
  unfold Db.escrowReply; split
  · exact c
  · refine ⟨k.sdts, k.rpys, ?_, k.ans⟩
    intro rt d h
    by_cases e : rt = r.route
    · subst e
      simp only [upd_same, mem_ioPut, List.mem_singleton] at h
      rcases h with h | h
      · exact c.rpes _ _ h
      · exact ⟨r, hr, h.symm⟩
    · simp only [upd_ne _ _ _ _ e] at h; exact c.rpes _ _ h
theorem con_remove (U : Rpy → Prop) (db : Db) (o : Option Dig) (c : Con U db) : Con U (db.removeReply o) := by
  unfold Db.removeReply; split
  · exact c
  · rename_i x
    refine ⟨fun d t h => ?_, fun d t h => ?_, c.rpes, c.ans⟩
    · by_cases e : d = x
      · subst e; simp at h
      · simp only [upd_ne _ _ _ _ e] at h; exact c.sdts _ _ h
    · by_cases e : d = x
      · subst e; simp at h
      · simp only [upd_ne _ _ _ _ e] at h; exact c.rpys _ _ h

theorem con_drop (U : Rpy → Prop) (db : Db) (rt : Route) (d : Dig) (c : Con U db) :
    Con U { db with rpes := upd db.rpes rt ((db.rpes rt).filter (fun x => decide (x ≠ d))) } := by
  refine ⟨c.sdts, c.rpys, fun rt' x h => ?_, c.ans⟩
  by_cases e : rt' = rt
  · subst e; simp only [upd_same, List.mem_filter] at h; exact c.rpes _ _ h.1
  · simp only [upd_ne _ _ _ _ e] at h; exact c.rpes _ _ h

theorem con_tsgLoop (U : Rpy → Prop) (cfg : Cfg) (env : Env) (v : View) (r : Rpy) (hr : U r) (os : Option Dig) (od : Option Nat) (gs : List Group)
    (db : Db) (acc : Bool) (c : Con U db) : Con U (tsgLoop cfg env v r os od gs db acc).1 := by
  induction gs generalizing db acc with
  | nil => exact c
  | cons g gs ih =>
    have k := tsgStep_out cfg env v r os od db g
    have k' : Con U (tsgStep cfg env v r os od db g).1 := by
      generalize tsgStep cfg env v r os od db g = x at k
      cases k with
      | skip => exact c
      | wait => exact con_escrow _ _ _ _ _ hr c
      | bad => exact c
      | part => exact con_escrow _ _ _ _ _ hr c
      | full => exact con_remove _ _ _ (con_update _ _ _ _ _ hr c)
    unfold tsgLoop
    generalize tsgStep cfg env v r os od db g = x at k'
    obtain ⟨db1, _ | b⟩ := x
    · exact k'
    · exact ih _ _ k'

theorem con_accept (U : Rpy → Prop) (cfg : Cfg) (env : Env) (v : View) (db : Db) (r : Rpy) (hr : U r) (os : Option Dig) (cigs : List (Id × Nat))
    (tsgs : List Group) (c : Con U db) : Con U (acceptReply cfg env v db r os cigs tsgs).1 := by
  unfold acceptReply
  dsimp only
  split
  · exact con_tsgLoop _ _ _ _ _ hr _ _ _ _ _ (con_remove _ _ _ (con_cig _ _ _ _ hr c))
  · exact con_tsgLoop _ _ _ _ _ hr _ _ _ _ _ c

theorem con_record (U : Rpy → Prop) (db : Db) (r : Rpy) (hr : U r) (c : Con U db) : Con U (db.record r) := by
  unfold Db.record; split <;> rename_i hk
  · refine ⟨c.sdts, c.rpys, c.rpes, fun s d h => ?_⟩
    by_cases e : s = r.slot
    · subst e; simp only [upd_same, Option.some.injEq] at h; exact ⟨r, hr, rfl, .inr ⟨hk, h⟩⟩
    · simp only [upd_ne _ _ _ _ e] at h; exact c.ans _ _ h
  · refine ⟨c.sdts, c.rpys, c.rpes, fun s d h => ?_⟩
    by_cases e : s = r.slot
    · subst e; simp only [upd_same, Option.some.injEq] at h; exact ⟨r, hr, rfl, .inl ⟨hk, h⟩⟩
    · simp only [upd_ne _ _ _ _ e] at h; exact c.ans _ _ h

theorem con_process (U : Rpy → Prop) (cfg : Cfg) (env : Env) (v : View) (db : Db) (r : Rpy) (hr : U r) (cigs : List (Id × Nat))
    (tsgs : List Group) (c : Con U db) : Con U (processReply cfg env v db r cigs tsgs).1 := by
  have k := con_accept U cfg env v db r hr (db.oldSaid r) cigs tsgs c
  rcases processReply_cases cfg env v db r cigs tsgs with ⟨e, he, _⟩ | ⟨db1, e, he, ha, _⟩ | ⟨db1, he, ha⟩
  · rw [he]; exact c
  · rw [he]; rw [ha] at k; exact k
  · rw [he]; rw [ha] at k; exact con_record _ _ _ hr k

/-- The old reply of one piece of data is never that of another. -/
theorem oldSaid_ne (U : Rpy → Prop) (hU : Universe U) (db : Db) (c : Con U db) (r x : Rpy) (hx : U x) (hs : r.slot ≠ x.slot) :
    db.oldSaid r ≠ some x.said := by
  have h : db.ans r.slot ≠ some x.said := by
    intro h
    obtain ⟨y, hy, ys, ⟨_, e⟩ | ⟨k, e⟩⟩ := c.ans _ _ h
    · exact hs (ys.symm.trans (congrArg Rpy.slot (hU.inj _ _ hy hx e)))
    · exact hU.evd _ _ hy hx k e
  unfold Db.oldSaid; split
  · split
    · simp
    · exact h
  · exact h

end Verif.Rpy
