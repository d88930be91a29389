import Verif.Rpy.PropsBadaGroups

/-! # C42, C43: checks of notices, order of the groups kept for a reply, signatures that arrive in parts -/

namespace Verif.Rpy

open Verif.Kel (Id Dig Sig ioPut oset mem_ioPut mem_oset nodup_oset)
open Verif.Thold (Thold)

/-- C42. An accepted key state notice comes from a trusted source, is not behind the key state known, and agrees with the log. -/
theorem c42_notice (cfg : Cfg) (env : Env) (v : View) (db db1 : Db) (r : Rpy) (cigs : List (Id × Nat)) (tsgs : List Group) (hk : r.kind = .ksn)
    (h : processReply cfg env v db r cigs tsgs = (db1, .ok ())) : v.ksnPre r = true ∧ v.ksnPost r = true := by
  unfold processReply at h
  split at h
  · exact absurd h (by simp)
  · rename_i hpre
    split at h
    · exact absurd h (by simp)
    · exact absurd h (by simp)
    · split at h
      · exact absurd h (by simp)
      · rename_i hpost
        constructor
        · cases e : v.ksnPre r
          · exact absurd ⟨hk, e⟩ hpre
          · rfl
        · cases e : v.ksnPost r
          · exact absurd ⟨hk, e⟩ hpost
          · rfl

/-- A refused reply changes nothing that is recorded as accepted. -/
theorem c42_refused (cfg : Cfg) (env : Env) (v : View) (db db1 : Db) (e : Exn) (r : Rpy) (cigs : List (Id × Nat)) (tsgs : List Group)
    (h : processReply cfg env v db r cigs tsgs = (db1, .error e)) : db1.ans = db.ans ∧ db1.vals = db.vals ∧ db1.ksns = db.ksns := by
  have k := acceptReply_same cfg env v db r (db.oldSaid r) cigs tsgs
  rcases processReply_cases cfg env v db r cigs tsgs with ⟨e, he, _⟩ | ⟨db1, e, he, ha, _⟩ | ⟨db1, he, ha⟩
  · rw [he] at h; simp only [Prod.mk.injEq] at h; rw [← h.1]; exact ⟨rfl, rfl, rfl⟩
  · rw [he] at h; simp only [Prod.mk.injEq] at h; rw [← h.1]; rw [ha] at k; exact ⟨k.ans, k.vals, k.ksns⟩
  · rw [he] at h; exact absurd h (by simp)

/-! ## Order of groups -/

/-- Specification: by number, then by digest. -/
def Before (a b : Nat × Dig) : Prop := a.1 < b.1 ∨ (a.1 = b.1 ∧ a.2 < b.2)

def Ordered (l : List ((Nat × Dig) × List Sig)) : Prop := l.Pairwise fun a b => Before a.1 b.1

theorem Before.trans {a b c : Nat × Dig} (h : Before a b) (k : Before b c) : Before a c := by
  rcases h with h | ⟨h, h'⟩ <;> rcases k with k | ⟨k, k'⟩
  · exact .inl (Nat.lt_trans h k)
  · exact .inl (k ▸ h)
  · exact .inl (h ▸ k)
  · exact .inr ⟨h.trans k, Nat.lt_trans h' k'⟩

theorem Before.irrefl (a : Nat × Dig) : ¬ Before a a := by
  rintro (h | ⟨_, h⟩) <;> exact Nat.lt_irrefl _ h

theorem Before.total (a b : Nat × Dig) (h : a ≠ b) (k : ¬ Before a b) : Before b a := by
  rcases Nat.lt_trichotomy a.1 b.1 with x | x | x
  · exact absurd (.inl x) k
  · rcases Nat.lt_trichotomy a.2 b.2 with y | y | y
    · exact absurd (.inr ⟨x, y⟩) k
    · exact absurd (Prod.ext x y) h
    · exact .inr ⟨x.symm, y⟩
  · exact .inl x

theorem gLt_iff (a b : Nat × Dig) : gLt a b = true ↔ Before a b := by simp [gLt, Before]

theorem mem_putGroup (k : Nat × Dig) (ss : List Sig) (l : List ((Nat × Dig) × List Sig)) (e : (Nat × Dig) × List Sig) (h : e ∈ putGroup k ss l) :
    e.1 = k ∨ e ∈ l := by
  induction l with
  | nil => simp [putGroup] at h; exact .inl (by rw [h])
  | cons y r ih =>
    obtain ⟨k', s'⟩ := y
    unfold putGroup at h
    split at h
    · rename_i hk
      rcases List.mem_cons.1 h with h | h
      · exact .inl (by rw [h, hk])
      · exact .inr (List.mem_cons_of_mem _ h)
    · split at h
      · rcases List.mem_cons.1 h with h | h
        · exact .inl (by rw [h])
        · exact .inr h
      · rcases List.mem_cons.1 h with h | h
        · exact .inr (by rw [h]; exact List.mem_cons_self)
        · exact (ih h).imp id (List.mem_cons_of_mem _)

theorem ordered_putGroup (k : Nat × Dig) (ss : List Sig) (l : List ((Nat × Dig) × List Sig)) (h : Ordered l) : Ordered (putGroup k ss l) := by
  induction l with
  | nil => exact List.pairwise_singleton _ _
  | cons y r ih =>
    obtain ⟨k', s'⟩ := y
    have h' := List.pairwise_cons.1 h
    unfold putGroup
    split
    · exact List.pairwise_cons.2 ⟨h'.1, h'.2⟩
    · rename_i hk
      split
      · rename_i hlt
        refine List.pairwise_cons.2 ⟨fun e m => ?_, h⟩
        have hlt := (gLt_iff _ _).1 hlt
        rcases List.mem_cons.1 m with m | m
        · rw [m]; exact hlt
        · exact hlt.trans (h'.1 e m)
      · rename_i hlt
        have hlt : ¬ Before k k' := fun x => hlt ((gLt_iff _ _).2 x)
        have := Before.total k k' hk hlt
        refine List.pairwise_cons.2 ⟨fun e m => ?_, ih h'.2⟩
        rcases mem_putGroup _ _ _ _ m with m | m
        · rw [m]; exact this
        · exact h'.1 e m

/-- All groups kept are in order. -/
def Db.Sorted (db : Db) : Prop := ∀ d, Ordered (db.tsgs d)

theorem sorted_put (db : Db) (d : Dig) (k : Nat × Dig) (ss : List Sig) (h : db.Sorted) :
    ∀ x, Ordered (upd db.tsgs d (putGroup k ss (db.tsgs d)) x) := by
  intro x
  by_cases e : x = d
  · subst e; rw [upd_same]; exact ordered_putGroup _ _ _ (h x)
  · rw [upd_ne _ _ _ _ e]; exact h x

theorem sorted_update (db : Db) (r : Rpy) (g : Group) (ss : List Sig) (h : db.Sorted) : (db.updateTsg r g ss).Sorted := by
  unfold Db.updateTsg; split
  · exact h
  · exact sorted_put db _ _ _ h
theorem sorted_escrow (db : Db) (r : Rpy) (g : Group) (ss : List Sig) (h : db.Sorted) : (db.escrowReply r g ss).Sorted := by
  unfold Db.escrowReply; split
  · exact h
  · exact sorted_put db _ _ _ h
theorem sorted_remove (db : Db) (o : Option Dig) (h : db.Sorted) : (db.removeReply o).Sorted := by
  unfold Db.removeReply; split
  · exact h
  · rename_i d
    intro x
    by_cases e : x = d
    · subst e; simp [Ordered]
    · simp only [upd_ne _ _ _ _ e]; exact h x

theorem sorted_loop (cfg : Cfg) (env : Env) (v : View) (r : Rpy) (os : Option Dig) (od : Option Nat) (gs : List Group) (db : Db) (acc : Bool)
    (h : db.Sorted) : (tsgLoop cfg env v r os od gs db acc).1.Sorted := by
  induction gs generalizing db acc with
  | nil => exact h
  | cons g gs ih =>
    have k := tsgStep_out cfg env v r os od db g
    have k' : (tsgStep cfg env v r os od db g).1.Sorted := by
      generalize tsgStep cfg env v r os od db g = x at k
      cases k with
      | skip => exact h
      | wait => exact sorted_escrow _ _ _ _ h
      | bad => exact h
      | part => exact sorted_escrow _ _ _ _ h
      | full => exact sorted_remove _ _ (sorted_update _ _ _ _ h)
    unfold tsgLoop
    generalize tsgStep cfg env v r os od db g = x at k'
    obtain ⟨db1, _ | b⟩ := x
    · exact k'
    · exact ih _ _ k'

theorem sorted_process (cfg : Cfg) (env : Env) (v : View) (db : Db) (r : Rpy) (cigs : List (Id × Nat)) (tsgs : List Group) (h : db.Sorted) :
    (processReply cfg env v db r cigs tsgs).1.Sorted := by
  have k : (acceptReply cfg env v db r (db.oldSaid r) cigs tsgs).1.Sorted := by
    unfold acceptReply
    dsimp only
    split
    · rename_i c _
      exact sorted_loop _ _ _ _ _ _ _ _ _ (sorted_remove (db.updateCig r c) _ (show (db.updateCig r c).Sorted from h))
    · exact sorted_loop _ _ _ _ _ _ _ _ _ h
  rcases processReply_cases cfg env v db r cigs tsgs with ⟨e, he, _⟩ | ⟨db1, e, he, ha, _⟩ | ⟨db1, he, ha⟩
  · rw [he]; exact h
  · rw [he]; rw [ha] at k; exact k
  · rw [he]; rw [ha] at k
    intro d; rw [(keep_record db1 r d).tsgs]; exact k d

/-- C43. After any history the groups kept for a reply are in order of the number of their event, so that the first one, which later
replies are compared with, has the lowest number. -/
theorem c43_groups_ordered (cfg : Cfg) (env : Env) (db : Db) (h : ∀ d, Ordered (db.tsgs d)) (ss : List Step) :
    ∀ d, Ordered ((run cfg env db ss).1.tsgs d) := by
  have drop : ∀ (db : Db) (f : Route → List Dig) (d : Dig), db.Sorted → (({ db with rpes := f } : Db).removeReply (some d)).Sorted := by
    intro db f d h
    exact sorted_remove _ _ (show ({ db with rpes := f } : Db).Sorted from h)
  have one : ∀ v late rt (db : Db) d, db.Sorted → (escrowOne cfg env v late rt db d).1.Sorted := by
    intro v late rt db d h
    unfold escrowOne
    split
    · rename_i r _ _ _
      split
      · exact drop _ _ _ h
      · have k := sorted_process cfg env v db r [] (db.fetchTsgs r) h
        split <;> rename_i hp <;> rw [hp] at k
        · exact k
        · exact k
        · exact drop _ _ _ k
    · exact drop _ _ _ h
  have loop : ∀ v late ents (db : Db), db.Sorted → (escrowLoop cfg env v late ents db).1.Sorted := by
    intro v late ents
    induction ents with
    | nil => intro db h; exact h
    | cons e ents ih => intro db h; exact ih _ (one _ _ _ _ _ h)
  induction ss generalizing db with
  | nil => exact h
  | cons st ss ih =>
    refine ih _ ?_
    cases st with
    | deliver v r cigs tsgs =>
      have k := sorted_process cfg env v db r cigs tsgs h
      dsimp only [step]
      split <;> rename_i hp <;> rw [hp] at k <;> exact k
    | escrows v late routes => exact loop _ _ _ _ h

open DemoRpy in
/-- A reply endorsed under the second and then under the first event. -/
example : ((run cfg env .empty [.deliver view (ends 1 10 1) [] [g1 1], .deliver view (ends 1 10 1) [] [g0 1]]).1.tsgs 1).map (·.1) =
    [(0, 900), (1, 901)] := by decide +kernel

/-! ## Signatures in parts -/

theorem find_group (l : List ((Nat × Dig) × List Sig)) (h : Ordered l) (k : Nat × Dig) (ss : List Sig) (m : (k, ss) ∈ l) :
    l.find? (fun x => decide (x.1 = k)) = some (k, ss) := by
  induction l with
  | nil => simp at m
  | cons y l ih =>
    have h' := List.pairwise_cons.1 h
    rcases List.mem_cons.1 m with m | m
    · subst m; simp
    · have : y.1 ≠ k := by
        intro e
        have b := h'.1 _ m
        rw [e] at b
        exact Before.irrefl _ b
      rw [List.find?_cons_of_neg (by simpa using this)]
      exact ih h'.2 m

/-- C42. Signatures of one event that arrive in parts add up: when those kept for it and those of a further group of the same event
together meet its threshold, the first reply for its data is accepted. Other groups kept for it do not matter if they are under later
events, or if this one is under the inception event. -/
theorem c42_parts_add_up (cfg : Cfg) (env : Env) (v : View) (db : Db) (r : Rpy) (g : Group) (est : Est) (kept : List Sig) (hk : r.kind ≠ .ksn)
    (hp : g.pre = r.aid) (ho : r.aid ∉ cfg.own) (hl : v.log r.aid g.sn = some est) (hsd : est.said = g.dig) (hke : est.keys ≠ [])
    (hsz : Thold.size est.kt ≤ est.keys.length) (hfirst : db.ans r.slot = none) (hord : Ordered (db.tsgs r.said))
    (hkept : ((g.sn, g.dig), kept) ∈ db.tsgs r.said)
    (hoth : ∀ e ∈ db.tsgs r.said, g.sn = 0 ∨ g.sn < e.1.1 ∨ e.1 = (g.sn, g.dig))
    (hnd : (g.sigs ++ kept).Nodup) (hne : g.sigs ++ kept ≠ [])
    (hver : ∀ s ∈ g.sigs ++ kept, ∃ k, est.keys[s.index]? = some k ∧ env.verify k s.raw r = true)
    (hsat : Thold.satisfy est.kt ((g.sigs ++ kept).map Sig.index) = true) :
    (processReply cfg env v db r [] [g]).2 = .ok () := by
  have hvs : verifySigs env r (g.sigs ++ kept) est.keys = g.sigs ++ kept := by
    unfold verifySigs
    rw [Kel.oset_of_nodup _ hnd]
    refine List.filter_eq_self.2 fun s m => ?_
    obtain ⟨k, k1, k2⟩ := hver s m
    simp [k1, k2]
  have hos : db.oldSaid r = none := by
    rcases oldSaid_cases db r with ⟨e, _⟩ | ⟨e, _⟩
    · exact e
    · rw [e, hfirst]
  have hgs : db.groupSigs r.said (g.sn, g.dig) = kept := by
    unfold Db.groupSigs; rw [find_group _ hord _ _ hkept]; rfl
  have htr : trimRaises ((db.updateTsg r g (g.sigs ++ kept)).removeReply none) r g = false := by
    have e1 : ((db.updateTsg r g (g.sigs ++ kept)).removeReply none).tsgs r.said = putGroup (g.sn, g.dig) (g.sigs ++ kept) (db.tsgs r.said) := by
      simp only [Db.removeReply, Db.updateTsg, if_neg hne, upd_same]
    unfold trimRaises
    rw [e1, Bool.and_eq_false_iff]
    by_cases h0 : g.sn = 0
    · exact .inl (by simp [h0])
    · refine .inr (List.any_eq_false.2 fun e m => ?_)
      have : g.sn < e.1.1 ∨ e.1 = (g.sn, g.dig) := by
        rcases mem_putGroup _ _ _ _ m with m | m
        · exact .inr m
        · exact (hoth e m).resolve_left h0
      rcases this with y | y
      · simp; omega
      · simp [y]
  have hst : tsgStep cfg env v r none (Option.bind none db.sdts) db g = ((db.updateTsg r g (g.sigs ++ kept)).removeReply none, .ok true) := by
    have hsk : skipOwn cfg r.aid = false := by simp [skipOwn, ho]
    have hst : staleTsg db none (Option.bind none db.sdts) r g = false := rfl
    simp only [tsgStep, hp, hsk, hst, hl, hsd, hgs, hvs, hsat, htr, hne, hke]
    simp [Nat.not_lt.2 hsz]
  simp only [processReply, hk, false_and, if_false, acceptReply, List.find?_nil, tsgLoop, hos, hst, Bool.false_or]

open DemoRpy in
/-- A half of the signatures, a group naming another inception event, then the other half. -/
example : (run cfg env .empty [.deliver { view with log := fun _ _ => none } (loc 1 10 1) [] [⟨100, 0, 800, [sg 9 0 1]⟩],
    .deliver view (loc 1 10 1) [] [⟨100, 0, 900, [sg 1 0 1]⟩], .deliver view (loc 1 10 1) [] [⟨100, 0, 900, [sg 2 1 1]⟩]]).2.map (·.said) = [1] := by
  decide +kernel

end Verif.Rpy
