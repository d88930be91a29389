import Verif.Rpy.Lemmas

/-! # C42: replies are accepted only from their authority, and change only what they are about -/

namespace Verif.Rpy

open Verif.Kel (Id Dig Sig ioPut oset mem_ioPut mem_oset nodup_oset)
open Verif.Thold (Thold)

/-- Specification: the identifier that authorises a reply has signed it. Either it is a bare key that signed, or different signatures
by keys of an event in its log meet the threshold of that event. -/
def Endorsed (env : Env) (log : Id → Nat → Option Est) (r : Rpy) : Prop :=
  (env.transferable r.aid = false ∧ ∃ raw, env.verify r.aid raw r = true) ∨
  ∃ sn est, log r.aid sn = some est ∧ est.keys ≠ [] ∧ ∃ ss : List Sig, ss ≠ [] ∧ ss.Nodup ∧
    (∀ s ∈ ss, ∃ k, est.keys[s.index]? = some k ∧ env.verify k s.raw r = true) ∧ Thold.satisfy est.kt (ss.map Sig.index) = true

theorem verifySigs_spec (env : Env) (r : Rpy) (ss : List Sig) (keys : List Id) :
    (verifySigs env r ss keys).Nodup ∧ ∀ s, s ∈ verifySigs env r ss keys ↔ s ∈ ss ∧ ∃ k, keys[s.index]? = some k ∧ env.verify k s.raw r = true := by
  refine ⟨(nodup_oset ss).filter _, fun s => ?_⟩
  simp only [verifySigs, List.mem_filter, mem_oset]
  cases keys[s.index]? <;> simp

theorem tsgLoop_auth (cfg : Cfg) (env : Env) (v : View) (r : Rpy) (os : Option Dig) (od : Option Nat) (gs : List Group) (db db1 : Db) (acc : Bool)
    (h : tsgLoop cfg env v r os od gs db acc = (db1, .ok true)) (ha : acc = false) :
    skipOwn cfg r.aid = false ∧ (∃ g ∈ gs, g.pre = r.aid ∧ ∃ est, v.log r.aid g.sn = some est ∧ est.said = g.dig) ∧ Endorsed env v.log r := by
  induction gs generalizing db acc with
  | nil => simp [tsgLoop, ha] at h
  | cons g gs ih =>
    have k := tsgStep_out cfg env v r os od db g
    unfold tsgLoop at h
    generalize tsgStep cfg env v r os od db g = x at k h
    have again : ∀ dbx, tsgLoop cfg env v r os od gs dbx (acc || false) = (db1, .ok true) → _ := fun dbx hx =>
      (fun z : skipOwn cfg r.aid = false ∧ (∃ g ∈ gs, g.pre = r.aid ∧ ∃ est, v.log r.aid g.sn = some est ∧ est.said = g.dig) ∧ Endorsed env v.log r =>
        (⟨z.1, (let ⟨g', m, y⟩ := z.2.1; ⟨g', List.mem_cons_of_mem _ m, y⟩), z.2.2⟩ :
          skipOwn cfg r.aid = false ∧ (∃ g' ∈ g :: gs, g'.pre = r.aid ∧ ∃ est, v.log r.aid g'.sn = some est ∧ est.said = g'.dig) ∧ Endorsed env v.log r))
        (ih dbx _ hx (by simp [ha]))
    cases k with
    | skip => exact again _ h
    | wait => exact again _ h
    | bad => exact absurd h (by simp)
    | part => exact again _ h
    | full est ss res hp hso _ hl hsd hk hsz hss hne hsat _ =>
      rw [hp] at hso hl
      refine ⟨hso, ⟨g, List.mem_cons_self, hp, est, hl, hsd⟩, .inr ⟨g.sn, est, hl, hk, ss, hne, ?_, ?_, hsat⟩⟩
      · rw [hss]; exact (verifySigs_spec ..).1
      · intro s hs; rw [hss] at hs; exact (((verifySigs_spec ..).2 s).1 hs).2

/-- C42. A reply accepted in any state is endorsed by the identifier that authorises it, with attachments that came with it, and is not
one of an own identifier unless the processor is local or promiscuous. -/
theorem c42_authority (cfg : Cfg) (env : Env) (v : View) (db db1 : Db) (r : Rpy) (cigs : List (Id × Nat)) (tsgs : List Group)
    (h : processReply cfg env v db r cigs tsgs = (db1, .ok ())) :
    Endorsed env v.log r ∧ ((∃ c ∈ cigs, c.1 = r.aid ∧ env.transferable c.1 = false ∧ env.verify c.1 c.2 r = true) ∨
      ∃ g ∈ tsgs, g.pre = r.aid ∧ ∃ est, v.log r.aid g.sn = some est ∧ est.said = g.dig) ∧
    (r.aid ∈ cfg.own → cfg.lax = true ∨ cfg.isLocal = true) := by
  have own : skipOwn cfg r.aid = false → r.aid ∈ cfg.own → cfg.lax = true ∨ cfg.isLocal = true := by
    intro e m; simp only [skipOwn, m, decide_true, Bool.and_true] at e
    cases h1 : cfg.lax <;> cases h2 : cfg.isLocal <;> simp_all
  rcases processReply_cases cfg env v db r cigs tsgs with ⟨e, he, _⟩ | ⟨db2, e, he, _⟩ | ⟨db2, he, ha⟩
  · rw [he] at h; exact absurd h (by simp)
  · rw [he] at h; exact absurd h (by simp)
  · unfold acceptReply at ha
    dsimp only at ha
    split at ha
    · rename_i c hc
      have hm := List.mem_of_find?_eq_some hc
      have hp := List.find?_some hc
      simp only [cigOk, Bool.and_eq_true, Bool.not_eq_true', decide_eq_true_eq] at hp
      obtain ⟨⟨⟨⟨p1, p2⟩, p3⟩, _⟩, p5⟩ := hp
      exact ⟨.inl ⟨p3 ▸ p1, c.2, p3 ▸ p5⟩, .inl ⟨c, hm, p3.symm, p1, p5⟩, own (p3 ▸ p2)⟩
    · obtain ⟨a, b, c⟩ := tsgLoop_auth _ _ _ _ _ _ _ _ _ _ ha rfl
      exact ⟨c, .inr b, own a⟩

/-- What the rest of the database says during a step. -/
def Step.view : Step → View
  | .deliver v _ _ _ => v
  | .escrows v _ _ => v

theorem escrowOne_out (cfg : Cfg) (env : Env) (v : View) (late : Rpy → Bool) (rt : Route) (db : Db) (d : Dig) (r : Rpy)
    (h : (escrowOne cfg env v late rt db d).2 = some r) :
    db.rpys d = some r ∧ ∃ db1, processReply cfg env v db r [] (db.fetchTsgs r) = (db1, .ok ()) := by
  unfold escrowOne at h
  split at h
  · rename_i r' _ hr _
    split at h
    · exact absurd h (by simp)
    · split at h
      · rename_i db1 hp
        simp only [Option.some.injEq] at h
        subst h
        exact ⟨hr, _, hp⟩
      · exact absurd h (by simp)
      · exact absurd h (by simp)
  · exact absurd h (by simp)

theorem escrowLoop_auth (cfg : Cfg) (env : Env) (v : View) (late : Rpy → Bool) (ents : List (Route × Dig)) (db : Db) :
    ∀ r ∈ (escrowLoop cfg env v late ents db).2, Endorsed env v.log r ∧ (r.aid ∈ cfg.own → cfg.lax = true ∨ cfg.isLocal = true) := by
  induction ents generalizing db with
  | nil => simp [escrowLoop]
  | cons e ents ih =>
    obtain ⟨rt, d⟩ := e
    intro r hr
    simp only [escrowLoop, List.mem_append, Option.mem_toList] at hr
    rcases hr with hr | hr
    · obtain ⟨_, db1, hp⟩ := escrowOne_out _ _ _ _ _ _ _ _ hr
      have := c42_authority _ _ _ _ _ _ _ _ hp
      exact ⟨this.1, this.2.2⟩
    · exact ih _ r hr

/-- C42 over histories: whatever arrives and whenever the escrow is processed, every accepted reply is endorsed by its authority
according to the key event logs at the time of its acceptance. -/
theorem c42_history (cfg : Cfg) (env : Env) (db : Db) (ss : List Step) :
    ∀ r ∈ (run cfg env db ss).2, (∃ s ∈ ss, Endorsed env s.view.log r) ∧ (r.aid ∈ cfg.own → cfg.lax = true ∨ cfg.isLocal = true) := by
  induction ss generalizing db with
  | nil => simp [run]
  | cons s ss ih =>
    intro r hr
    simp only [run, List.mem_append] at hr
    rcases hr with hr | hr
    · cases s with
      | deliver v x cigs tsgs =>
        simp only [step] at hr
        split at hr
        · rename_i db1 hp
          rw [List.mem_singleton] at hr
          subst hr
          have := c42_authority _ _ _ _ _ _ _ _ hp
          exact ⟨⟨_, List.mem_cons_self, this.1⟩, this.2.2⟩
        · simp at hr
      | escrows v late routes =>
        have := escrowLoop_auth _ _ _ _ _ _ r hr
        exact ⟨⟨_, List.mem_cons_self, this.1⟩, this.2⟩
    · obtain ⟨⟨s', m, e⟩, o⟩ := ih _ r hr
      exact ⟨⟨s', List.mem_cons_of_mem _ m, e⟩, o⟩

/-! ## What accepted replies change -/

/-- Specification: what is recorded at a place after replies are accepted: the content of the last one for it. -/
def lastVal (s : Slot) (old : Option Nat) (l : List Rpy) : Option Nat :=
  l.foldl (fun o r => if r.slot = s then some r.val else o) old

/-- Same for the reply that gave it. -/
def lastSaid (s : Slot) (old : Option Dig) (l : List Rpy) : Option Dig :=
  l.foldl (fun o r => if r.slot = s then some (if r.kind = .ksn then r.evd else r.said) else o) old

/-- The records agree with the replies accepted. -/
structure Reflects (db : Db) (l : List Rpy) (db1 : Db) : Prop where
  vals : ∀ s : Slot, s.1 ≠ .ksn → db1.vals s = lastVal s (db.vals s) l
  ans : ∀ s, db1.ans s = lastSaid s (db.ans s) l

theorem Reflects.of_same {a b : Db} (h : Same a b) : Reflects a [] b :=
  ⟨fun s _ => by rw [h.vals]; rfl, fun s => by rw [h.ans]; rfl⟩

theorem Reflects.trans {a b c : Db} {l l' : List Rpy} (h : Reflects a l b) (k : Reflects b l' c) : Reflects a (l ++ l') c :=
  ⟨fun s e => by rw [k.vals s e, h.vals s e, lastVal, lastVal, lastVal, List.foldl_append],
   fun s => by rw [k.ans s, h.ans s, lastSaid, lastSaid, lastSaid, List.foldl_append]⟩

theorem reflects_record (db : Db) (r : Rpy) : Reflects db [r] (db.record r) := by
  unfold Db.record
  split <;> rename_i hk
  · refine ⟨fun s hs => ?_, fun s => ?_⟩
    · have : r.slot ≠ s := fun e => hs (by rw [← e]; exact hk)
      simp [lastVal, this]
    · by_cases e : s = r.slot
      · subst e; simp [lastSaid, hk]
      · simp [lastSaid, upd_ne _ _ _ _ e, Ne.symm e]
  · refine ⟨fun s hs => ?_, fun s => ?_⟩
    · by_cases e : s = r.slot
      · subst e; simp [lastVal]
      · simp [lastVal, upd_ne _ _ _ _ e, Ne.symm e]
    · by_cases e : s = r.slot
      · subst e
        have hk' : r.kind ≠ .ksn := hk
        simp [lastSaid, hk']
      · simp [lastSaid, upd_ne _ _ _ _ e, Ne.symm e]

theorem reflects_process (cfg : Cfg) (env : Env) (v : View) (db : Db) (r : Rpy) (cigs : List (Id × Nat)) (tsgs : List Group) :
    Reflects db (match (processReply cfg env v db r cigs tsgs).2 with | .ok () => [r] | .error _ => []) (processReply cfg env v db r cigs tsgs).1 := by
  have k := acceptReply_same cfg env v db r (db.oldSaid r) cigs tsgs
  rcases processReply_cases cfg env v db r cigs tsgs with ⟨e, he, _⟩ | ⟨db1, e, he, ha, _⟩ | ⟨db1, he, ha⟩
  · rw [he]; exact .of_same (.refl _)
  · rw [he]; rw [ha] at k; exact .of_same k
  · rw [he]; rw [ha] at k; exact (Reflects.of_same k).trans (reflects_record _ _)

theorem reflects_drop (db : Db) (x : Route → List Dig) (o : Option Dig) : Same db (({ db with rpes := x } : Db).removeReply o) :=
  (show Same db { db with rpes := x } from ⟨rfl, rfl, rfl⟩).trans (same_remove _ _)

theorem reflects_escrowOne (cfg : Cfg) (env : Env) (v : View) (late : Rpy → Bool) (rt : Route) (db : Db) (d : Dig) :
    Reflects db (escrowOne cfg env v late rt db d).2.toList (escrowOne cfg env v late rt db d).1 := by
  unfold escrowOne
  split
  · rename_i r _ _ _
    split
    · exact .of_same (reflects_drop db _ (some d))
    · have k := reflects_process cfg env v db r [] (db.fetchTsgs r)
      split <;> rename_i hp <;> rw [hp] at k
      · exact k.trans (Reflects.of_same ⟨rfl, rfl, rfl⟩)
      · exact k
      · rename_i db1 _ _
        exact k.trans (.of_same (reflects_drop db1 _ (some d)))
  · exact .of_same (reflects_drop db _ (some d))

theorem reflects_escrowLoop (cfg : Cfg) (env : Env) (v : View) (late : Rpy → Bool) (ents : List (Route × Dig)) (db : Db) :
    Reflects db (escrowLoop cfg env v late ents db).2 (escrowLoop cfg env v late ents db).1 := by
  induction ents generalizing db with
  | nil => exact .of_same (.refl _)
  | cons e ents ih => exact (reflects_escrowOne ..).trans (ih _)

theorem reflects_step (cfg : Cfg) (env : Env) (db : Db) (s : Step) : Reflects db (step cfg env db s).2 (step cfg env db s).1 := by
  cases s with
  | deliver v r cigs tsgs =>
    have k := reflects_process cfg env v db r cigs tsgs
    simp only [step]
    split <;> rename_i hp <;> rw [hp] at k <;> exact k
  | escrows v late routes => exact reflects_escrowLoop ..

/-- C42. Over any history, what is recorded for an endpoint role, location or watched identifier is the content of the last accepted
reply for it, and nothing else changes it: replies refused, escrowed or about other data leave it. -/
theorem c42_records (cfg : Cfg) (env : Env) (db : Db) (ss : List Step) (s : Slot) (hs : s.1 ≠ .ksn) :
    (run cfg env db ss).1.vals s = lastVal s (db.vals s) (run cfg env db ss).2 ∧
    (run cfg env db ss).1.ans s = lastSaid s (db.ans s) (run cfg env db ss).2 := by
  have : Reflects db (run cfg env db ss).2 (run cfg env db ss).1 := by
    clear hs
    induction ss generalizing db with
    | nil => exact .of_same (.refl _)
    | cons x ss ih => exact (reflects_step ..).trans (ih _)
  exact ⟨this.vals s hs, this.ans s⟩

/-! ## Concrete cases -/

namespace DemoRpy

def kt (n : Nat) : Thold := .num n
/-- Key `k` signs reply `d` as `1000 k + d`. Identifiers below 100 are bare keys. -/
def env : Env := ⟨fun k raw r => decide (raw = 1000 * k + r.said), fun i => decide (100 ≤ i)⟩
def cfg : Cfg := ⟨false, false, [150]⟩
/-- Identifier 100 has keys 1, 2 at number 0, keys 3, 4 at number 1; 101 has key 5. -/
def view : View := ⟨fun i n => if i = 100 ∧ n = 0 then some ⟨900, [1, 2], kt 2⟩ else if i = 100 ∧ n = 1 then some ⟨901, [3, 4], kt 2⟩
  else if i = 101 ∧ n = 0 then some ⟨902, [5], kt 1⟩ else none, fun _ => true, fun _ => true⟩
def sg (k i d : Nat) : Sig := ⟨0, i, none, 1000 * k + d⟩
def ends (said dt val : Nat) (aid : Id := 100) : Rpy := ⟨said, .endRole, aid, 7, 0, dt, val, 0⟩
def loc (said dt val : Nat) (aid : Id := 100) : Rpy := ⟨said, .loc, aid, 7, 0, dt, val, 0⟩
def ksn (said aid evd val : Nat) : Rpy := ⟨said, .ksn, aid, 100, aid, 5, val, evd⟩
def g0 (d : Nat) : Group := ⟨100, 0, 900, [sg 1 0 d, sg 2 1 d]⟩
def g1 (d : Nat) : Group := ⟨100, 1, 901, [sg 3 0 d, sg 4 1 d]⟩

end DemoRpy

open DemoRpy in
/-- Both kinds of endorsement are accepted; one signature of two, a stranger's couple and an own identifier's are not. -/
example :
    (run cfg env .empty [.deliver view (ends 1 10 1) [] [g0 1], .deliver view (ends 2 10 1 (aid := 50)) [(50, 50002)] [],
      .deliver view (ends 3 20 0) [] [⟨100, 0, 900, [sg 1 0 3]⟩], .deliver view (loc 4 10 1) [(50, 50004)] [],
      .deliver view (ends 5 20 1 (aid := 150)) [(150, 150005)] []]).2.map (·.said) = [1, 2] := by decide +kernel

open DemoRpy in
/-- The disagreement on key states: they are kept by event digest, so a notice of one source replaces what another source said. -/
theorem c42_shared_notice : ∃ ss : List Step,
    let out := run cfg env .empty ss
    out.2.map (fun r => (r.aid, r.val)) = [(100, 1), (101, 2)] ∧
      (out.1.ans (.ksn, 100, 100)).bind out.1.ksns = some 2 := by
  exact ⟨[.deliver view (ksn 1 100 800 1) [] [g0 1], .deliver view (ksn 2 101 800 2) [] [⟨101, 0, 902, [sg 5 0 2]⟩]], by decide +kernel⟩

end Verif.Rpy
