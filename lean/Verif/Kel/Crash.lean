import Verif.Kel.Keys
import Verif.Kel.Val

/-!
# Crashes while an event is being accepted

Every sub-database method runs in its own LMDB transaction (dbing.py, `with self.env.begin(…, write=True)`), so a process can
stop between any two of them.  `Node.writes` lists the writes that accepting an event performs, in order;
`crash_all` shows that performing all of them is what `processEvent` does.
-/

namespace Verif.Kel

open Verif.Thold (Thold)

/-- The database after validation, and the writes that follow when the event is accepted: those of `logEvent`
(eventing.py:3634-3690) and `states.pin` (2107, 2531, 2576). `none` when the event is not accepted. Follows the accepting
branches of `processEvent` (4227-4441), `Kever.__init__` (2069-2108) and `update` (2425-2585). -/
def Node.writes (env : Env) (n : Node) (e : Event) (ss ws : List Sig) (couple : Option Couple) (eager isLocal : Bool) :
    Option (Db × List (Db → Db)) :=
  if !env.okPre e.pre then none
  else match n.kevers e.pre with
    | none =>
      if (e.ilk = .icp ∨ e.ilk = .dip) ∧ ss ≠ [] then
        match incept env e with
        | .error _ => none
        | .ok k =>
          match n.valSigsWigsDel env k e ss ws e.keys e.kt e.toad e.wits couple eager isLocal with
          | (_, .error _) => none
          | (db, .ok v) =>
            some (db, Node.logWrites { n with db := db } k e v.sigs v.wigs e.wits true v.couple isLocal ++
              [fun d => d.pinState { k with fn := (db.fels e.pre).length }])
      else none
    | some k =>
      if e.ilk = .icp ∨ e.ilk = .dip then none
      else if e.sn > k.sn + 1 then none
      else if e.sn = k.sn + 1 ∨ (e.ilk = .rot ∧ k.lastS < e.sn ∧ e.sn ≤ k.sn + 1) ∨
          (e.ilk = .drt ∧ k.lastS ≤ e.sn ∧ e.sn ≤ k.sn + 1) then
        if !k.transferable env then none
        else if e.pre ≠ k.pre then none
        else if e.ilk = .rot ∨ e.ilk = .drt then
          if k.delpre.isSome ∧ e.ilk ≠ .drt then none
          else match rotate env n.db k e with
            | .error _ => none
            | .ok (wits, cuts, adds) =>
              match n.valSigsWigsDel env k e ss ws e.keys e.kt e.toad wits couple eager isLocal with
              | (_, .error _) => none
              | (db, .ok v) =>
                some (db, Node.logWrites { n with db := db } k e v.sigs v.wigs wits true v.couple isLocal ++
                  [fun d => d.pinState (k.rotated e (db.fels e.pre).length wits cuts adds)])
        else if e.ilk = .ixn then
          if k.estOnly then none
          else if e.sn ≠ k.sn + 1 then none
          else if k.serder.said ≠ e.prior then none
          else match n.valSigsWigsDel env k e ss ws k.keys k.kt k.toad k.wits none eager isLocal with
            | (_, .error _) => none
            | (db, .ok v) =>
              some (db, Node.logWrites { n with db := db } k e v.sigs v.wigs [] true none true ++
                [fun d => d.pinState (k.interacted e (db.fels e.pre).length)])
        else none
      else none

/-- A restart keeps the database; key states are read from `.states` again (basing.py:75-127 `statedict`, 1337-1366 `reload`;
eventing.py:2301-2333 `Kever.reload`). -/
def Node.restart (n : Node) : Node := { n with kevers := n.db.states }

/-- The process stops after `i` of the writes of an acceptance, and is started again. Nothing is lost when the event is not
accepted. -/
def Node.crashAt (env : Env) (n : Node) (e : Event) (ss ws : List Sig) (couple : Option Couple) (eager isLocal : Bool)
    (i : Nat) : Node :=
  match n.writes env e ss ws couple eager isLocal with
  | none => n
  | some (db, l) => Node.restart { n with db := (l.take i).foldl (fun d w => w d) db }

/-- The writes of an acceptance, in terms of what was validated: `Accepts` says under which conditions, `k` is the Kever
before. -/
structure Planned (env : Env) (n : Node) (e : Event) (ss ws : List Sig) (couple : Option Couple) (eager isLocal : Bool)
    (k1 : Kever) (v : Verified) (w : List Id) : Prop where
  acc : Accepts env n e ss ws couple eager isLocal k1 v w
  pre : k1.pre = e.pre
  same : ∃ db k c l, Same e n.db db ∧
    n.writes env e ss ws couple eager isLocal =
      some (db, Node.logWrites { n with db := db } k e v.sigs v.wigs w true c l ++ [fun d => d.pinState k1]) ∧
    (n.processEvent env e ss ws couple eager isLocal).1 =
      { n with db := (Node.logEvent { n with db := db } k e v.sigs v.wigs w true c l).pinState k1,
               kevers := upd n.kevers e.pre (some k1) }

theorem val_nonempty {env : Env} {n : Node} {k : Kever} {e : Event} {ss ws : List Sig} {keys : List Id} {kt : Thold}
    {toad : Nat} {wits : List Id} {couple : Option Couple} {eager isLocal : Bool} {v : Verified} {db : Db}
    (hv : n.valSigsWigsDel env k e ss ws keys kt toad wits couple eager isLocal = (db, .ok v)) : ss ≠ [] := by
  intro hss
  apply (val_ok hv).some
  match hl : v.sigs with
  | [] => rfl
  | s :: l => exact absurd ((val_ok hv).sigs s (by rw [hl]; simp)).1 (by rw [hss]; simp)

/-- Under the conditions of acceptance, the event is accepted, by these writes. -/
theorem Accepts.planned {env : Env} {n : Node} {e : Event} {ss ws : List Sig} {couple : Option Couple} {eager isLocal : Bool}
    {k1 : Kever} {v : Verified} {w : List Id} (hpre : env.okPre e.pre = true)
    (ha : Accepts env n e ss ws couple eager isLocal k1 v w) : Planned env n e ss ws couple eager isLocal k1 v w := by
  refine ⟨ha, ?_, ?_⟩
  · rcases ha with ⟨a, hw⟩ | ⟨k, a⟩ | ⟨k, a, hw⟩
    · obtain ⟨k, hinc, db, hv, hk1⟩ := a.inc
      rw [hk1]; exact (by rw [(incept_eq env e k hinc).2.2.2.2.2])
    · obtain ⟨cuts, adds, hr, db, hv, hk1⟩ := a.rot
      rw [hk1, a.pre]; rfl
    · obtain ⟨db, hv, hk1⟩ := a.val
      rw [hk1, a.pre]; rfl
  rcases ha with ⟨a, hw⟩ | ⟨k, a⟩ | ⟨k, a, hw⟩
  · obtain ⟨k, hinc, db, hv, hk1⟩ := a.inc
    have hs := same_val env n k e ss ws e.keys e.kt e.toad e.wits couple eager isLocal
    rw [hv] at hs
    have hf : db.fels = n.db.fels := hs.fels
    have hne := val_nonempty hv
    subst hw
    rw [← hf] at hk1
    refine ⟨db, k, v.couple, isLocal, hs, ?_, ?_⟩
    · unfold Node.writes
      rw [if_neg (by simp [a.okPre]), a.fresh]
      simp only [a.ilk, hne, hinc, hv, ne_eq, not_false_eq_true, and_self, if_true, hk1]
    · unfold Node.processEvent
      rw [if_neg (by simp [a.okPre]), a.fresh]
      simp only [a.ilk, if_true]
      unfold Node.inception
      rw [if_neg hne]
      simp only [hinc, hv, hk1]
  · obtain ⟨cuts, adds, hr, db, hv, hk1⟩ := a.rot
    have hs := same_val env n k e ss ws e.keys e.kt e.toad w couple eager isLocal
    rw [hv] at hs
    have hf : db.fels = n.db.fels := hs.fels
    rw [← hf] at hk1
    have hi : ¬ (e.ilk = .icp ∨ e.ilk = .dip) := by rcases a.ilk with h | h <;> rw [h] <;> simp
    have hsn : ¬ e.sn > k.sn + 1 := by have := a.seq; unfold InSeq at this; omega
    have hseq := a.seq
    unfold InSeq at hseq
    have hd : ¬ (k.delpre.isSome ∧ e.ilk ≠ .drt) := fun h => h.2 (a.deleg h.1)
    refine ⟨db, k, v.couple, isLocal, hs, ?_, ?_⟩
    · unfold Node.writes
      rw [if_neg (by simp [hpre]), a.known]
      simp only
      rw [if_neg hi, if_neg hsn, if_pos hseq, if_neg (by simp [a.trans]), if_neg (by simp [a.pre]), if_pos a.ilk, if_neg hd]
      simp only [hr, hv, hk1]
    · unfold Node.processEvent
      rw [if_neg (by simp [hpre]), a.known]
      simp only
      rw [if_neg hi, if_neg hsn, if_pos hseq]
      unfold Node.update
      rw [if_neg (by simp [a.trans]), if_neg (by simp [a.pre])]
      have : n.updateRot env k e ss ws couple eager isLocal =
          ((⟨(Node.logEvent { n with db := db } k e v.sigs v.wigs w true v.couple isLocal).pinState k1,
             upd n.kevers e.pre (some k1), n.prefixes, n.groups, n.mid⟩ : Node), .ok ()) := by
        unfold Node.updateRot
        rw [if_neg hd]
        simp only [hr, hv, hk1]
      rcases a.ilk with h | h <;> simp only [h, this]
  · obtain ⟨db, hv, hk1⟩ := a.val
    have hs := same_val env n k e ss ws k.keys k.kt k.toad k.wits none eager isLocal
    rw [hv] at hs
    have hf : db.fels = n.db.fels := hs.fels
    rw [← hf] at hk1
    subst hw
    have hi : ¬ (e.ilk = .icp ∨ e.ilk = .dip) := by rw [a.ilk]; simp
    have hi2 : ¬ (e.ilk = .rot ∨ e.ilk = .drt) := by rw [a.ilk]; simp
    have hsn : ¬ e.sn > k.sn + 1 := by have := a.seq; omega
    refine ⟨db, k, none, true, hs, ?_, ?_⟩
    · unfold Node.writes
      rw [if_neg (by simp [hpre]), a.known]
      simp only
      rw [if_neg hi, if_neg hsn, if_pos (.inl a.seq), if_neg (by simp [a.trans]), if_neg (by simp [a.pre]), if_neg hi2,
        if_pos a.ilk, if_neg (by simp [a.estOnly]), if_neg (by simp [a.seq]), if_neg (by simp [a.prior])]
      simp only [hv, hk1]
    · unfold Node.processEvent
      rw [if_neg (by simp [hpre]), a.known]
      simp only
      rw [if_neg hi, if_neg hsn, if_pos (.inl a.seq)]
      unfold Node.update
      rw [if_neg (by simp [a.trans]), if_neg (by simp [a.pre])]
      simp only [a.ilk]
      unfold Node.updateIxn
      rw [if_neg (by simp [a.estOnly]), if_neg (by simp [a.seq]), if_neg (by simp [a.prior])]
      simp only [hv, hk1]

theorem enters_okPre {env : Env} {n n' : Node} {e : Event} {ss ws : List Sig} {couple : Option Couple} {eager isLocal : Bool}
    (h : Enters env n e ss ws couple eager isLocal n') : env.okPre e.pre = true := by
  obtain ⟨rfl, h⟩ := h
  unfold Node.processEvent at h
  split at h
  · exact absurd rfl h
  · rename_i h'; simpa using h'

end Verif.Kel
