import Verif.Mgr.Lemmas

/-! # The writes and results of the manager's calls, by case -/

namespace Verif.Mgr

open Verif.Kel (upd)

/-- The parts of a write list. -/
def inceptAll (enc : Option Nat) (cr : Creator) (pidx pre : Nat) (pubs nxts : List Nat) : List Wr :=
  [Wr.pres pre pre, .prms pre ⟨pidx, cr.algo, cr.salt.map (lock enc), cr.stem, cr.tier⟩, .pidx (pidx + 1),
    .sits pre ⟨.empty, ⟨pubs, 0, 0⟩, ⟨nxts, 1, pubs.length⟩⟩] ++ puts enc pubs ++ [.pubsPut pre 0 pubs] ++ puts enc nxts ++ [.pubsPut pre 1 nxts]

/-- What an inception did. -/
structure InceptOut (env : Env) (ks : Ks) (mem : Mem) (cr : Creator) (pidx : Nat) (pubs nxts : List Nat) (o : List Wr × Except Err Keys) : Prop where
  fresh : o.1 ≠ [] → ks.pres (pubs.headD 0) = none
  clean : (∃ w ∈ o.1, w.sitKey ≠ none ∨ w.prmKey ≠ none ∨ w.pubKey ≠ none) → ks.prms.at' (pubs.headD 0) = none
  part : o.1 <+: inceptAll mem.enc cr pidx (pubs.headD 0) pubs nxts
  ok : ∀ k, o.2 = .ok k → k = ⟨pubs, nxts.map env.dig⟩ ∧ pubs ≠ [] ∧ o.1 = inceptAll mem.enc cr pidx (pubs.headD 0) pubs nxts ∧
    ks.prms.at' (pubs.headD 0) = none ∧ ks.sits (pubs.headD 0) = none

theorem inceptWr_out (env : Env) (ks : Ks) (mem : Mem) (cr : Creator) (pidx : Nat) (pubs nxts : List Nat) :
    InceptOut env ks mem cr pidx pubs nxts (inceptWr env ks mem cr pidx pubs nxts) := by
  unfold inceptWr
  split
  · exact ⟨by simp, by simp, by simp, by simp⟩
  rename_i pre rest
  by_cases h1 : (ks.pres pre).isSome
  · rw [if_pos h1]; exact ⟨by simp, by simp, by simp, by simp⟩
  rw [if_neg h1]
  have hf : ks.pres pre = none := by simpa using h1
  by_cases h2 : (ks.prms.at' pre).isSome
  · rw [if_pos h2]
    refine ⟨fun _ => hf, by simp [Wr.sitKey, Wr.prmKey, Wr.pubKey], ?_, by simp⟩
    unfold inceptAll
    exact ⟨_, rfl⟩
  rw [if_neg h2]
  have hc : ks.prms.at' pre = none := by simpa using h2
  by_cases h3 : (ks.sits pre).isSome
  · rw [if_pos h3]
    refine ⟨fun _ => hf, fun _ => hc, ?_, by simp⟩
    unfold inceptAll
    exact ⟨_, rfl⟩
  rw [if_neg h3]
  rcases putPris_cases env mem.enc (pre :: rest) with ⟨hp, _⟩ | ⟨j, _, hp, _⟩
  · rw [hp]
    rcases putPris_cases env mem.enc nxts with ⟨hn, _⟩ | ⟨j, _, hn, _⟩
    · rw [hn]
      dsimp only
      refine ⟨fun _ => hf, fun _ => hc, ?_, fun k hk => ?_⟩
      · unfold inceptAll; exact ⟨[], by simp⟩
      · simp at hk
        refine ⟨hk.symm, by simp, by unfold inceptAll; rfl, by simpa using h2, by simpa using h3⟩
    · rw [hn]
      dsimp only
      refine ⟨fun _ => hf, fun _ => hc, ?_, by simp⟩
      refine ⟨puts mem.enc (nxts.drop j) ++ [.pubsPut pre 1 nxts], ?_⟩
      have : puts mem.enc nxts = puts mem.enc (nxts.take j) ++ puts mem.enc (nxts.drop j) := by
        simp [puts, ← List.map_append]
      unfold inceptAll
      rw [this]
      simp
  · rw [hp]
    dsimp only
    refine ⟨fun _ => hf, fun _ => hc, ?_, by simp⟩
    refine ⟨puts mem.enc ((pre :: rest).drop j) ++ [.pubsPut pre 0 (pre :: rest)] ++ puts mem.enc nxts ++ [.pubsPut pre 1 nxts], ?_⟩
    have : puts mem.enc (pre :: rest) = puts mem.enc ((pre :: rest).take j) ++ puts mem.enc ((pre :: rest).drop j) := by
      simp [puts, ← List.map_append]
    unfold inceptAll
    rw [this]
    simp

theorem incept_cases (env : Env) (ks : Ks) (mem : Mem) (a : InceptArgs) :
    (∃ e, incept env ks mem a = ([], .error e)) ∨ ∃ t pidx cr icodes ncodes, rootSalt env ks mem a.rooted a.salt = .ok t ∧ ks.pidx = some pidx ∧
      makeCreator (if a.rooted && a.algo.isNone then ks.algo else a.algo) t a.stem (if a.rooted && a.tier.isNone then ks.tier else a.tier) a.rsalt = .ok cr ∧
      expand a.icodes a.icount a.icode 1 = .ok icodes ∧ expand a.ncodes a.ncount a.ncode 0 = .ok ncodes ∧
      incept env ks mem a = inceptWr env ks mem cr pidx (cr.create env a.rnd icodes pidx 0 0 a.tr a.temp)
        (cr.create env (fun i => a.rnd (icodes.length + i)) ncodes pidx 1 icodes.length a.tr a.temp) := by
  unfold incept
  split
  · exact .inl ⟨_, rfl⟩
  rename_i t ht
  split
  · exact .inl ⟨_, rfl⟩
  rename_i pidx hpx
  split
  · exact .inl ⟨_, rfl⟩
  rename_i cr hcr
  split
  · exact .inl ⟨_, rfl⟩
  rename_i icodes hic
  split
  · exact .inl ⟨_, rfl⟩
  rename_i ncodes hnc
  exact .inr ⟨t, pidx, cr, icodes, ncodes, ht, hpx, hcr, hic, hnc, rfl⟩

/-- The writes of a complete rotation. -/
def rotateAll (enc : Option Nat) (pre : Nat) (ps : Sit) (nxts : List Nat) (erase : Bool) : List Wr :=
  [Wr.sits pre ⟨ps.new, ps.nxt, ⟨nxts, ps.nxt.ridx + 1, ps.nxt.kidx + ps.nxt.pubs.length⟩⟩] ++ puts enc nxts ++
    [.pubsPut pre (ps.nxt.ridx + 1) nxts] ++ (if erase then ps.old.pubs.map .prisRem else [])

/-- What a rotation did when it wrote anything. -/
structure RotateOut (env : Env) (ks : Ks) (mem : Mem) (pre : Nat) (a : RotateArgs) (prm : Prm) (ps : Sit) (verfers nxts : List Nat)
    (o : List Wr × Except Err Keys) : Prop where
  hprm : ks.prms.at' pre = some prm
  hsit : ks.sits pre = some ps
  nonempty : ps.nxt.pubs ≠ []
  read : readPris env ks mem ps.nxt.pubs = .ok verfers
  made : ∃ t cr ncodes, prmSalt env ks mem prm = .ok t ∧ makeCreator (some prm.algo) t prm.stem (some prm.tier) a.rsalt = .ok cr ∧
    expand a.ncodes a.ncount a.ncode 0 = .ok ncodes ∧
    nxts = cr.create env a.rnd ncodes prm.pidx (ps.nxt.ridx + 1) (ps.nxt.kidx + ps.nxt.pubs.length) a.tr a.temp
  part : o.1 <+: rotateAll mem.enc pre ps nxts a.erase
  outcome : (o.2 = .ok ⟨verfers, nxts.map env.dig⟩ ∧ o.1 = rotateAll mem.enc pre ps nxts a.erase) ∨
    (o.2 = .error .code ∧ mem.enc.isSome ∧ ∃ k ∈ nxts, env.ed k = false)

theorem rotate_cases (env : Env) (ks : Ks) (mem : Mem) (pre : Nat) (a : RotateArgs) :
    (∃ e, rotate env ks mem pre a = ([], .error e)) ∨ ∃ prm ps verfers nxts, RotateOut env ks mem pre a prm ps verfers nxts (rotate env ks mem pre a) := by
  unfold rotate
  split
  · exact .inl ⟨_, rfl⟩
  rename_i prm hprm
  split
  · exact .inl ⟨_, rfl⟩
  rename_i ps hps
  split
  · exact .inl ⟨_, rfl⟩
  rename_i hne
  split
  · exact .inl ⟨_, rfl⟩
  rename_i verfers hv
  split
  · exact .inl ⟨_, rfl⟩
  rename_i t ht
  split
  · exact .inl ⟨_, rfl⟩
  rename_i cr hcr
  split
  · exact .inl ⟨_, rfl⟩
  rename_i ncodes hnc
  refine .inr ⟨prm, ps, verfers, _, hprm, hps, hne, hv, ⟨t, cr, ncodes, ht, hcr, hnc, rfl⟩, ?_, ?_⟩
  · dsimp only
    generalize hn : cr.create env a.rnd ncodes prm.pidx (ps.nxt.ridx + 1) (ps.nxt.kidx + ps.nxt.pubs.length) a.tr a.temp = nxts
    rcases putPris_cases env mem.enc nxts with ⟨hp, _⟩ | ⟨j, _, hp, _⟩
    · rw [hp]; exact ⟨[], by simp only [rotateAll, List.append_nil]⟩
    · rw [hp]
      refine ⟨puts mem.enc (nxts.drop j) ++ [.pubsPut pre (ps.nxt.ridx + 1) nxts] ++ (if a.erase then ps.old.pubs.map .prisRem else []), ?_⟩
      have : puts mem.enc nxts = puts mem.enc (nxts.take j) ++ puts mem.enc (nxts.drop j) := by
        simp [puts, ← List.map_append]
      unfold rotateAll
      rw [this]
      simp
  · dsimp only
    generalize hn : cr.create env a.rnd ncodes prm.pidx (ps.nxt.ridx + 1) (ps.nxt.kidx + ps.nxt.pubs.length) a.tr a.temp = nxts
    rcases putPris_cases env mem.enc nxts with ⟨hp, _⟩ | ⟨j, _, hp, hs, hk⟩
    · rw [hp]; exact .inl ⟨rfl, rfl⟩
    · rw [hp]; exact .inr ⟨rfl, hs, hk⟩

/-- The writes of a replay that advances. -/
def replayAll (pre : Nat) (ps : Sit) (pubs : List Nat) (erase : Bool) : List Wr :=
  .sits pre ⟨ps.new, ps.nxt, ⟨pubs, ps.nxt.ridx + 1, ps.nxt.kidx + ps.nxt.pubs.length⟩⟩ :: (if erase then ps.old.pubs.map .prisRem else [])

theorem replay_cases (env : Env) (ks : Ks) (mem : Mem) (pre : Nat) (advance erase : Bool) :
    (∃ e, replay env ks mem pre advance erase = ([], .error e)) ∨ ∃ prm ps verfers, ks.prms.at' pre = some prm ∧ ks.sits pre = some ps ∧
      ((advance = true ∧ ∃ pubs, ks.pubs pre (ps.nxt.ridx + 1) = some pubs ∧ readPris env ks mem ps.nxt.pubs = .ok verfers ∧
          replay env ks mem pre advance erase = (replayAll pre ps pubs erase, .ok ⟨verfers, pubs.map env.dig⟩)) ∨
        (advance = false ∧ readPris env ks mem ps.new.pubs = .ok verfers ∧
          replay env ks mem pre advance erase = ([], .ok ⟨verfers, ps.nxt.pubs.map env.dig⟩))) := by
  unfold replay
  split
  · exact .inl ⟨_, rfl⟩
  rename_i prm hprm
  split
  · exact .inl ⟨_, rfl⟩
  rename_i ps hps
  split
  · split
    · exact .inl ⟨_, rfl⟩
    rename_i pubs hpubs
    split
    · exact .inl ⟨_, rfl⟩
    rename_i verfers hv
    exact .inr ⟨prm, ps, verfers, hprm, hps, .inl ⟨‹_›, pubs, hpubs, hv, rfl⟩⟩
  · split
    · exact .inl ⟨_, rfl⟩
    rename_i verfers hv
    exact .inr ⟨prm, ps, verfers, hprm, hps, .inr ⟨by simpa using ‹¬advance = true›, hv, rfl⟩⟩

theorem movePubs_mem {ks : Ks} {old new : Nat} : ∀ {n i : Nat} {w : Wr}, w ∈ (movePubs ks old new n i).1 → ∃ j l, ks.pubs old j = some l ∧ w = .pubsPut new j l
  | 0, _, _, h => by simp [movePubs] at h
  | n + 1, i, w, h => by
    unfold movePubs at h
    split at h
    · simp at h
    rename_i l hl
    split at h
    · simp at h
    rcases List.mem_cons.1 h with rfl | h
    · exact ⟨i, l, hl, rfl⟩
    · exact movePubs_mem h

/-- What a move did when it wrote anything. -/
structure MoveOut (ks : Ks) (old new : Nat) (prm : Prm) (sit : Sit) (wp : List Wr) (o : List Wr × Except Err Unit) : Prop where
  ne : old ≠ new
  pold : ks.pres old ≠ none
  pnew : ks.pres new = none
  hprm : ks.prms.at' old = some prm
  nprm : ks.prms.at' new = none
  hsit : ks.sits old = some sit
  nsit : ks.sits new = none
  hwp : wp = (movePubs ks old new (ks.top old) 0).1
  outcome : ((movePubs ks old new (ks.top old) 0).2 = .ok () ∧ o = ([Wr.prms new prm, .prmsRem old, .sits new sit, .sitsRem old] ++ wp ++ [.pres old new, .pres new new], .ok ())) ∨
    ∃ e, (movePubs ks old new (ks.top old) 0).2 = .error e ∧ o = ([Wr.prms new prm, .prmsRem old, .sits new sit, .sitsRem old] ++ wp, .error e)

theorem move_cases (ks : Ks) (old new : Nat) :
    (∃ r, move ks old new = ([], r) ∧ (r = .ok () → old = new)) ∨ ∃ prm sit wp, MoveOut ks old new prm sit wp (move ks old new) := by
  unfold move
  by_cases hne : old = new
  · rw [if_pos hne]; exact .inl ⟨_, rfl, fun _ => hne⟩
  rw [if_neg hne]
  by_cases hp : ((ks.pres old).isNone || (ks.pres new).isSome) = true
  · rw [if_pos hp]; exact .inl ⟨_, rfl, by simp⟩
  rw [if_neg hp]
  simp at hp
  cases hprm : ks.prms.at' old with
  | none => exact .inl ⟨_, rfl, by simp⟩
  | some prm =>
  by_cases hnp : (ks.prms.at' new).isSome = true
  · dsimp only; rw [if_pos hnp]; exact .inl ⟨_, rfl, by simp⟩
  dsimp only
  rw [if_neg hnp]
  cases hsit : ks.sits old with
  | none => exact .inl ⟨_, rfl, by simp⟩
  | some sit =>
  by_cases hns : (ks.sits new).isSome = true
  · dsimp only; rw [if_pos hns]; exact .inl ⟨_, rfl, by simp⟩
  dsimp only
  rw [if_neg hns]
  refine .inr ⟨prm, sit, _, hne, hp.1, hp.2, hprm, by simpa using hnp, hsit, by simpa using hns, rfl, ?_⟩
  generalize movePubs ks old new (ks.top old) 0 = r
  rcases r with ⟨wp, e | u⟩
  · exact .inr ⟨e, rfl, rfl⟩
  · exact .inl ⟨rfl, rfl⟩

end Verif.Mgr
