import Verif.Mgr.Lots

/-!
# C71 and C73: keys in use are never lost, replaced keys are erased
-/

namespace Verif.Mgr

open Verif.Kel (upd)

theorem Inp.proper.tidy {env : Env} {n : Node} {i : Inp} (h : i.proper env n) : i.tidy env n := by
  cases i with
  | call c => exact h
  | crash c k => cases c <;> first | exact h | exact absurd h (by simp [Inp.proper]) | trivial

/-! ## Algorithms -/

/-- The algorithms of key sequences are those the code knows. -/
def Algos (ks : Ks) : Prop := ∀ p q, ks.prms.at' p = some q → q.algo ≠ .other

theorem Algos.applyAll {ks : Ks} (h : Algos ks) {ws : List Wr} (hw : ∀ k q, Wr.prms k q ∈ ws → q.algo ≠ .other) : Algos (ks.applyAll ws) := by
  refine applyAll_ind (P := Algos) (fun w hm k hk => ?_) h
  intro p q hq
  by_cases hp : w.prmKey = some p
  · cases w with
    | prms x v =>
      simp only [Wr.prmKey, Option.some.injEq] at hp
      subst hp
      simp [Ks.apply, tbl_pin_at] at hq
      subst hq
      exact hw _ _ hm
    | prmsRem x =>
      simp only [Wr.prmKey, Option.some.injEq] at hp
      subst hp
      simp [Ks.apply, Tbl.rem] at hq
    | _ => simp [Wr.prmKey] at hp
  · rw [apply_prms hp] at hq; exact hk p q hq

theorem Algos.step {env : Env} {n : Node} (hk : Kept n.ks) (henc : EncInv env n) (h : Algos n.ks) {i : Inp} (hs : i.safe env n) : Algos (n.step env i).1.ks := by
  have hw : ∀ k q, Wr.prms k q ∈ (exec env n i.of).1 → q.algo ≠ .other := by
    obtain ⟨hp, _, hing⟩ := hs
    intro k q hm
    have href : Wr.reforms n.ks (.prms k q) → q.algo ≠ .other := by
      rintro ⟨q', s, x, enc, h1, _, _, rfl⟩
      exact h k q' h1
    have hnt : ∀ {p e}, ¬ (Wr.prms k q).turns p e := by simp [Wr.turns]
    generalize hc : i.of = c at hm hing
    cases c with
    | openM s a p g x t => exact href (openMgr_reforms hk hm)
    | updateAeid a s => obtain ⟨mem, _, hm⟩ := withMgr_wr hm; exact href (updateAeid_reforms hk hm)
    | sign a b c => obtain ⟨mem, _, hm⟩ := withMgr_wr hm; simp at hm
    | rotate p a => obtain ⟨mem, _, hm⟩ := withMgr_wr hm; exact absurd (rotate_turns hm) hnt
    | replay p a b => obtain ⟨mem, _, hm⟩ := withMgr_wr hm; exact absurd (replay_turns hm) hnt
    | incept a =>
      obtain ⟨mem, _, hm⟩ := withMgr_wr hm
      rcases incept_cases env n.ks mem a with ⟨e, he⟩ | ⟨t, pidx, cr, icodes, ncodes, _, _, hcr, _, _, he⟩
      · rw [he] at hm; simp at hm
      · rw [he] at hm
        have := (inceptWr_out env n.ks mem cr pidx _ _).part.subset hm
        simp only [inceptAll, List.mem_append, List.mem_cons, List.not_mem_nil, or_false, reduceCtorEq, false_or, Wr.prms.injEq] at this
        rcases this with (h | h) | h
        · rw [h.2]; exact makeCreator_known hcr
        · obtain ⟨_, _, he⟩ := mem_puts h; cases he
        · obtain ⟨_, _, he⟩ := mem_puts h; cases he
    | ingest a =>
      obtain ⟨mem, hmem, hm⟩ := withMgr_wr hm
      have ha : n.ks.aeid = none := by
        cases i with
        | call c => simp only [Inp.of] at hc; subst hc; exact hp
        | crash c j => simp only [Inp.of] at hc; subst hc; exact absurd hp (by simp [Inp.proper])
      have hnone : mem.enc = none := by rw [(henc.mgr mem hmem).2.1, ha]; rfl
      rcases ingest_out (env := env) (ks := n.ks) hnone (a := a) with ⟨e, he, hw⟩ | h
      · exact absurd (hw _ hm).2.1 (by simp [Wr.prmKey])
      · obtain ⟨pre, all, s, hr, o⟩ := h (hing a rfl)
        obtain ⟨prm, pidx, rest, h1, h2, h3⟩ := o.first
        dsimp only at hm
        rw [h1] at hm
        simp only [List.mem_cons, reduceCtorEq, false_or, Wr.prms.injEq] at hm
        rcases hm with ⟨_, rfl⟩ | hm
        · exact h2
        · exact absurd (h3 _ hm) (by simp [Wr.prmKey])
    | move old new =>
      obtain ⟨mem, _, hm⟩ := withMgr_wr hm
      dsimp only at hm
      rcases move_cases n.ks old new with ⟨r, hr, hrr⟩ | ⟨prm, sit, wp, m⟩
      · rw [hr] at hm; simp at hm
      · have hwp : Wr.prms k q ∉ wp := by
          intro hx
          rw [m.hwp] at hx
          obtain ⟨_, _, _, he⟩ := movePubs_mem hx
          cases he
        have : k = new ∧ q = prm := by
          rcases m.outcome with ⟨_, ho⟩ | ⟨e, _, ho⟩ <;> rw [ho] at hm <;> simpa [hwp] using hm
        rw [this.2]; exact h old prm m.hprm
  cases i with
  | call c => exact h.applyAll hw
  | crash c k => exact h.applyAll fun k q hm => hw k q (List.mem_of_mem_take hm)

/-! ## Runs -/

/-- Induction over a run with its history and the keys stored so far. -/
theorem run_made {env : Env} {C : Node → Inp → Prop} {P : Node → Hist → List Nat → Prop}
    (hs : ∀ n h M i, P n h M → C n i → (M ++ storedKeys (exec env n i.of).1).Nodup →
      P (n.step env i).1 (h ++ [(i, (n.step env i).2)]) (M ++ storedKeys (exec env n i.of).1)) :
    ∀ (is : List Inp) (n : Node) (h : Hist) (M : List Nat), P n h M → Along env C n is → (M ++ madeBy env n is).Nodup →
      P (n.run env is).1 (h ++ (n.run env is).2) (M ++ madeBy env n is)
  | [], n, h, M, hp, _, _ => by simpa [Node.run, madeBy] using hp
  | i :: rest, n, h, M, hp, hc, hn => by
    rw [madeBy, ← List.append_assoc] at hn
    have := run_made hs rest _ _ _ (hs n h M i hp hc.1 (List.nodup_append.1 hn).1) hc.2 hn
    simpa [Node.run, madeBy, List.append_assoc] using this

/-- What holds along safe runs in which no key is stored twice. -/
structure Sound (env : Env) (n : Node) (h : Hist) (M : List Nat) : Prop where
  kept : Kept n.ks
  enc : EncInv env n
  known : Known n.ks
  algos : Algos n.ks
  lots : LotInv M n.ks
  far : Far n.ks
  told : ToldInv env (told h) n.ks
  usable : Usable (Verif.Mgr.told h) n.ks
  ready : Ready (firm h) n.ks
  le : ∀ p k, firm h p = some k → Verif.Mgr.told h p = some k

theorem firm_append (h : Hist) (x : Inp × Option Res) : firm (h ++ [x]) = Firm.next (firm h) x := by simp [firm, List.foldl_append]

/-- `Told.next` looks at the previous value only to pass it on. -/
theorem told_mono {f g : Nat → Option Keys} (hfg : ∀ p k, f p = some k → g p = some k) (x : Inp × Option Res) :
    ∀ p k, Told.next f x p = some k → Told.next g x p = some k := by
  have hu : ∀ (q : Nat) (v : Option Keys) p k, upd f q v p = some k → upd g q v p = some k := by
    intro q v p k h
    by_cases hp : p = q
    · subst hp; rw [upd_same] at h ⊢; exact h
    · rw [upd_ne _ _ hp] at h ⊢; exact hfg p k h
  intro p k
  unfold Told.next
  split
  · exact hu _ _ p k
  · exact hu _ _ p k
  · exact hu _ _ p k
  · exact hu _ _ p k
  · split
    · exact hfg p k
    · rename_i old new _
      intro h
      by_cases hp : p = old
      · subst hp; simp at h
      · rw [upd_ne _ _ hp] at h ⊢
        by_cases hq : p = new
        · subst hq; rw [upd_same] at h ⊢; exact hfg _ _ h
        · rw [upd_ne _ _ hq] at h ⊢; exact hfg p k h
  · exact hu _ _ p k
  · exact hu _ _ p k
  · exact hu _ _ p k
  · exact hfg p k

theorem Sound.start (env : Env) : Sound env .start [] [] where
  kept := Kept.start
  enc := .start
  known := by intro p; simp [Node.start, Ks.empty]
  algos := by intro p q h; simp [Node.start, Ks.empty] at h
  lots := ⟨by rintro p i k ⟨s, _, h, _⟩; simp [Node.start, Ks.empty] at h, by rintro p i q j k ⟨s, _, h, _⟩; simp [Node.start, Ks.empty] at h⟩
  far := by rintro p i k _ ⟨s, _, h, _⟩; simp [Node.start, Ks.empty] at h
  told := by intro p k hp; simp [Verif.Mgr.told] at hp
  usable := by intro p k hp; simp [Verif.Mgr.told] at hp
  ready := by intro p k hp; simp [firm] at hp
  le := by intro p k hp; simp [firm] at hp

theorem Sound.step {env : Env} {n : Node} {h : Hist} {M : List Nat} {i : Inp} (s : Sound env n h M) (hs : i.safe env n)
    (hn : (M ++ storedKeys (exec env n i.of).1).Nodup) :
    Sound env (n.step env i).1 (h ++ [(i, (n.step env i).2)]) (M ++ storedKeys (exec env n i.of).1) := by
  have e := safe_eff s.kept s.known s.enc hs
  have hpres : ∀ p, n.ks.pres p ≠ none → (n.step env i).1.ks.pres p ≠ none := by
    intro p hp
    cases i <;> exact applyAll_pres_some hp
  have ht : ToldInv env (Verif.Mgr.told (h ++ [(i, (n.step env i).2)])) (n.step env i).1.ks := by
    rw [told_append]
    cases i with
    | call c => exact s.told.call s.kept c
    | crash c k => exact s.told.crash s.kept c k
  refine ⟨s.kept.step i, s.enc.step s.kept hs.1.tidy, s.known.next e hpres, s.algos.step s.kept s.enc hs, s.lots.next hn e, s.far.next s.lots e, ht, ?_, ?_, ?_⟩
  · rw [told_append]; exact s.usable.next s.known s.lots e
  · rw [firm_append]; exact s.ready.next s.known s.lots hn s.far e
  · rw [told_append, firm_append]
    intro p k hf
    rcases firm_or (firm h) (i, (n.step env i).2) with ⟨⟨pre, er, k', hx⟩, he⟩ | ⟨_, he⟩
    · rw [he] at hf
      have hf := s.le p k hf
      rw [hx]
      show upd (Verif.Mgr.told h) pre (some k') p = some k
      by_cases hp : p = pre
      · subst hp
        rw [upd_same]
        simp only [Prod.mk.injEq] at hx
        obtain ⟨rfl, hr⟩ := hx
        have hr : some (exec env n (.replay p false er)).2.2 = some (.keys k') := hr
        simp only [Option.some.injEq] at hr
        rcases withMgr_cases n (fun mem => ((replay env n.ks mem p false er).1, mem, .ofKeys (replay env n.ks mem p false er).2)) with ⟨_, hw⟩ | ⟨mem, hm, hw⟩
        · simp only [exec, hw] at hr; simp at hr
        · simp only [exec, hw] at hr
          rcases replay_cases env n.ks mem p false er with ⟨e, he⟩ | ⟨prm, ps, v, hprm, hps, ⟨hf', _⟩ | ⟨_, hv, he⟩⟩
          · rw [he] at hr; simp [Res.ofKeys] at hr
          · simp at hf'
          · rw [he] at hr
            simp [Res.ofKeys] at hr
            obtain ⟨h1, h2⟩ := (s.told p k hf).2 ps hps
            have := (readPris_ok s.kept hv).1
            subst hr
            cases k
            simp only at h1 h2
            rw [this, h1, h2]
      · rw [upd_ne _ _ hp]; exact hf
    · rw [he] at hf
      exact told_mono s.le _ p k hf

theorem sound_run {env : Env} {is : List Inp} (h : Along env (Inp.safe env) .start is) (hn : (madeBy env .start is).Nodup) :
    Sound env (Node.start.run env is).1 (Node.start.run env is).2 (madeBy env .start is) := by
  have := run_made (env := env) (C := Inp.safe env) (P := Sound env) (fun n h M i hp hc hn => hp.step hc hn) is .start [] [] (.start env) h (by simpa using hn)
  simpa using this

/-! ## C71 -/

/-- **C71, signing.** In safe runs (`Inp.safe`: encryption used as meant, interruptions of inceptions, rotations and replays only) in which no key was stored
twice: the manager signs with the keys it told last as current, for every identifier. Missing: the other runs, see the counterexamples in `Demo`. -/
theorem c71_sign_partial {env : Env} {is : List Inp} (h : Along env (Inp.safe env) .start is) (hn : (madeBy env .start is).Nodup) {pre : Nat} {k : Keys}
    (ht : told (Node.start.run env is).2 pre = some k) (hm : (Node.start.run env is).1.mem ≠ none) :
    ((Node.start.run env is).1.step env (.call (.sign k.verfers [] []))).2 = some (.sigs (wanted k.verfers [] [])) := by
  have s := sound_run h hn
  generalize (Node.start.run env is).1 = n at s hm ⊢
  generalize (Node.start.run env is).2 = hi at s ht
  obtain ⟨mem, hm⟩ := Option.ne_none_iff_exists'.1 hm
  obtain ⟨ps, _, h2, h3⟩ := s.usable pre k ht
  have h1 := ((s.told pre k ht).2 ps h2).1
  rw [h1] at h3
  have := sign_stored s.kept s.enc hm h3
  show some (exec env n (.sign k.verfers [] [])).2.2 = _
  simp only [exec, withMgr, hm]
  rw [this]
  simp [Res.ofSigs, wanted]

/-- A rotation with its keys at hand succeeds, unless a new private key cannot be encrypted. -/
theorem rotate_ready {env : Env} {n : Node} (he : EncInv env n) (ha : Algos n.ks) {mem : Mem} (hm : n.mem = some mem) {pre : Nat} {ps : Sit}
    (hp : n.ks.prms.at' pre ≠ none) (hs : n.ks.sits pre = some ps) (hne : ps.nxt.pubs ≠ []) (hin : ∀ q ∈ ps.nxt.pubs, n.ks.pris.at' q ≠ none)
    (a : RotateArgs) (hc : a.ncodes ≠ [] ∨ 0 ≤ a.ncount) :
    (∃ d, (rotate env n.ks mem pre a).2 = .ok ⟨ps.nxt.pubs, d⟩) ∨
      (n.ks.aeid ≠ none ∧ (∃ x, env.ed x = false) ∧ (rotate env n.ks mem pre a).2 = .error .code) := by
  obtain ⟨m1, m2, m3, m4⟩ := he.mgr mem hm
  obtain ⟨prm, hp⟩ := Option.ne_none_iff_exists'.1 hp
  have hbox : n.ks.aeid.map env.boxA = mem.dec.map env.boxS := by rw [m4]; exact m3.box
  have hdec : n.ks.aeid.isSome → mem.dec.isSome := by
    intro hx
    rcases m3 with ⟨h1, _⟩ | ⟨a, s, _, h2, _⟩
    · rw [h1] at hx; simp at hx
    · rw [m4, h2]; rfl
  have hr : readPris env n.ks mem ps.nxt.pubs = .ok ps.nxt.pubs := by
    refine readPris_present hdec fun k hkk => ?_
    obtain ⟨s, hs⟩ := Option.ne_none_iff_exists'.1 (hin k hkk)
    refine ⟨s, hs, ?_⟩
    rw [he.shut.locked.pris k s hs, unlock_lock hbox]
  have ht : ∃ t, prmSalt env n.ks mem prm = .ok t ∧ (t = none ∨ ∃ x, t = some (.plain x)) := by
    unfold prmSalt
    cases hsalt : prm.salt with
    | none => exact ⟨none, rfl, .inl rfl⟩
    | some s =>
      obtain ⟨x, hx⟩ := he.shut.locked.prms pre prm s hp hsalt
      dsimp only
      by_cases hae : n.ks.aeid.isSome
      · rw [if_pos hae]
        have hd : ¬ mem.dec.isNone = true := by
          intro hno
          have := hdec hae
          rw [Option.isNone_iff_eq_none.1 hno] at this
          simp at this
        rw [if_neg hd, hx, unlock_lock hbox]
        exact ⟨_, rfl, .inr ⟨x, rfl⟩⟩
      · rw [if_neg hae]
        have : n.ks.aeid = none := by simpa using hae
        rw [this] at hx
        rw [hx]
        exact ⟨_, rfl, .inr ⟨x, rfl⟩⟩
  obtain ⟨t, ht, htt⟩ := ht
  have hcr : ∃ cr, makeCreator (some prm.algo) t prm.stem (some prm.tier) a.rsalt = .ok cr := by
    have := ha pre prm hp
    unfold makeCreator
    cases hal : prm.algo with
    | other => exact absurd hal this
    | randy => exact ⟨_, rfl⟩
    | salty => rcases htt with rfl | ⟨x, rfl⟩ <;> exact ⟨_, rfl⟩
  obtain ⟨cr, hcr⟩ := hcr
  have hex : ∃ nc, expand a.ncodes a.ncount a.ncode 0 = .ok nc := by
    unfold expand
    by_cases h1 : a.ncodes = []
    · rw [if_pos h1, if_neg (by rcases hc with h | h; · exact absurd h1 h
                                · omega)]
      exact ⟨_, rfl⟩
    · rw [if_neg h1]; exact ⟨_, rfl⟩
  obtain ⟨nc, hex⟩ := hex
  unfold rotate
  rw [hp, hs]
  dsimp only
  rw [if_neg hne, hr, ht]
  dsimp only
  rw [hcr]
  dsimp only
  rw [hex]
  dsimp only
  generalize cr.create env a.rnd nc prm.pidx (ps.nxt.ridx + 1) (ps.nxt.kidx + ps.nxt.pubs.length) a.tr a.temp = nxts
  have hput : ∀ l e, (putPris env mem.enc l).2 = .error e → mem.enc.isSome ∧ (∃ x, env.ed x = false) ∧ e = .code := by
    intro l
    induction l with
    | nil => intro e h; simp [putPris] at h
    | cons k rest ih =>
      intro e h
      unfold putPris at h
      split at h
      · rename_i hk
        simp at hk h
        exact ⟨hk.1, ⟨k, by simpa using hk.2⟩, h.symm⟩
      · exact ih e h
  cases hw : putPris env mem.enc nxts with
  | mk wn r =>
    cases r with
    | ok u => exact .inl ⟨_, rfl⟩
    | error e =>
      obtain ⟨h1, h2, rfl⟩ := hput nxts e (by rw [hw])
      refine .inr ⟨fun hc => ?_, h2, rfl⟩
      rw [m2, hc] at h1
      simp at h1

theorem rotate_result {env : Env} {n : Node} {mem : Mem} (hm : n.mem = some mem) (pre : Nat) (a : RotateArgs) :
    (n.step env (.call (.rotate pre a))).2 = some (.ofKeys (rotate env n.ks mem pre a).2) := by
  show some (exec env n (.rotate pre a)).2.2 = _
  simp only [exec, withMgr, hm]

/-- **C71, rotation.** As `c71_sign_partial`: an identifier whose last digests are not empty (told by a call that made or turned its keys, no call for it having been
interrupted since) can be rotated, and gives the keys of those digests. Only a new key that cannot be encrypted in an encrypted key
store makes it fail. -/
theorem c71_rotate_partial {env : Env} {is : List Inp} (h : Along env (Inp.safe env) .start is) (hn : (madeBy env .start is).Nodup) {pre : Nat} {k : Keys}
    (ht : firm (Node.start.run env is).2 pre = some k) (hd : k.digers ≠ []) (hm : (Node.start.run env is).1.mem ≠ none) (a : RotateArgs)
    (hc : a.ncodes ≠ [] ∨ 0 ≤ a.ncount) :
    (∃ k', ((Node.start.run env is).1.step env (.call (.rotate pre a))).2 = some (.keys k') ∧ k'.verfers.map env.dig = k.digers) ∨
      ((Node.start.run env is).1.ks.aeid ≠ none ∧ (∃ x, env.ed x = false) ∧ ((Node.start.run env is).1.step env (.call (.rotate pre a))).2 = some (.err .code)) := by
  have s := sound_run h hn
  generalize (Node.start.run env is).1 = n at s hm ⊢
  generalize (Node.start.run env is).2 = hi at s ht
  obtain ⟨mem, hm⟩ := Option.ne_none_iff_exists'.1 hm
  obtain ⟨ps, h1, h2, h3⟩ := s.ready pre k ht
  have h4 := ((s.told pre k (s.le pre k ht)).2 ps h2).2
  have hne : ps.nxt.pubs ≠ [] := by intro hc; rw [hc] at h4; exact hd h4.symm
  rw [rotate_result hm]
  rcases rotate_ready s.enc s.algos hm h1 h2 hne (fun q hq => h3 q (.inr hq)) a hc with ⟨d, hr⟩ | ⟨g1, g2, hr⟩
  · exact .inl ⟨_, by rw [hr]; rfl, h4⟩
  · exact .inr ⟨g1, g2, by rw [hr]; rfl⟩

/-! ## Runs without interruptions -/

theorem Along.mono {env : Env} {P Q : Node → Inp → Prop} (hpq : ∀ n i, P n i → Q n i) : ∀ {is : List Inp} {n : Node}, Along env P n is → Along env Q n is
  | [], _, _ => trivial
  | _ :: _, _, h => ⟨hpq _ _ h.1, Along.mono hpq h.2⟩

theorem whole_run {env : Env} {is : List Inp} (h : Along env (Inp.calm env) .start is) (hn : (madeBy env .start is).Nodup) : Whole (Node.start.run env is).1.ks := by
  have := run_made (env := env) (C := Inp.calm env) (P := fun n h M => Sound env n h M ∧ Whole n.ks)
    (fun n h M i hp hc hn => ⟨hp.1.step hc.1 hn, hp.2.next hp.1.lots hn (by
      obtain ⟨c, hc⟩ := hc.2
      intro c' k; rw [hc]; simp) (safe_eff hp.1.kept hp.1.known hp.1.enc hc.1)⟩) is .start [] []
    ⟨.start env, by rintro p i k _ ⟨s, _, h, _⟩; simp [Node.start, Ks.empty] at h⟩ h (by simpa using hn)
  simpa using this.2

/-- **C71, rotation, no interruptions.** In safe runs without interruptions in which no key was stored twice, every identifier whose last digests are not empty
can be rotated, whichever call told them, and gives the keys of those digests. -/
theorem c71_rotate_calm_partial {env : Env} {is : List Inp} (h : Along env (Inp.calm env) .start is) (hn : (madeBy env .start is).Nodup) {pre : Nat} {k : Keys}
    (ht : told (Node.start.run env is).2 pre = some k) (hd : k.digers ≠ []) (hm : (Node.start.run env is).1.mem ≠ none) (a : RotateArgs)
    (hc : a.ncodes ≠ [] ∨ 0 ≤ a.ncount) :
    (∃ k', ((Node.start.run env is).1.step env (.call (.rotate pre a))).2 = some (.keys k') ∧ k'.verfers.map env.dig = k.digers) ∨
      ((Node.start.run env is).1.ks.aeid ≠ none ∧ (∃ x, env.ed x = false) ∧ ((Node.start.run env is).1.step env (.call (.rotate pre a))).2 = some (.err .code)) := by
  have s := sound_run (h.mono fun _ _ h => h.1) hn
  have w := whole_run h hn
  generalize (Node.start.run env is).1 = n at s hm w ⊢
  generalize (Node.start.run env is).2 = hi at s ht
  obtain ⟨mem, hm⟩ := Option.ne_none_iff_exists'.1 hm
  obtain ⟨ps, h1, h2, _⟩ := s.usable pre k ht
  have h4 := ((s.told pre k ht).2 ps h2).2
  have hne : ps.nxt.pubs ≠ [] := by intro hc; rw [hc] at h4; exact hd h4.symm
  rw [rotate_result hm]
  rcases rotate_ready s.enc s.algos hm h1 h2 hne (fun q hq => w pre 2 q (by omega) ⟨ps, h1, h2, hq⟩) a hc with ⟨d, hr⟩ | ⟨g1, g2, hr⟩
  · exact .inl ⟨_, by rw [hr]; rfl, h4⟩
  · exact .inr ⟨g1, g2, by rw [hr]; rfl⟩

/-! ## C73 -/

theorem gone_run {env : Env} {is : List Inp} (h : Along env (Inp.erasing env) .start is) (hn : (madeBy env .start is).Nodup) :
    Gone (madeBy env .start is) (shown (Node.start.run env is).2) (Node.start.run env is).1.ks := by
  have := run_made (env := env) (C := Inp.erasing env) (P := fun n h M => Sound env n h M ∧ Gone M (shown h) n.ks)
    (fun n h M i hp hc hn => ⟨hp.1.step hc.1.1 hn, by
      rw [shown_append]
      obtain ⟨c, hcc⟩ := hc.1.2
      refine hp.2.next hp.1.known hp.1.lots hn (fun p hpp => by cases i <;> exact applyAll_pres_some hpp) (by intro c' k; rw [hcc]; simp) hc.2.1 hc.2.2
        (safe_eff hp.1.kept hp.1.known hp.1.enc hc.1.1)⟩) is .start [] []
    ⟨.start env, ⟨fun p h => by simp [shown] at h, fun p s l t _ h => by simp [Node.start, Ks.empty] at h, fun p l h => by simp [shown] at h⟩⟩ h (by simpa using hn)
  simpa using this.2

/-- **C73.** In safe runs without interruptions, with erasure in every rotation and replay, in which no key was stored twice: of the key sets ever told as
current for an identifier, all but the newest two are gone from the key store, and signing with any of their keys is refused. -/
theorem c73_erased_partial {env : Env} {is : List Inp} (h : Along env (Inp.erasing env) .start is) (hn : (madeBy env .start is).Nodup) (pre : Nat) {l : List Nat}
    (hl : l ∈ (shown (Node.start.run env is).2 pre).drop 2) {k : Nat} (hk : k ∈ l) (pubs : List Nat) (hp : k ∈ pubs) (indices : List Int)
    (ondices : List (Option Int)) :
    (Node.start.run env is).1.ks.pris.at' k = none ∧
      ∃ e, ((Node.start.run env is).1.step env (.call (.sign pubs indices ondices))).2 = some (.err e) := by
  have g := (gone_run h hn).gone pre l hl k hk
  have s := sound_run (h.mono fun _ _ h => h.1.1) hn
  generalize (Node.start.run env is).1 = n at g s ⊢
  refine ⟨g.2, ?_⟩
  show ∃ e, some (exec env n (.sign pubs indices ondices)).2.2 = some (.err e)
  rcases withMgr_cases n (fun mem => ([], mem, .ofSigs (sign env n.ks mem pubs indices ondices))) with ⟨_, hw⟩ | ⟨mem, hm, hw⟩
  · exact ⟨_, by simp only [exec, hw]; rfl⟩
  · simp only [exec, hw]
    unfold sign
    cases hr : readPris env n.ks mem pubs with
    | error e => exact ⟨e, rfl⟩
    | ok xs => exact absurd g.2 ((readPris_ok s.kept hr).2 k hp)

end Verif.Mgr
