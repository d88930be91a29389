import Verif.Mgr.Frame

/-!
# C70: rotations reveal exactly the keys committed to
-/

namespace Verif.Mgr

open Verif.Kel (upd)

/-- The identifier is taken: known, or renamed to by a move that was interrupted. -/
def Claimed (ks : Ks) (p : Nat) : Prop := ks.pres p ≠ none ∨ ks.prms.at' p ≠ none

theorem Claimed.applyAll {ks : Ks} {p : Nat} (h : Claimed ks p) {ws : List Wr} (hw : ∀ q, Wr.prmsRem q ∈ ws → ks.pres q ≠ none) :
    Claimed (ks.applyAll ws) p := by
  induction ws generalizing ks with
  | nil => exact h
  | cons w ws ih =>
    refine ih ?_ fun q hq => apply_pres_some (hw q (List.mem_cons_of_mem _ hq))
    rcases h with h | h
    · exact .inl (apply_pres_some h)
    · by_cases hk : w.prmKey = some p
      · cases w with
        | prms k v =>
          simp only [Wr.prmKey, Option.some.injEq] at hk
          subst hk
          exact .inr (by show upd ks.prms.at' k (some v) k ≠ none; simp)
        | prmsRem k =>
          simp only [Wr.prmKey, Option.some.injEq] at hk
          subst hk
          exact .inl (apply_pres_some (hw k (List.mem_cons_self ..)))
        | _ => simp [Wr.prmKey] at hk
      · exact .inr (by rw [apply_prms hk]; exact h)

/-- What the key store holds agrees with what the caller was told. -/
def ToldInv (env : Env) (f : Nat → Option Keys) (ks : Ks) : Prop :=
  ∀ p k, f p = some k → Claimed ks p ∧ ∀ s, ks.sits p = some s → s.new.pubs = k.verfers ∧ s.nxt.pubs.map env.dig = k.digers

theorem ToldInv.frame {env : Env} {f : Nat → Option Keys} {ks : Ks} (h : ToldInv env f ks) {ws : List Wr}
    (hr : ∀ q, Wr.prmsRem q ∈ ws → ks.pres q ≠ none)
    (hw : ∀ w ∈ ws, ∀ p, w.sitKey = some p → f p = none) : ToldInv env f (ks.applyAll ws) := by
  intro p k hp
  obtain ⟨h1, h2⟩ := h p k hp
  refine ⟨h1.applyAll hr, fun s hs => h2 s ?_⟩
  rw [applyAll_sits] at hs
  · exact hs
  · intro w hm hc
    rw [hw w hm p hc] at hp
    exact absurd hp (by simp)

theorem ToldInv.clear {env : Env} {f : Nat → Option Keys} {ks : Ks} (h : ToldInv env f ks) (p : Nat) : ToldInv env (upd f p none) ks := by
  intro q k hq
  by_cases hqp : q = p
  · subst hqp; simp at hq
  · rw [upd_ne _ _ hqp] at hq; exact h q k hq

/-- Writes that touch the situation of `p` only, then what was told about `p` is renewed. -/
theorem ToldInv.renew {env : Env} {f : Nat → Option Keys} {ks : Ks} (h : ToldInv env f ks) {ws : List Wr} {p : Nat}
    (hr : ∀ q, Wr.prmsRem q ∈ ws → ks.pres q ≠ none)
    (hw : ∀ w ∈ ws, ∀ q, w.sitKey = some q → q = p) (k : Keys) (hp : Claimed (ks.applyAll ws) p)
    (hs : ∀ s, (ks.applyAll ws).sits p = some s → s.new.pubs = k.verfers ∧ s.nxt.pubs.map env.dig = k.digers) :
    ToldInv env (upd f p (some k)) (ks.applyAll ws) := by
  intro q k' hq
  by_cases hqp : q = p
  · subst hqp
    simp at hq; subst hq
    exact ⟨hp, hs⟩
  · have := (h.clear p).frame (ws := ws) hr (fun w hm q hq => by rw [hw w hm q hq]; simp)
    rw [upd_ne _ _ hqp] at hq
    exact this q k' (by rw [upd_ne _ _ hqp]; exact hq)

theorem about_key {p q : Nat} {enc : Option Nat} {w : Wr} (h : w.about p enc) (hq : w.sitKey = some q) : q = p := by
  cases w <;> simp [Wr.about, Wr.sitKey] at *
  rw [← hq, h]

theorem turns_key {p q : Nat} {enc : Option Nat} {w : Wr} (h : w.turns p enc) (hq : w.sitKey = some q) : q = p := by
  cases w <;> simp [Wr.turns, Wr.sitKey] at *
  rw [← hq, h]

theorem reforms_key {ks : Ks} {w : Wr} (h : w.reforms ks) : w.sitKey = none := by
  cases w <;> simp [Wr.reforms, Wr.sitKey] at *

theorem inceptAll_sits (ks : Ks) (enc : Option Nat) (cr : Creator) (pidx pre : Nat) (pubs nxts : List Nat) :
    (ks.applyAll (inceptAll enc cr pidx pre pubs nxts)).sits pre = some ⟨.empty, ⟨pubs, 0, 0⟩, ⟨nxts, 1, pubs.length⟩⟩ := by
  unfold inceptAll
  rw [List.append_assoc, List.append_assoc, List.append_assoc, applyAll_append, applyAll_sits]
  · simp [Ks.apply]
  · intro w hw
    simp only [List.mem_append, List.mem_cons, List.not_mem_nil, or_false] at hw
    rcases hw with hw | rfl | hw | rfl
    · obtain ⟨k, _, rfl⟩ := mem_puts hw; simp [Wr.sitKey]
    · simp [Wr.sitKey]
    · obtain ⟨k, _, rfl⟩ := mem_puts hw; simp [Wr.sitKey]
    · simp [Wr.sitKey]

theorem inceptAll_pres (ks : Ks) (enc : Option Nat) (cr : Creator) (pidx pre : Nat) (pubs nxts : List Nat) :
    (ks.applyAll (inceptAll enc cr pidx pre pubs nxts)).pres pre ≠ none := by
  unfold inceptAll
  rw [List.append_assoc, List.append_assoc, List.append_assoc, applyAll_append]
  refine applyAll_pres_some ?_
  simp [Ks.apply]

theorem rotateAll_sits (ks : Ks) (enc : Option Nat) (pre : Nat) (ps : Sit) (nxts : List Nat) (erase : Bool) :
    (ks.applyAll (rotateAll enc pre ps nxts erase)).sits pre =
      some ⟨ps.new, ps.nxt, ⟨nxts, ps.nxt.ridx + 1, ps.nxt.kidx + ps.nxt.pubs.length⟩⟩ := by
  unfold rotateAll
  rw [List.append_assoc, List.append_assoc, applyAll_append, applyAll_sits]
  · simp [Ks.apply]
  · intro w hw
    simp only [List.mem_append, List.mem_cons, List.not_mem_nil, or_false] at hw
    rcases hw with hw | rfl | hw
    · obtain ⟨k, _, rfl⟩ := mem_puts hw; simp [Wr.sitKey]
    · simp [Wr.sitKey]
    · split at hw
      · obtain ⟨k, _, rfl⟩ := List.mem_map.1 hw; simp [Wr.sitKey]
      · simp at hw

theorem replayAll_sits (ks : Ks) (pre : Nat) (ps : Sit) (pubs : List Nat) (erase : Bool) :
    (ks.applyAll (replayAll pre ps pubs erase)).sits pre =
      some ⟨ps.new, ps.nxt, ⟨pubs, ps.nxt.ridx + 1, ps.nxt.kidx + ps.nxt.pubs.length⟩⟩ := by
  unfold replayAll
  rw [applyAll_cons, applyAll_sits]
  · simp [Ks.apply]
  · intro w hw
    split at hw
    · obtain ⟨k, _, rfl⟩ := List.mem_map.1 hw; simp [Wr.sitKey]
    · simp at hw

/-- The situation of `new` after a complete move is the one `old` had. -/
theorem move_sits {ks : Ks} {old new : Nat} {prm : Prm} {sit : Sit} {wp : List Wr} {o : List Wr × Except Err Unit} (m : MoveOut ks old new prm sit wp o) :
    (ks.applyAll o.1).sits new = some sit ∧ (ks.applyAll o.1).sits old = none ∧ ∀ p, p ≠ old → p ≠ new → (ks.applyAll o.1).sits p = ks.sits p := by
  have hwp : ∀ {w : Wr}, w ∈ wp → w.sitKey = none := by
    intro w hw
    rw [m.hwp] at hw
    obtain ⟨j, l, _, rfl⟩ := movePubs_mem hw
    rfl
  have hfin : ∃ ws, (∀ w ∈ ws, w.sitKey = none) ∧ o.1 = [Wr.prms new prm, .prmsRem old, .sits new sit, .sitsRem old] ++ ws := by
    rcases m.outcome with ⟨_, ho⟩ | ⟨e, _, ho⟩ <;> rw [ho]
    · refine ⟨wp ++ [.pres old new, .pres new new], ?_, by rw [List.append_assoc]⟩
      intro w hw
      simp only [List.mem_append, List.mem_cons, List.not_mem_nil, or_false] at hw
      rcases hw with hw | rfl | rfl
      · exact hwp hw
      · rfl
      · rfl
    · exact ⟨wp, fun w hw => hwp hw, rfl⟩
  obtain ⟨ws, hws, ho⟩ := hfin
  rw [ho, applyAll_append]
  have hn : ∀ p, ∀ w ∈ ws, w.sitKey ≠ some p := fun p w hw => by rw [hws w hw]; simp
  refine ⟨?_, ?_, fun p h1 h2 => ?_⟩
  · rw [applyAll_sits (hn new)]
    simp only [applyAll_cons, applyAll_nil, Ks.apply]
    rw [upd_ne _ _ (Ne.symm m.ne), upd_same]
  · rw [applyAll_sits (hn old)]
    simp only [applyAll_cons, applyAll_nil, Ks.apply, upd_same]
  · rw [applyAll_sits (hn p)]
    simp only [applyAll_cons, applyAll_nil, Ks.apply]
    rw [upd_ne _ _ h1, upd_ne _ _ h2]

/-- No call but a move removes parameters, and a move only those of a known identifier. -/
theorem exec_rem {env : Env} {n : Node} (hk : Kept n.ks) (c : Call) {q : Nat} (h : Wr.prmsRem q ∈ (exec env n c).1) : n.ks.pres q ≠ none := by
  cases c with
  | openM s a p g x t => exact absurd (openMgr_reforms hk h) (by simp [Wr.reforms])
  | incept a =>
    obtain ⟨mem, _, h⟩ := withMgr_wr h
    obtain ⟨p, _, _, ha⟩ := incept_about (env := env) (ks := n.ks) (mem := mem) (a := a)
    exact absurd (ha _ h) (by simp [Wr.about])
  | rotate pre a => obtain ⟨mem, _, h⟩ := withMgr_wr h; exact absurd (rotate_turns h) (by simp [Wr.turns])
  | replay pre x y => obtain ⟨mem, _, h⟩ := withMgr_wr h; exact absurd (replay_turns h) (by simp [Wr.turns])
  | ingest a =>
    obtain ⟨mem, _, h⟩ := withMgr_wr h
    obtain ⟨p, _, _, ha⟩ := ingest_takes (env := env) (ks := n.ks) (mem := mem) (a := a)
    rcases ha _ h with h | h <;> exact absurd h (by simp [Wr.about])
  | move old new =>
    obtain ⟨mem, _, h⟩ := withMgr_wr h
    rcases move_cases n.ks old new with ⟨r, hr, _⟩ | ⟨prm, sit, wp, o⟩
    · rw [hr] at h; simp at h
    · have hwp : Wr.prmsRem q ∉ wp := by
        intro hw
        rw [o.hwp] at hw
        obtain ⟨j, l, _, he⟩ := movePubs_mem hw
        cases he
      have : q = old := by
        rcases o.outcome with ⟨_, ho⟩ | ⟨e, _, ho⟩ <;> rw [ho] at h <;> simpa [hwp] using h
      rw [this]; exact o.pold
  | updateAeid aeid seed => obtain ⟨mem, _, h⟩ := withMgr_wr h; exact absurd (updateAeid_reforms hk h) (by simp [Wr.reforms])
  | sign pubs i o => obtain ⟨mem, _, h⟩ := withMgr_wr h; simp at h

/-- A call other than rotate, replay and move, complete or not, changes no situation of an identifier that is taken. -/
theorem ToldInv.other {env : Env} {n : Node} {f : Nat → Option Keys} (hk : Kept n.ks) (h : ToldInv env f n.ks) (c : Call)
    (hc : (∀ p a, c ≠ .rotate p a) ∧ (∀ p a b, c ≠ .replay p a b) ∧ ∀ a b, c ≠ .move a b) {ws : List Wr} (hs : ∀ w ∈ ws, w ∈ (exec env n c).1) :
    ToldInv env f (n.ks.applyAll ws) := by
  refine h.frame (fun q hq => exec_rem hk c (hs _ hq)) fun w hw p hp => ?_
  have hw := hs w hw
  cases c with
  | openM s a p g x t => rw [reforms_key (openMgr_reforms hk hw)] at hp; simp at hp
  | updateAeid a s =>
    obtain ⟨mem, _, hw⟩ := withMgr_wr hw
    rw [reforms_key (updateAeid_reforms hk hw)] at hp; simp at hp
  | sign a b c => obtain ⟨mem, _, hw⟩ := withMgr_wr hw; simp at hw
  | ingest a =>
    obtain ⟨mem, _, hw⟩ := withMgr_wr hw
    obtain ⟨q, hq, hq', ha⟩ := ingest_takes (env := env) (ks := n.ks) (mem := mem) (a := a)
    have hpq : p = q := by rcases ha w hw with ha | ha <;> exact about_key ha hp
    subst hpq
    cases hf : f p with
    | none => rfl
    | some k =>
      rcases (h p k hf).1 with h1 | h1
      · exact absurd (hq ⟨w, hw, .inl (by rw [hp]; simp)⟩) h1
      · exact absurd (hq' ⟨w, hw, .inl (by rw [hp]; simp)⟩) h1
  | incept a =>
    obtain ⟨mem, _, hw⟩ := withMgr_wr hw
    obtain ⟨q, hq, hq', ha⟩ := incept_about (env := env) (ks := n.ks) (mem := mem) (a := a)
    have hpq := about_key (ha w hw) hp
    subst hpq
    cases hf : f p with
    | none => rfl
    | some k =>
      rcases (h p k hf).1 with h1 | h1
      · exact absurd (hq (List.ne_nil_of_mem hw)) h1
      · exact absurd (hq' ⟨w, hw, .inl (by rw [hp]; simp)⟩) h1
  | rotate p a => exact absurd rfl (hc.1 p a)
  | replay p a b => exact absurd rfl (hc.2.1 p a b)
  | move a b => exact absurd rfl (hc.2.2 a b)

theorem exec_some {env : Env} {n : Node} {f : Mem → List Wr × Mem × Res} {P : List Wr → Res → Prop} (h0 : P [] (.err .closed))
    (h1 : ∀ mem, n.mem = some mem → P (f mem).1 (f mem).2.2) : P (withMgr n f).1 (withMgr n f).2.2 := by
  rcases withMgr_cases n f with ⟨_, he⟩ | ⟨mem, hm, he⟩ <;> rw [he]
  · exact h0
  · exact h1 mem hm

theorem ToldInv.call {env : Env} {n : Node} {f : Nat → Option Keys} (hk : Kept n.ks) (h : ToldInv env f n.ks) (c : Call) :
    ToldInv env (Told.next f (.call c, some (exec env n c).2.2)) (n.ks.applyAll (exec env n c).1) := by
  cases c with
  | openM s a p g x t => exact h.other hk _ (by simp) fun w hw => hw
  | updateAeid a s => exact h.other hk (.updateAeid a s) (by simp) fun w hw => hw
  | sign a b c => exact h.other hk (.sign a b c) (by simp) fun w hw => hw
  | ingest a => exact h.other hk (.ingest a) (by simp) fun w hw => hw
  | incept a =>
    have hfr : ToldInv env f (n.ks.applyAll (exec env n (.incept a)).1) := h.other hk (.incept a) (by simp) fun w hw => hw
    have hrem := @exec_rem env n hk (.incept a)
    revert hfr hrem
    refine exec_some (P := fun ws r => ToldInv env f (n.ks.applyAll ws) → (∀ {q}, Wr.prmsRem q ∈ ws → n.ks.pres q ≠ none) →
      ToldInv env (Told.next f (.call (.incept a), some r)) (n.ks.applyAll ws)) (env := env) (fun h _ => h) fun mem _ hfr hrem => ?_
    dsimp only at hfr hrem ⊢
    cases hr : (incept env n.ks mem a).2 with
    | error e => exact hfr
    | ok k =>
      show ToldInv env (upd f (k.verfers.headD 0) (some k)) _
      rcases incept_cases env n.ks mem a with ⟨e, hi⟩ | ⟨t, pidx, cr, icodes, ncodes, _, _, _, _, _, hi⟩
      · rw [hi] at hr; simp at hr
      · rw [hi] at hr hrem ⊢
        have o := inceptWr_out env n.ks mem cr pidx (cr.create env a.rnd icodes pidx 0 0 a.tr a.temp)
          (cr.create env (fun i => a.rnd (icodes.length + i)) ncodes pidx 1 icodes.length a.tr a.temp)
        obtain ⟨rfl, _, hw, _, _⟩ := o.ok k hr
        rw [hw] at hrem ⊢
        refine h.renew (fun q hq => hrem hq) (fun w hw q hq => about_key (mem_inceptAll hw) hq) _ (.inl (inceptAll_pres _ _ _ _ _ _ _)) fun s hs => ?_
        rw [inceptAll_sits] at hs
        simp at hs
        subst hs
        exact ⟨rfl, rfl⟩
  | rotate pre a =>
    have hrem := @exec_rem env n hk (.rotate pre a)
    revert hrem
    refine exec_some (P := fun ws r => (∀ {q}, Wr.prmsRem q ∈ ws → n.ks.pres q ≠ none) →
      ToldInv env (Told.next f (.call (.rotate pre a), some r)) (n.ks.applyAll ws)) (env := env) (fun _ => h) fun mem _ hrem => ?_
    dsimp only at hrem ⊢
    rcases rotate_cases env n.ks mem pre a with ⟨e, hi⟩ | ⟨prm, ps, v, nxts, o⟩
    · rw [hi]
      cases e <;> first | exact h | exact h.clear pre
    · rcases o.outcome with ⟨hr, hw⟩ | ⟨hr, _⟩
      · rw [hw] at hrem ⊢
        rw [hr]
        refine h.renew (fun q hq => hrem hq) (fun w hw q hq => turns_key (rotateAll_turns hw) hq) _
          (Claimed.applyAll (.inr (by rw [o.hprm]; simp)) fun q hq => hrem hq) fun s hs => ?_
        rw [rotateAll_sits] at hs
        simp at hs
        subst hs
        exact ⟨(readPris_ok hk o.read).1.symm, rfl⟩
      · rw [hr]
        exact (h.clear pre).frame (fun q hq => hrem hq) fun w hw q hq => by rw [turns_key (rotate_turns hw) hq]; simp
  | replay pre adv er =>
    have hrem := @exec_rem env n hk (.replay pre adv er)
    revert hrem
    refine exec_some (P := fun ws r => (∀ {q}, Wr.prmsRem q ∈ ws → n.ks.pres q ≠ none) →
      ToldInv env (Told.next f (.call (.replay pre adv er), some r)) (n.ks.applyAll ws)) (env := env) (fun _ => h) fun mem _ hrem => ?_
    dsimp only at hrem ⊢
    rcases replay_cases env n.ks mem pre adv er with ⟨e, hi⟩ | ⟨prm, ps, v, hprm, hps, ⟨_, pubs, _, hv, hi⟩ | ⟨_, hv, hi⟩⟩
    · rw [hi]; exact h
    · have ht := @replay_turns env n.ks mem pre adv er
      rw [hi] at hrem ht ⊢
      refine h.renew (fun q hq => hrem hq) (fun w hw q hq => turns_key (ht hw) hq) _
        (Claimed.applyAll (.inr (by rw [hprm]; simp)) fun q hq => hrem hq) fun s hs => ?_
      rw [replayAll_sits] at hs
      simp at hs
      subst hs
      exact ⟨(readPris_ok hk hv).1.symm, rfl⟩
    · rw [hi]
      refine h.renew (ws := []) (by simp) (by simp) _ (.inr (by rw [applyAll_nil, hprm]; simp)) fun s hs => ?_
      rw [applyAll_nil, hps] at hs
      simp at hs
      subst hs
      exact ⟨(readPris_ok hk hv).1.symm, rfl⟩
  | move old new =>
    have hrem := @exec_rem env n hk (.move old new)
    revert hrem
    refine exec_some (P := fun ws r => (∀ {q}, Wr.prmsRem q ∈ ws → n.ks.pres q ≠ none) →
      ToldInv env (Told.next f (.call (.move old new), some r)) (n.ks.applyAll ws)) (env := env) (fun _ => h) fun mem _ hrem => ?_
    dsimp only at hrem ⊢
    rcases move_cases n.ks old new with ⟨r, hr, hd⟩ | ⟨prm, sit, wp, o⟩
    · rw [hr]
      cases r with
      | error e => exact h
      | ok u =>
        show ToldInv env (if old = new then f else _) _
        rw [if_pos (hd rfl)]; exact h
    · obtain ⟨s1, s2, s3⟩ := move_sits o
      have hnew : f new = none := by
        cases hf : f new with
        | none => rfl
        | some k =>
          rcases (h new k hf).1 with h1 | h1
          · exact absurd o.pnew h1
          · exact absurd o.nprm h1
      have hq : ∀ q k, q ≠ new → q ≠ old → f q = some k → Claimed (n.ks.applyAll (move n.ks old new).1) q ∧
          ∀ s, (n.ks.applyAll (move n.ks old new).1).sits q = some s → s.new.pubs = k.verfers ∧ s.nxt.pubs.map env.dig = k.digers := by
        intro q k h1 h2 hf
        refine ⟨(h q k hf).1.applyAll fun q hq => hrem hq, fun s hs => (h q k hf).2 s ?_⟩
        rw [s3 q h2 h1] at hs; exact hs
      rcases o.outcome with ⟨_, ho⟩ | ⟨e, _, ho⟩
      · have hr : (move n.ks old new).2 = .ok () := by rw [ho]
        rw [hr]
        show ToldInv env (if old = new then f else upd (upd f new (f old)) old none) _
        rw [if_neg o.ne]
        intro q k hf
        by_cases h2 : q = old
        · subst h2; simp at hf
        rw [upd_ne _ _ h2] at hf
        by_cases h1 : q = new
        · subst h1
          rw [upd_same] at hf
          refine ⟨.inl ?_, fun s hs => ?_⟩
          · rw [ho]
            show (n.ks.applyAll ((_ ++ wp) ++ [Wr.pres old q, .pres q q])).pres q ≠ none
            rw [applyAll_append]
            simp [Ks.apply]
          · rw [s1] at hs
            simp at hs; subst hs
            exact (h old k hf).2 sit o.hsit
        · rw [upd_ne _ _ h1] at hf
          exact hq q k h1 h2 hf
      · have hr : (move n.ks old new).2 = .error e := by rw [ho]
        rw [hr]
        show ToldInv env f _
        intro q k hf
        by_cases h1 : q = new
        · subst h1; rw [hnew] at hf; simp at hf
        by_cases h2 : q = old
        · subst h2
          refine ⟨(h q k hf).1.applyAll fun q hq => hrem hq, fun s hs => ?_⟩
          rw [s2] at hs; simp at hs
        · exact hq q k h1 h2 hf

theorem ToldInv.crash {env : Env} {n : Node} {f : Nat → Option Keys} (hk : Kept n.ks) (h : ToldInv env f n.ks) (c : Call) (k : Nat) :
    ToldInv env (Told.next f (.crash c k, none)) (n.ks.applyAll ((exec env n c).1.take k)) := by
  have hrem : ∀ q, Wr.prmsRem q ∈ (exec env n c).1.take k → n.ks.pres q ≠ none := fun q hq => exec_rem hk c (List.mem_of_mem_take hq)
  cases c with
  | openM s a p g x t => exact h.other hk _ (by simp) fun w hw => List.mem_of_mem_take hw
  | updateAeid a s => exact h.other hk (.updateAeid a s) (by simp) fun w hw => List.mem_of_mem_take hw
  | sign a b c => exact h.other hk (.sign a b c) (by simp) fun w hw => List.mem_of_mem_take hw
  | ingest a => exact h.other hk (.ingest a) (by simp) fun w hw => List.mem_of_mem_take hw
  | incept a => exact h.other hk (.incept a) (by simp) fun w hw => List.mem_of_mem_take hw
  | rotate pre a =>
    refine (h.clear pre).frame hrem fun w hw q hq => ?_
    obtain ⟨mem, _, hw⟩ := withMgr_wr (List.mem_of_mem_take hw)
    rw [turns_key (rotate_turns hw) hq]; simp
  | replay pre adv er =>
    refine (h.clear pre).frame hrem fun w hw q hq => ?_
    obtain ⟨mem, _, hw⟩ := withMgr_wr (List.mem_of_mem_take hw)
    rw [turns_key (replay_turns hw) hq]; simp
  | move old new =>
    refine (h.clear old).frame hrem fun w hw q hq => ?_
    obtain ⟨mem, _, hw⟩ := withMgr_wr (List.mem_of_mem_take hw)
    rcases move_cases n.ks old new with ⟨r, hr, hd⟩ | ⟨prm, sit, wp, o⟩
    · rw [hr] at hw; simp at hw
    · have hwp : ∀ {w : Wr}, w ∈ wp → w.sitKey = none := by
        intro w hw
        rw [o.hwp] at hw
        obtain ⟨j, l, _, rfl⟩ := movePubs_mem hw
        rfl
      have hqq : q = new ∨ q = old := by
        rcases o.outcome with ⟨_, ho⟩ | ⟨e, _, ho⟩ <;> rw [ho] at hw <;>
          simp only [List.mem_append, List.mem_cons, List.not_mem_nil, or_false] at hw
        · rcases hw with ((rfl | rfl | rfl | rfl) | hw) | rfl | rfl <;> (try (rw [hwp hw] at hq)) <;> simp [Wr.sitKey] at hq <;> simp [hq]
        · rcases hw with (rfl | rfl | rfl | rfl) | hw <;> (try (rw [hwp hw] at hq)) <;> simp [Wr.sitKey] at hq <;> simp [hq]
      by_cases h2 : q = old
      · subst h2; simp
      · rw [upd_ne _ _ h2]
        rcases hqq with rfl | hc
        · cases hf : f q with
          | none => rfl
          | some k =>
            rcases (h q k hf).1 with h1 | h1
            · exact absurd o.pnew h1
            · exact absurd o.nprm h1
        · exact absurd hc h2

theorem Happened.toldInv {env : Env} {h : Hist} {n : Node} (hh : Happened env h n) : ToldInv env (told h) n.ks :=
  (run_ind (P := fun n h => Kept n.ks ∧ ToldInv env (told h) n.ks) ⟨Kept.start, by intro p k hp; simp [told] at hp⟩
    (fun n h i hi => by
      refine ⟨hi.1.step i, ?_⟩
      rw [told_append]
      cases i with
      | call c => exact hi.2.call hi.1 c
      | crash c k => exact hi.2.crash hi.1 c k) hh).2

/-- **C70.** After any history, if the caller was last told `k` about an identifier, a rotation that succeeds returns exactly the public keys with the
digests told, in order. A replay that advances does as well; one that does not repeats what was told.

Missing: rotations after an interrupted call for the identifier itself (`told` is `none` then). The property is false there (`c70_skips`). -/
theorem c70_revealed_partial {env : Env} {h : Hist} {n : Node} (hh : Happened env h n) {mem : Mem} (_hm : n.mem = some mem) {pre : Nat} {k k' : Keys}
    (ht : told h pre = some k) :
    (∀ a, (rotate env n.ks mem pre a).2 = .ok k' → k'.verfers.map env.dig = k.digers) ∧
      (∀ er, (replay env n.ks mem pre true er).2 = .ok k' → k'.verfers.map env.dig = k.digers) ∧
      (∀ er, (replay env n.ks mem pre false er).2 = .ok k' → k' = k) := by
  have hi := (hh.toldInv pre k ht).2
  refine ⟨fun a hr => ?_, fun er hr => ?_, fun er hr => ?_⟩
  · rcases rotate_cases env n.ks mem pre a with ⟨e, he⟩ | ⟨prm, ps, v, nxts, o⟩
    · rw [he] at hr; simp at hr
    · rcases o.outcome with ⟨ho, _⟩ | ⟨ho, _⟩ <;> rw [ho] at hr <;> simp at hr
      subst hr
      rw [show (⟨v, nxts.map env.dig⟩ : Keys).verfers = ps.nxt.pubs from (readPris_ok hh.kept o.read).1]
      exact (hi ps o.hsit).2
  · rcases replay_cases env n.ks mem pre true er with ⟨e, he⟩ | ⟨prm, ps, v, hprm, hps, ⟨_, pubs, _, hv, he⟩ | ⟨hf, _⟩⟩
    · rw [he] at hr; simp at hr
    · rw [he] at hr; simp at hr
      subst hr
      rw [show (⟨v, pubs.map env.dig⟩ : Keys).verfers = ps.nxt.pubs from (readPris_ok hh.kept hv).1]
      exact (hi ps hps).2
    · simp at hf
  · rcases replay_cases env n.ks mem pre false er with ⟨e, he⟩ | ⟨prm, ps, v, hprm, hps, ⟨hf, _⟩ | ⟨_, hv, he⟩⟩
    · rw [he] at hr; simp at hr
    · simp at hf
    · rw [he] at hr; simp at hr
      subst hr
      obtain ⟨h1, h2⟩ := hi ps hps
      have := (readPris_ok hh.kept hv).1
      cases k
      simp only at h1 h2
      rw [this, h1, h2]

end Verif.Mgr
