import Verif.Kel.Order
import Verif.Thold.Lemmas

/-! # Delivery of a log in pieces: what an acceptance fixes, and what partial attachments do -/

namespace Verif.Kel

open Verif.Thold (Thold)

/-! ## The state an acceptance leads to does not depend on the attachments -/

theorem rotate_det {env : Env} {a b : Db} {k : Kever} {e : Event} {r r' : List Id × List Id × List Id}
    (h : rotate env a k e = .ok r) (h' : rotate env b k e = .ok r') : r = r' := by
  unfold rotate at h h'
  split at h
  · exact absurd h (by simp)
  split at h'
  · exact absurd h' (by simp)
  rw [h] at h'
  injection h'

/-- Two acceptances of the same event over the same key state and the same length of the first-seen log lead to the same key
state. -/
theorem accepts_det {env : Env} {a b : Node} {e : Event} {ss ws ss' ws' : List Sig} {c c' : Option Couple}
    {eager eager' l l' : Bool} {k1 k1' : Kever} {v v' : Verified} {w w' : List Id}
    (hk : b.kevers e.pre = a.kevers e.pre) (hf : b.db.fels e.pre = a.db.fels e.pre)
    (h : Accepts env a e ss ws c eager l k1 v w) (h' : Accepts env b e ss' ws' c' eager' l' k1' v' w') : k1 = k1' := by
  rcases h with ⟨g, _⟩ | ⟨k, g⟩ | ⟨k, g, _⟩ <;> rcases h' with ⟨g', _⟩ | ⟨k', g'⟩ | ⟨k', g', _⟩
  · obtain ⟨k, i1, _, _, i2⟩ := g.inc
    obtain ⟨k', i1', _, _, i2'⟩ := g'.inc
    rw [i1] at i1'; injection i1' with i1'
    rw [i2, i2', hf, i1']
  · have h1 := g.fresh; have h2 := g'.known; rw [hk, h1] at h2; exact absurd h2 (by simp)
  · have h1 := g.fresh; have h2 := g'.known; rw [hk, h1] at h2; exact absurd h2 (by simp)
  · have h1 := g.known; have h2 := g'.fresh; rw [hk, h1] at h2; exact absurd h2 (by simp)
  · have h1 := g.known; have h2 := g'.known; rw [hk, h1] at h2; injection h2 with h2; subst h2
    obtain ⟨cu, ad, i1, _, _, i2⟩ := g.rot
    obtain ⟨cu', ad', i1', _, _, i2'⟩ := g'.rot
    have hr := rotate_det i1 i1'
    injection hr with r1 r2; injection r2 with r2 r3
    rw [i2, i2', hf, r1, r2, r3]
  · have h1 := g.ilk; have h2 := g'.ilk
    rcases h1 with h1 | h1 <;> rw [h1] at h2 <;> exact absurd h2 (by simp)
  · have h1 := g.known; have h2 := g'.fresh; rw [hk, h1] at h2; exact absurd h2 (by simp)
  · have h1 := g.ilk; have h2 := g'.ilk
    rcases h2 with h2 | h2 <;> rw [h1] at h2 <;> exact absurd h2 (by simp)
  · have h1 := g.known; have h2 := g'.known; rw [hk, h1] at h2; injection h2 with h2; subst h2
    obtain ⟨_, _, i2⟩ := g.val
    obtain ⟨_, _, i2'⟩ := g'.val
    rw [i2, i2', hf]

section

variable {env : Env} {ps gs : List Id} {md : Id → Option Id} {l : Bool} {p : Id} {L : List Msg}

/-- Rotations of the log are at or before the last establishment event. -/
theorem inOrder_lastS (hv : ValidLog env (Node.start ps gs md) l p L) (j : Nat) (hj : j ≤ L.length) (k : Kever)
    (hk : (inOrder env (Node.start ps gs md) l L j).kevers p = some k) (i : Nat) (hi : i < L.length) (hij : i < j)
    (hr : L[i].e.ilk = .rot) : i ≤ k.lastS := by
  induction j generalizing k with
  | zero => omega
  | succ j ih =>
    obtain ⟨k1, v, w, _, g, ha⟩ := enters_acc (inOrder_reached j).evtU.ok (hv.ent j (by omega))
    have hkk : k1 = k := by
      rw [g.kevers, hv.pre] at hk; simp [upd] at hk; exact hk
    subst hkk
    rcases ha with ⟨a, _⟩ | ⟨k, a⟩ | ⟨k, a, _⟩
    · rcases inOrder_kever hv j (by omega) with ⟨h0, _⟩ | ⟨k, h0, _⟩
      · subst h0
        have : i = 0 := by omega
        omega
      · have := a.fresh; rw [hv.pre, h0] at this; exact absurd this (by simp)
    · obtain ⟨_, _, _, _, _, h⟩ := a.rot
      rw [h]
      show i ≤ L[j].e.sn
      rw [hv.sn]; omega
    · obtain ⟨_, _, h⟩ := a.val
      have hne : i ≠ j := by
        intro h; subst h
        have := a.ilk; rw [hr] at this; exact absurd this (by simp)
      have hkn := a.known
      rw [hv.pre] at hkn
      rw [h]
      exact ih (by omega) k hkn (by omega)

/-- Where a node agrees with in-order delivery up to `j`, only the `j`-th event can be accepted. -/
theorem accepts_at (hv : ValidLog env (Node.start ps gs md) l p L) {n : Node} {j : Nat} (hj : j ≤ L.length)
    (hl : LogsEq (inOrder env (Node.start ps gs md) l L j) n) (i : Nat) (hi : i < L.length) {ss ws : List Sig}
    {c : Option Couple} {eager l' : Bool} {k1 : Kever} {v : Verified} {w : List Id}
    (ha : Accepts env n L[i].e ss ws c eager l' k1 v w) : i = j := by
  obtain ⟨_, _, _, _, l5⟩ := hl
  rcases ha with ⟨a, _⟩ | ⟨k, a⟩ | ⟨k, a, _⟩
  · obtain ⟨k, hk, _⟩ := a.inc
    have h0 := (incept_eq env L[i].e k hk).1
    have hf := a.fresh
    rw [hv.sn] at h0
    rw [hv.pre, l5] at hf
    rcases inOrder_kever hv j hj with ⟨h1, _⟩ | ⟨k, h1, _⟩
    · omega
    · rw [hf] at h1; exact absurd h1 (by simp)
  · have hk := a.known
    rw [hv.pre, l5] at hk
    have hsn : k.sn + 1 = j := by
      rcases inOrder_kever hv j hj with ⟨_, h1⟩ | ⟨k', h1, h2⟩
      · rw [hk] at h1; exact absurd h1 (by simp)
      · rw [hk] at h1; injection h1 with h1; subst h1; exact h2
    rcases a.seq with h | ⟨h, h1, h2⟩ | ⟨h, _, _⟩
    · rw [hv.sn] at h; omega
    · rw [hv.sn] at h1 h2
      apply Decidable.byContradiction
      intro hne
      have := inOrder_lastS hv j hj k hk i hi (by omega) h
      omega
    · exact absurd h (hv.drt i hi)
  · have hk := a.known
    rw [hv.pre, l5] at hk
    have hsn : k.sn + 1 = j := by
      rcases inOrder_kever hv j hj with ⟨_, h1⟩ | ⟨k', h1, h2⟩
      · rw [hk] at h1; exact absurd h1 (by simp)
      · rw [hk] at h1; injection h1 with h1; subst h1; exact h2
    have := a.seq
    rw [hv.sn] at this
    omega

/-- Processing an event of the log, with whatever attachments and from whatever source, leaves a node that agrees with in-order
delivery. -/
theorem prefix_proc (hv : ValidLog env (Node.start ps gs md) l p L) {n : Node} {j : Nat} (hj : j ≤ L.length)
    (hok : EvtOk n.db) (hl : LogsEq (inOrder env (Node.start ps gs md) l L j) n) (i : Nat) (hi : i < L.length)
    (ss ws : List Sig) (c : Option Couple) (eager l' : Bool) :
    LogsEq (inOrder env (Node.start ps gs md) l L j) (n.processEvent env L[i].e ss ws c eager l').1 ∨
    (i = j ∧ LogsEq (inOrder env (Node.start ps gs md) l L (j + 1)) (n.processEvent env L[i].e ss ws c eager l').1) := by
  rcases processEvent_cases env n L[i].e ss ws c eager l' hok with g | ⟨_, k1, v, w, _, g, ha⟩
  · exact .inl (LogsEq.trans hl ⟨g.db.kels, g.db.fels, g.db.fons, g.db.states, g.kevers⟩)
  · have hij := accepts_at hv hj hl i hi ha
    subst hij
    refine .inr ⟨rfl, ?_⟩
    obtain ⟨l1, l2, l3, l4, l5⟩ := hl
    obtain ⟨k1', v', w', hp', g', ha'⟩ := enters_acc (inOrder_reached i).evtU.ok (hv.ent i hi)
    have hk := accepts_det (by rw [l5]) (by rw [l2]) ha' ha
    subst hk
    refine ⟨?_, ?_, ?_, ?_, ?_⟩
    · rw [g.db.kels, g'.db.kels, l1]
    · rw [g.db.fels, g'.db.fels, l2]
    · rw [g.db.fons, g'.db.fons, l2, l3]
    · rw [g.db.states, g'.db.states, l4]
    · rw [g.kevers, g'.kevers, l5]

theorem prefix_steps (hv : ValidLog env (Node.start ps gs md) l p L) {a b : Node}
    (hs : Steps env (Msg.events L) a b) (hu : EvtU (Msg.events L) a)
    (h : ∃ j, j ≤ L.length ∧ LogsEq (inOrder env (Node.start ps gs md) l L j) a) :
    ∃ j, j ≤ L.length ∧ LogsEq (inOrder env (Node.start ps gs md) l L j) b := by
  induction hs with
  | refl => exact h
  | tail hs g ih =>
    obtain ⟨j, hj, hl⟩ := ih
    have hu' := hu.steps hs
    cases g with
    | core g => exact ⟨j, hj, LogsEq.trans hl ⟨g.kels, g.fels, g.fons, g.states, g.kevers⟩⟩
    | event e ss ws c eager l' he =>
      obtain ⟨m, hm, rfl⟩ := he
      obtain ⟨i, hi, rfl⟩ := List.getElem_of_mem hm
      rcases prefix_proc hv hj hu'.ok hl i hi ss ws c eager l' with h | ⟨h, h'⟩
      · exact ⟨j, hj, h⟩
      · exact ⟨j + 1, by omega, h'⟩

end

/-! ## Part of the signatures -/

/-- A signature that verifies with the key at its index. -/
def Verifies (env : Env) (keys : List Id) (e : Event) (s : Sig) : Prop :=
  ∃ key, keys[s.index]? = some key ∧ env.verify key s.raw e = true

theorem mem_verifySigs_iff {env : Env} {e : Event} {ss : List Sig} {keys : List Id} {s : Sig} :
    s ∈ verifySigs env e ss keys ↔ s ∈ ss ∧ Verifies env keys e s := by
  unfold verifySigs Verifies
  rw [List.mem_filter, mem_oset]
  cases h : keys[s.index]? with
  | none => simp
  | some k => simp

theorem satisfy_perm (t : Thold) {is js : List Nat} (h : is.Perm js) : Thold.satisfy t is = Thold.satisfy t js := by
  cases t with
  | num m => simp only [Thold.satisfy, Thold.satisfyNum, h.length_eq]
  | wtd cs =>
    simp only [Thold.satisfy]
    rw [Bool.eq_iff_iff, Verif.Thold.satisfyWtd_iff, Verif.Thold.satisfyWtd_iff]
    have h1 : (fun i => decide (i ∈ is)) = fun i => decide (i ∈ js) := by funext i; simp [h.mem_iff]
    have h2 : is ≠ [] ↔ js ≠ [] := by
      constructor
      · intro h' h0; subst h0; exact h' h.eq_nil
      · intro h' h0; subst h0; exact h' h.symm.eq_nil
    have h3 : (∀ i ∈ is, i < Verif.Thold.totalLeaves cs) ↔ ∀ i ∈ js, i < Verif.Thold.totalLeaves cs := by simp [h.mem_iff]
    rw [h1, h2, h3]

/-- What validation with part of the signatures of an acceptable message comes to: acceptance, or the escrow for signatures, or
that for witness signatures; acceptance when no verifying signature is left out. -/
theorem val_sub {env : Env} {n c : Node} (hc : SameCfg n c) {k : Kever} {e : Event} {ss ws ss' ws' : List Sig}
    {keys : List Id} {kt : Thold} {toad : Nat} {wits : List Id} {couple couple' : Option Couple} {eager eager' l : Bool}
    {v : Verified} {db : Db} (hm : l = true ∨ k.pre ∉ n.groups) (hdi : e.ilk ≠ .dip) (hdr : e.ilk ≠ .drt)
    (hs : ∃ s, s ∈ ss' ∧ Verifies env keys e s)
    (h : n.valSigsWigsDel env k e ss ws keys kt toad wits couple eager l = (db, .ok v)) :
    (c.valSigsWigsDel env k e ss' ws' keys kt toad wits couple' eager' l =
        (c.db, .ok ⟨verifySigs env e ss' keys, verifySigs env e ws' wits, none⟩) ∨
     ¬ ((∀ s, s ∈ ss ∧ Verifies env keys e s ↔ s ∈ ss' ∧ Verifies env keys e s) ∧
        ∀ s, s ∈ ws ∧ Verifies env wits e s ↔ s ∈ ws' ∧ Verifies env wits e s) ∧
     (c.valSigsWigsDel env k e ss' ws' keys kt toad wits couple' eager' l =
        (c.db.escrowPS e (verifySigs env e ss' keys) (verifySigs env e ws' wits) couple' l, .error .missingSignature) ∨
      c.valSigsWigsDel env k e ss' ws' keys kt toad wits couple' eager' l =
        (c.db.escrowPW e (verifySigs env e ss' keys) (verifySigs env e ws' wits) couple' l, .error .missingWitness))) := by
  have herr : ∀ {db' : Db} {x : Exn}, (db', (Except.error x : Except Exn Verified)) = (db, .ok v) → False := by
    intro db' x h; injection h with _ h; exact absurd h (by simp)
  have h1 : ∀ p, c.owned p = n.owned p := fun p => by simp [Node.owned, hc.prefixes, hc.groups]
  have h2 : ∀ p, c.membered p = n.membered p := fun p => by simp [Node.membered, hc.groups]
  have h3 : ∀ k w, c.witnessed k w = n.witnessed k w := fun k w => by simp [Node.witnessed, hc.prefixes]
  have h5 : ∀ p, c.delegated p = n.delegated p := fun p => by cases p <;> simp [Node.delegated, hc.prefixes]
  have hd : delegator k e = .ok none := by
    unfold delegator; split
    · rename_i h; exact absurd h hdi
    · rename_i h; exact absurd h hdr
    · rfl
  have hnm : (!l && n.membered k.pre) = false := by
    rcases hm with h | h
    · simp [h]
    · simp [Node.membered, h]
  have hfil : ∀ x : List Sig, (x.filter fun s => !decide (s.index ∈ ([] : List Nat))) = x := by
    intro x; simp
  have hvs' : verifySigs env e ss' keys ≠ [] := by
    obtain ⟨s, hs1, hs2⟩ := hs
    intro h0
    have := (mem_verifySigs_iff (env := env) (e := e) (ss := ss') (keys := keys) (s := s)).2 ⟨hs1, hs2⟩
    rw [h0] at this; exact absurd this (by simp)
  unfold Node.valSigsWigsDel at h ⊢
  split at h
  · exact (herr h).elim
  rename_i vs hvs
  simp only [hd] at h ⊢
  unfold Node.checkSigs at hvs
  split at hvs
  · exact absurd hvs (by simp)
  rename_i hsize
  rw [hnm] at hvs
  simp only [Bool.false_eq_true, if_false, hfil] at hvs
  split at hvs
  · exact absurd hvs (by simp)
  injection hvs with hvs
  subst hvs
  have hcs : c.checkSigs env k e ss' keys kt l = .ok (verifySigs env e ss' keys) := by
    unfold Node.checkSigs
    rw [if_neg hsize, h2, hnm]
    simp only [Bool.false_eq_true, if_false, hfil]
    rw [if_neg hvs']
  rw [hcs]
  simp only [h1, h3, h5]
  split at h
  · exact (herr h).elim
  rename_i g1
  rw [if_neg g1]
  split at h
  · exact (herr h).elim
  rename_i g2
  rw [if_neg g2]
  split at h
  · exact (herr h).elim
  rename_i g3
  split at h
  · exact (herr h).elim
  rename_i g4
  -- permutations when nothing verifying is left out
  have hperm : ((∀ s, s ∈ ss ∧ Verifies env keys e s ↔ s ∈ ss' ∧ Verifies env keys e s) ∧
        ∀ s, s ∈ ws ∧ Verifies env wits e s ↔ s ∈ ws' ∧ Verifies env wits e s) →
      (verifySigs env e ss keys).Perm (verifySigs env e ss' keys) ∧
      (verifySigs env e ws wits).Perm (verifySigs env e ws' wits) := by
    rintro ⟨q1, q2⟩
    refine ⟨(List.perm_ext_iff_of_nodup (nodup_verifySigs ..) (nodup_verifySigs ..)).2 ?_,
      (List.perm_ext_iff_of_nodup (nodup_verifySigs ..) (nodup_verifySigs ..)).2 ?_⟩
    · intro s; rw [mem_verifySigs_iff, mem_verifySigs_iff]; exact q1 s
    · intro s; rw [mem_verifySigs_iff, mem_verifySigs_iff]; exact q2 s
  by_cases f3 : (!Thold.satisfy kt ((verifySigs env e ss' keys).map Sig.index)) = true
  · rw [if_pos f3]
    refine .inr ⟨fun hq => g3 ?_, .inl rfl⟩
    rw [satisfy_perm kt ((hperm hq).1.map Sig.index)]; exact f3
  rw [if_neg f3]
  by_cases f4 : (e.ilk = .rot ∨ e.ilk = .drt) ∧
      (!Thold.satisfy k.nt (exposeds env k.ndigs keys (verifySigs env e ss' keys))) = true
  · rw [if_pos f4]
    refine .inr ⟨fun hq => g4 ⟨f4.1, ?_⟩, .inl rfl⟩
    unfold exposeds at f4 ⊢
    rw [satisfy_perm k.nt ((hperm hq).1.filterMap _)]; exact f4.2
  rw [if_neg f4]
  unfold Node.checkWitDel at h ⊢
  simp only [h1, h2, h3] at h ⊢
  split at h
  · exact (herr h).elim
  rename_i g5
  rw [if_neg g5]
  split at h
  · exact (herr h).elim
  rename_i g6
  rw [if_neg g6]
  split at h
  · exact (herr h).elim
  rename_i g7
  by_cases f7 : wits ≠ [] ∧ (!(n.owned k.pre || n.membered k.pre || n.witnessed k wits)) = true ∧
      ((verifySigs env e ws' wits).map Sig.index).length < toad
  · rw [if_pos f7]
    refine .inr ⟨fun hq => g7 ⟨f7.1, f7.2.1, ?_⟩, .inr rfl⟩
    rw [List.length_map, (hperm hq).2.length_eq]
    simpa using f7.2.2
  rw [if_neg f7, if_neg (by simp [hdi, hdr])]
  left
  simp only [Node.validateDelegation]

/-- Processing an acceptable message with part of its signatures. -/
theorem proc_sub {env : Env} {n c : Node} (hc : SameCfg n c) {e : Event} {ss ws ss' ws' : List Sig}
    {couple couple' : Option Couple} {eager eager' l : Bool} {k1 : Kever} {v : Verified} {w : List Id}
    (hb : Below e n.db c.db) (hm : l = true ∨ e.pre ∉ n.groups) (hdi : e.ilk ≠ .dip) (hdr : e.ilk ≠ .drt)
    (hpre : env.okPre e.pre = true) (hs : ∃ s, s ∈ ss' ∧ Verifies env k1.keys e s)
    (ha : Accepts env n e ss ws couple eager l k1 v w) :
    (∃ v', Accepts env c e ss' ws' couple' eager' l { k1 with fn := (c.db.fels e.pre).length } v' w) ∨
    ¬ ((∀ s, s ∈ ss ∧ Verifies env k1.keys e s ↔ s ∈ ss' ∧ Verifies env k1.keys e s) ∧
        ∀ s, s ∈ ws ∧ Verifies env k1.wits e s ↔ s ∈ ws' ∧ Verifies env k1.wits e s) ∧
    ∃ cp, c.processEvent env e ss' ws' couple' eager' l = 
          ({ c with db := (c.db.escrowPS e (verifySigs env e ss' k1.keys) (verifySigs env e ws' k1.wits) cp l) }, .error .missingSignature) ∨
      c.processEvent env e ss' ws' couple' eager' l = 
          ({ c with db := (c.db.escrowPW e (verifySigs env e ss' k1.keys) (verifySigs env e ws' k1.wits) cp l) }, .error .missingWitness) := by
  have hne : ss' ≠ [] := by
    obtain ⟨s, h, _⟩ := hs
    intro h0; rw [h0] at h; exact absurd h (by simp)
  rcases ha with ⟨a, hw⟩ | ⟨k, a⟩ | ⟨k, a, hw⟩
  · obtain ⟨k, hinc, db, hv, hk1⟩ := a.inc
    obtain ⟨_, _, _, _, _, hkeq⟩ := incept_eq env e k hinc
    have q1 : k1.keys = e.keys := by rw [hk1, hkeq]
    have q2 : k1.wits = e.wits := by rw [hk1, hkeq]
    have q3 : k.pre = e.pre := by rw [hkeq]
    rw [q1] at hs
    have hpr : c.processEvent env e ss' ws' couple' eager' l = c.inception env e ss' ws' couple' eager' l := by
      unfold Node.processEvent
      rw [if_neg (by simp [hpre]), hc.kevers, a.fresh]
      simp only
      rw [if_pos a.ilk]
    rw [q1, q2, hpr]
    rcases val_sub (ws' := ws') (couple' := couple') (eager' := eager') hc (by rw [q3]; exact hm) hdi hdr hs hv with h | ⟨hq, h | h⟩
    · exact .inl ⟨_, .inl ⟨⟨by rw [hc.kevers]; exact a.fresh, a.okPre, a.ilk, k, hinc, c.db, h, by rw [hk1, hkeq]⟩, hw⟩⟩
    · refine .inr ⟨hq, couple', .inl ?_⟩
      unfold Node.inception
      rw [if_neg hne, hinc]; simp only; rw [h]
    · refine .inr ⟨hq, couple', .inr ?_⟩
      unfold Node.inception
      rw [if_neg hne, hinc]; simp only; rw [h]
  · obtain ⟨cuts, adds, hr, db, hv, hk1⟩ := a.rot
    have hilk : e.ilk = .rot := a.ilk.resolve_right hdr
    have q1 : k1.keys = e.keys := by rw [hk1]; rfl
    have q2 : k1.wits = w := by rw [hk1]; rfl
    rw [q1] at hs
    have hr' := rotate_congr hb hr
    have hdel : ¬ (k.delpre.isSome = true ∧ e.ilk ≠ .drt) := fun h => h.2 (a.deleg h.1)
    have hpr : c.processEvent env e ss' ws' couple' eager' l = c.updateRot env k e ss' ws' couple' eager' l := by
      have hgt : ¬ e.sn > k.sn + 1 := by
        rcases a.seq with h | ⟨_, _, h⟩ | ⟨_, _, h⟩ <;> omega
      have hseq := a.seq
      unfold InSeq at hseq
      unfold Node.processEvent
      rw [if_neg (by simp [hpre]), hc.kevers, a.known]
      simp only
      rw [if_neg (by simp [hilk]), if_neg hgt, if_pos hseq]
      unfold Node.update
      rw [if_neg (by simp [a.trans]), if_neg (by simp [a.pre]), hilk]
    rw [q1, q2, hpr]
    rcases val_sub (ws' := ws') (couple' := couple') (eager' := eager') hc (by rw [← a.pre]; exact hm) hdi hdr hs hv with h | ⟨hq, h | h⟩
    · exact .inl ⟨_, .inr (.inl ⟨k, by rw [hc.kevers]; exact a.known, a.ilk, a.seq, a.trans, a.pre, a.deleg, cuts, adds,
        hr', c.db, h, by rw [hk1]; rfl⟩)⟩
    · refine .inr ⟨hq, couple', .inl ?_⟩
      unfold Node.updateRot
      rw [if_neg hdel, hr']; simp only; rw [h]
    · refine .inr ⟨hq, couple', .inr ?_⟩
      unfold Node.updateRot
      rw [if_neg hdel, hr']; simp only; rw [h]
  · obtain ⟨db, hv, hk1⟩ := a.val
    have q1 : k1.keys = k.keys := by rw [hk1]; rfl
    have q2 : k1.wits = k.wits := by rw [hk1]; rfl
    rw [q1] at hs
    have hpr : c.processEvent env e ss' ws' couple' eager' l = c.updateIxn env k e ss' ws' eager' l := by
      unfold Node.processEvent
      rw [if_neg (by simp [hpre]), hc.kevers, a.known]
      simp only
      rw [if_neg (by simp [a.ilk]), if_neg (by have := a.seq; omega), if_pos (.inl a.seq)]
      unfold Node.update
      rw [if_neg (by simp [a.trans]), if_neg (by simp [a.pre]), a.ilk]
    rw [q1, q2, hpr]
    rcases val_sub (ws' := ws') (couple' := none) (eager' := eager') hc (by rw [← a.pre]; exact hm) hdi hdr hs hv with h | ⟨hq, h | h⟩
    · exact .inl ⟨_, .inr (.inr ⟨k, ⟨by rw [hc.kevers]; exact a.known, a.ilk, a.trans, a.pre, a.estOnly, a.seq, a.prior, c.db,
        h, by rw [hk1]; rfl⟩, hw⟩)⟩
    · refine .inr ⟨hq, none, .inl ?_⟩
      unfold Node.updateIxn
      rw [if_neg (by simp [a.estOnly]), if_neg (by simp [a.seq]), if_neg (by simp [a.prior]), h]
    · refine .inr ⟨hq, none, .inr ?_⟩
      unfold Node.updateIxn
      rw [if_neg (by simp [a.estOnly]), if_neg (by simp [a.seq]), if_neg (by simp [a.prior]), h]

end Verif.Kel
