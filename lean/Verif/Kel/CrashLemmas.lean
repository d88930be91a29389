import Verif.Kel.Crash

/-! # Intermediate databases of an acceptance, and validation on them: helper lemmas -/

namespace Verif.Kel

open Verif.Thold (Thold)

/-- Logs and states as before; stored events and signatures only grow, by `e`. -/
structure Grow (e : Event) (a b : Db) : Prop where
  kels : b.kels = a.kels
  fels : b.fels = a.fels
  fons : b.fons = a.fons
  states : b.states = a.states
  mono : ∀ p d x, a.evts p d = some x → b.evts p d = some x
  only : ∀ p d x, b.evts p d = some x → a.evts p d = some x ∨ (p = e.pre ∧ d = e.said ∧ x = e)
  sigs : ∀ p d s, s ∈ a.sigs p d → s ∈ b.sigs p d

theorem Grow.of_same {e : Event} {a b : Db} (h : Same e a b) : Grow e a b :=
  ⟨h.kels, h.fels, h.fons, h.states, h.mono, h.only, h.sigs⟩

theorem Grow.trans {e : Event} {a b c : Db} (h : Grow e a b) (g : Grow e b c) : Grow e a c :=
  ⟨g.kels.trans h.kels, g.fels.trans h.fels, g.fons.trans h.fons, g.states.trans h.states,
   fun p d x hx => g.mono p d x (h.mono p d x hx),
   fun p d x hx => (g.only p d x hx).elim (fun h' => h.only p d x h') .inr,
   fun p d x hx => g.sigs p d x (h.sigs p d x hx)⟩

theorem grow_fold {e : Event} (l : List (Db → Db)) (h : ∀ w, w ∈ l → ∀ d, Grow e d (w d)) (d : Db) :
    Grow e d (l.foldl (fun d w => w d) d) := by
  induction l generalizing d with
  | nil => exact .of_same .rfl'
  | cons w l ih =>
    rw [List.foldl_cons]
    exact (h w (by simp) d).trans (ih (fun w' hw' => h w' (by simp [hw'])) _)

/-- The first six writes. -/
def Node.firstWrites (n : Node) (k : Kever) (e : Event) (ss ws : List Sig) (wits : List Id)
    (couple : Option Couple) (isLocal : Bool) : List (Db → Db) :=
  [fun db => db.putSigs e ss, fun db => db.putWigs e ws, fun db => db.putWits e wits, fun db => db.putEvt e,
   fun db => n.logAes k e wits couple db, fun db => db.esr e isLocal]

theorem grow_first (n : Node) (k : Kever) (e : Event) (ss ws : List Sig) (wits : List Id) (couple : Option Couple)
    (isLocal : Bool) (i : Nat) (d : Db) :
    Grow e d (((n.firstWrites k e ss ws wits couple isLocal).take i).foldl (fun d w => w d) d) := by
  apply grow_fold
  intro w hw d
  have hw := List.mem_of_mem_take hw
  simp only [Node.firstWrites, List.mem_cons, List.not_mem_nil, or_false] at hw
  rcases hw with rfl | rfl | rfl | rfl | rfl | rfl
  · exact .of_same (same_putSigs ..)
  · exact .of_same (same_putWigs ..)
  · exact ⟨rfl, rfl, rfl, rfl, fun _ _ _ h => h, fun _ _ _ h => .inl h, fun _ _ _ h => h⟩
  · exact .of_same (same_putEvt ..)
  · exact .of_same (same_logAes ..)
  · exact .of_same (same_esr ..)

/-- The database after `i` writes of an acceptance: what each of the logs holds. -/
structure Mid (e : Event) (k1 : Kever) (v : Verified) (i : Nat) (a b : Db) : Prop where
  kels : b.kels = if i < 9 then a.kels else upd2 a.kels e.pre e.sn (ioAdd (a.kels e.pre e.sn) e.said)
  fels : b.fels = if i < 7 then a.fels else upd a.fels e.pre (a.fels e.pre ++ [e.said])
  states : b.states = if i < 10 then a.states else upd a.states k1.pre (some k1)
  fonsPre : i < 8 → b.fons = a.fons
  mono : ∀ p d x, a.evts p d = some x → b.evts p d = some x
  only : ∀ p d x, b.evts p d = some x → a.evts p d = some x ∨ (p = e.pre ∧ d = e.said ∧ x = e)
  stored : 6 ≤ i → ∃ x, b.evts e.pre e.said = some x
  sigs : ∀ p d s, s ∈ a.sigs p d → s ∈ b.sigs p d
  sigsIn : 6 ≤ i → ∀ s, s ∈ v.sigs → s ∈ b.sigs e.pre e.said

theorem Mid.of_same {e : Event} {k1 : Kever} {v : Verified} {i : Nat} {a b c : Db} (h : Same e a b)
    (g : Mid e k1 v i b c) : Mid e k1 v i a c :=
  ⟨by rw [g.kels, h.kels], by rw [g.fels, h.fels], by rw [g.states, h.states],
   fun hi => by rw [g.fonsPre hi, h.fons], fun p d x hx => g.mono p d x (h.mono p d x hx),
   fun p d x hx => (g.only p d x hx).elim (fun h' => h.only p d x h') .inr, g.stored,
   fun p d s hs => g.sigs p d s (h.sigs p d s hs), g.sigsIn⟩

theorem mid_writes (n : Node) (k k1 : Kever) (e : Event) (v : Verified) (w : List Id) (c : Option Couple) (l : Bool)
    (i : Nat) : Mid e k1 v i n.db
      (((n.logWrites k e v.sigs v.wigs w true c l ++ [fun d : Db => d.pinState k1]).take i).foldl (fun d w => w d) n.db) := by
  have hp := pre_logPre n k e v.sigs v.wigs w c l
  have hlist : n.logWrites k e v.sigs v.wigs w true c l ++ [fun d : Db => d.pinState k1] =
      n.firstWrites k e v.sigs v.wigs w c l ++
      [fun db : Db => { db with fels := upd db.fels e.pre (db.fels e.pre ++ [e.said]) },
       fun db : Db => { db with fons := upd2 db.fons e.pre e.said (some ((db.fels e.pre).length - 1)) },
       fun db : Db => { db with kels := upd2 db.kels e.pre e.sn (ioAdd (db.kels e.pre e.sn) e.said) },
       fun db : Db => db.pinState k1] := rfl
  have hpre : (n.firstWrites k e v.sigs v.wigs w c l).foldl (fun d w => w d) n.db = n.logPre k e v.sigs v.wigs w c l := rfl
  rw [hlist]
  have hlen : (n.firstWrites k e v.sigs v.wigs w c l).length = 6 := rfl
  generalize n.logPre k e v.sigs v.wigs w c l = m at hp hpre
  by_cases h6 : i < 6
  · rw [List.take_append_of_le_length (by rw [hlen]; omega)]
    have g := grow_first n k e v.sigs v.wigs w c l i n.db
    exact ⟨by rw [g.kels, if_pos (by omega)], by rw [g.fels, if_pos (by omega)], by rw [g.states, if_pos (by omega)],
      fun _ => g.fons, g.mono, g.only, fun h => by omega, g.sigs, fun h => by omega⟩
  · rw [List.take_append, hlen, List.take_of_length_le (by rw [hlen]; omega), List.foldl_append, hpre]
    obtain ⟨j, rfl⟩ : ∃ j, i = 6 + j := ⟨i - 6, by omega⟩
    rw [show 6 + j - 6 = j by omega]
    match j with
    | 0 => exact ⟨hp.kels, hp.fels, hp.states, fun _ => hp.fons, hp.mono, hp.only, fun _ => hp.stored, hp.sigs,
        fun _ => hp.sigsIn⟩
    | 1 => exact ⟨hp.kels, by simp [hp.fels], hp.states, fun _ => hp.fons, hp.mono, hp.only, fun _ => hp.stored, hp.sigs,
        fun _ => hp.sigsIn⟩
    | 2 => exact ⟨hp.kels, by simp [hp.fels], hp.states, fun _ => by omega, hp.mono, hp.only, fun _ => hp.stored, hp.sigs,
        fun _ => hp.sigsIn⟩
    | 3 => exact ⟨by simp [hp.kels], by simp [hp.fels], hp.states, fun _ => by omega, hp.mono, hp.only, fun _ => hp.stored,
        hp.sigs, fun _ => hp.sigsIn⟩
    | j + 4 =>
      rw [List.take_of_length_le (by simp)]
      exact ⟨by rw [if_neg (by omega)]; simp [Db.pinState, hp.kels], by rw [if_neg (by omega)]; simp [Db.pinState, hp.fels], by
          rw [if_neg (by omega)]; simp [Db.pinState, hp.states], fun _ => by omega, hp.mono, hp.only, fun _ => hp.stored,
        hp.sigs, fun _ => hp.sigsIn⟩

/-! ## Validation of an event without delegator depends on key states and configuration only -/

/-- Same key states and configuration. -/
structure SameCfg (n c : Node) : Prop where
  kevers : c.kevers = n.kevers
  prefixes : c.prefixes = n.prefixes
  groups : c.groups = n.groups
  mid : c.mid = n.mid

theorem oset_filter_aux {α} [DecidableEq α] (q : α → Bool) (vs l : List α) :
    (ioPut l vs).filter q = ioPut (l.filter q) (vs.filter q) := by
  unfold ioPut
  induction vs generalizing l with
  | nil => rfl
  | cons v vs ih =>
    rw [List.foldl_cons, ih]
    by_cases hq : q v = true
    · rw [List.filter_cons_of_pos hq, List.foldl_cons]
      congr 1
      unfold ioAdd
      by_cases hv : v ∈ l
      · rw [if_pos hv, if_pos (List.mem_filter.2 ⟨hv, hq⟩)]
      · rw [if_neg hv, if_neg (fun h => hv (List.mem_filter.1 h).1), List.filter_append, List.filter_cons_of_pos hq]
        rfl
    · rw [List.filter_cons_of_neg hq]
      congr 1
      unfold ioAdd
      split
      · rfl
      · rw [List.filter_append, List.filter_cons_of_neg hq]; simp

theorem oset_filter {α} [DecidableEq α] (q : α → Bool) (l : List α) : oset (l.filter q) = (oset l).filter q := by
  unfold oset; rw [oset_filter_aux]; rfl

theorem val_congr {env : Env} {n c : Node} (hc : SameCfg n c) {k : Kever} {e : Event} {ss ws ss' ws' : List Sig}
    {keys : List Id} {kt : Thold} {toad : Nat} {wits : List Id} {couple couple' : Option Couple} {eager eager' isLocal : Bool}
    {v : Verified} {db : Db} (hss : oset ss' = oset ss) (hws : oset ws' = oset ws) (hd : delegator k e = .ok none)
    (hdi : e.ilk ≠ .dip) (hdr : e.ilk ≠ .drt)
    (h : n.valSigsWigsDel env k e ss ws keys kt toad wits couple eager isLocal = (db, .ok v)) :
    c.valSigsWigsDel env k e ss' ws' keys kt toad wits couple' eager' isLocal = (c.db, .ok v) := by
  have herr : ∀ {db' : Db} {x : Exn}, (db', (Except.error x : Except Exn Verified)) = (db, .ok v) → False := by
    intro db' x h; injection h with _ h; exact absurd h (by simp)
  have h1 : ∀ p, c.owned p = n.owned p := fun p => by simp [Node.owned, hc.prefixes, hc.groups]
  have h2 : ∀ p, c.membered p = n.membered p := fun p => by simp [Node.membered, hc.groups]
  have h3 : ∀ k w, c.witnessed k w = n.witnessed k w := fun k w => by simp [Node.witnessed, hc.prefixes]
  have h4 : ∀ p w, c.contributed p w = n.contributed p w := fun p w => by simp [Node.contributed, hc.mid, hc.kevers]
  have h5 : ∀ p, c.delegated p = n.delegated p := fun p => by cases p <;> simp [Node.delegated, hc.prefixes]
  have h6 : ∀ keys kt, c.checkSigs env k e ss' keys kt isLocal = n.checkSigs env k e ss keys kt isLocal := by
    intro keys kt; simp only [Node.checkSigs, h2, h4, verifySigs, oset_filter, hss]
  have h7 : verifySigs env e ws' wits = verifySigs env e ws wits := by simp only [verifySigs, hws]
  unfold Node.valSigsWigsDel at h ⊢
  rw [h6]
  split at h
  · exact (herr h).elim
  · rename_i vs hvs
    simp only [hd] at h ⊢
    rw [h1, h3, h5, h7]
    split at h
    · exact (herr h).elim
    · rename_i g1
      rw [if_neg g1]
      split at h
      · exact (herr h).elim
      · rename_i g2
        rw [if_neg g2]
        split at h
        · exact (herr h).elim
        · rename_i g3
          rw [if_neg g3]
          split at h
          · exact (herr h).elim
          · rename_i g4
            rw [if_neg g4]
            unfold Node.checkWitDel at h ⊢
            simp only [h1, h2, h3, h5]
            split at h
            · exact (herr h).elim
            · rename_i g5
              simp only at g5
              rw [if_neg g5]
              split at h
              · exact (herr h).elim
              · rename_i g6
                simp only at g6
                rw [if_neg g6]
                split at h
                · exact (herr h).elim
                · rename_i g7
                  simp only at g7
                  rw [if_neg g7]
                  split at h
                  · exact (herr h).elim
                  · rw [if_neg (by simp [hdi, hdr])]
                    simp only [Node.validateDelegation] at h ⊢
                    injection h with _ h
                    rw [h]

/-- `b` agrees with `a` on all the log positions below `e`, and has all its events. -/
structure Below (e : Event) (a b : Db) : Prop where
  kels : ∀ s, s < e.sn → b.kels e.pre s = a.kels e.pre s
  mono : ∀ p d x, a.evts p d = some x → b.evts p d = some x

theorem rotatePrior_congr {a b : Db} {k : Kever} {e : Event} (h : Below e a b) (hr : rotatePrior a k e = .ok ()) :
    rotatePrior b k e = .ok () := by
  unfold rotatePrior at hr ⊢
  split at hr
  · exact absurd hr (by simp)
  · rename_i g1
    rw [if_neg g1]
    split at hr
    · rename_i g2
      rw [if_pos g2]
      split at hr
      · exact absurd hr (by simp)
      · rename_i g3
        rw [if_neg g3]
        split at hr
        · exact absurd hr (by simp)
        · rename_i g4
          rw [if_neg g4]
          split at hr
          · exact absurd hr (by simp)
          · rename_i g5
            rw [if_neg g5, h.kels _ (by omega)]
            split at hr
            · exact absurd hr (by simp)
            · rename_i pdig hpd
              split at hr
              · exact absurd hr (by simp)
              · rename_i x hx
                rw [h.mono _ _ _ hx]
                exact hr
    · rename_i g2
      rw [if_neg g2]
      exact hr

theorem rotate_congr {env : Env} {a b : Db} {k : Kever} {e : Event} {r : List Id × List Id × List Id} (h : Below e a b)
    (hr : rotate env a k e = .ok r) : rotate env b k e = .ok r := by
  unfold rotate at hr ⊢
  split at hr
  · exact absurd hr (by simp)
  · rename_i g
    rw [rotatePrior_congr h g]
    exact hr

/-- Acceptance of an event without delegator carries over to a node with the same key states whose database agrees below, to
the same sets of signatures, and to any delegation couple. -/
theorem Accepts.congr {env : Env} {n c : Node} {e : Event} {ss ws ss' ws' : List Sig} {couple : Option Couple}
    {eager isLocal : Bool} {k1 : Kever} {v : Verified} {w : List Id} (hc : SameCfg n c) (hb : Below e n.db c.db)
    (h1 : e.ilk ≠ .dip) (h2 : e.ilk ≠ .drt) (hss : oset ss' = oset ss) (hws : oset ws' = oset ws)
    (ha : Accepts env n e ss ws couple eager isLocal k1 v w) (couple' : Option Couple) (eager' : Bool) :
    Accepts env c e ss' ws' couple' eager' isLocal { k1 with fn := (c.db.fels e.pre).length } v w := by
  have hd : ∀ k, delegator k e = .ok none := by
    intro k; unfold delegator; split
    · rename_i h; exact absurd h h1
    · rename_i h; exact absurd h h2
    · rfl
  rcases ha with ⟨a, hw⟩ | ⟨k, a⟩ | ⟨k, a, hw⟩
  · obtain ⟨k, hinc, db, hv, hk1⟩ := a.inc
    exact .inl ⟨⟨by rw [hc.kevers]; exact a.fresh, a.okPre, a.ilk, k, hinc, c.db,
      val_congr hc hss hws (hd k) h1 h2 hv, by rw [hk1]⟩, hw⟩
  · obtain ⟨cuts, adds, hr, db, hv, hk1⟩ := a.rot
    exact .inr (.inl ⟨k, by rw [hc.kevers]; exact a.known, a.ilk, a.seq, a.trans, a.pre, a.deleg, cuts, adds,
      rotate_congr hb hr, c.db, val_congr hc hss hws (hd k) h1 h2 hv, by rw [hk1]; rfl⟩)
  · obtain ⟨db, hv, hk1⟩ := a.val
    exact .inr (.inr ⟨k, ⟨by rw [hc.kevers]; exact a.known, a.ilk, a.trans, a.pre, a.estOnly, a.seq, a.prior, c.db,
      val_congr hc hss hws (hd k) h1 h2 hv, by rw [hk1]; rfl⟩, hw⟩)

end Verif.Kel
