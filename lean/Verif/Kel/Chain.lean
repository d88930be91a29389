import Verif.Kel.Steps

/-! # The chain of last events of an identifier: invariant -/

namespace Verif.Kel

open Verif.Thold (Thold)

/-- Position `i` of the current chain of `p` is `x`. -/
structure LinkAt (db : Db) (p : Id) (k : Kever) (i : Nat) (x : Event) : Prop where
  last : (db.kels p i).getLast? = some x.said
  evt : db.evts p x.said = some x
  sn : x.sn = i
  zero : i = 0 → x.ilk = .icp ∨ x.ilk = .dip
  link : ∀ j, i = j + 1 → (x.ilk = .rot ∨ x.ilk = .drt ∨ x.ilk = .ixn) ∧ (db.kels p j).getLast? = some x.prior
  ixn : k.lastS < i → x.ilk = .ixn
  est : i = k.lastS → x.ilk.est = true ∧ x.said = k.lastD
  tip : i = k.sn → x = k.serder

/-- The current chain is complete. -/
structure Chain (db : Db) (p : Id) (k : Kever) : Prop where
  all : ∀ i, i ≤ k.sn → ∃ x, LinkAt db p k i x
  le : k.lastS ≤ k.sn
  ilk : k.ilk = k.serder.ilk

theorem Chain.mono {db db' : Db} {p : Id} {k : Kever} (h : Chain db p k) (hk : db'.kels p = db.kels p)
    (he : ∀ d x, db.evts p d = some x → db'.evts p d = some x) : Chain db' p k := by
  refine ⟨fun i hi => ?_, h.le, h.ilk⟩
  obtain ⟨x, g⟩ := h.all i hi
  refine ⟨x, ?_, he _ _ g.evt, g.sn, g.zero, ?_, g.ixn, g.est, g.tip⟩
  · rw [hk]; exact g.last
  · rw [hk]; exact g.link

/-- Where an accepted event of a known identifier sits. -/
theorem accepts_prior {env : Env} {n : Node} {e : Event} {ss ws : List Sig} {couple : Option Couple} {eager isLocal : Bool}
    {k1 k : Kever} {v : Verified} {w : List Id} (hok : EvtOk n.db) (hc : Chain n.db e.pre k)
    (h : AccRot env n e ss ws couple eager isLocal k1 k v w ∨ AccIxn env n e ss ws eager isLocal k1 k v) :
    e.sn ≤ k.sn + 1 ∧ e.sn ≠ 0 ∧ (n.db.kels e.pre (e.sn - 1)).getLast? = some e.prior ∧
    (e.ilk = .rot ∨ e.ilk = .drt ∨ e.ilk = .ixn) ∧ (e.ilk = .drt → k.lastS ≤ e.sn) ∧ (e.ilk ≠ .drt → k.lastS < e.sn) ∧
    (e.ilk = .ixn → e.sn = k.sn + 1) := by
  have tip : k.serder.said = e.prior → (n.db.kels e.pre k.sn).getLast? = some e.prior := by
    intro hp
    obtain ⟨x, g⟩ := hc.all k.sn (Nat.le_refl _)
    rw [g.last, g.tip rfl, hp]
  have hle := hc.le
  rcases h with h | h
  · obtain ⟨cuts, adds, hr, _⟩ := h.rot
    have hp : rotatePrior n.db k e = .ok () := by
      unfold rotate at hr
      split at hr
      · exact absurd hr (by simp)
      · assumption
    have hs : e.sn ≤ k.sn + 1 := by
      rcases h.seq with h | h | h <;> omega
    have hilk : e.ilk = .rot ∨ e.ilk = .drt ∨ e.ilk = .ixn := h.ilk.elim .inl (fun h => .inr (.inl h))
    have hd : e.ilk = .drt → k.lastS ≤ e.sn := by
      intro hd
      rcases h.seq with h | h | h
      · omega
      · omega
      · exact h.2.1
    have hnd : e.ilk ≠ .drt → k.lastS < e.sn := by
      intro hd
      rcases h.seq with h | h | h
      · omega
      · exact h.2.1
      · exact absurd h.1 hd
    have hix : e.ilk = .ixn → e.sn = k.sn + 1 := by
      intro hi; rcases h.ilk with h | h <;> rw [h] at hi <;> exact absurd hi (by simp)
    unfold rotatePrior at hp
    split at hp
    · exact absurd hp (by simp)
    · split at hp
      · split at hp
        · exact absurd hp (by simp)
        · split at hp
          · exact absurd hp (by simp)
          · split at hp
            · exact absurd hp (by simp)
            · split at hp
              · exact absurd hp (by simp)
              · rename_i hne _ pdig hpd
                split at hp
                · exact absurd hp (by simp)
                · rename_i ps hps
                  split at hp
                  · exact absurd hp (by simp)
                  · rename_i hprior
                    refine ⟨hs, hne, ?_, hilk, hd, hnd, hix⟩
                    have := (hok _ _ _ hps).2
                    rw [hpd, ← this]
                    simpa using hprior
      · split at hp
        · exact absurd hp (by simp)
        · rename_i hgt _ hprior
          have hsn : e.sn = k.sn + 1 := by omega
          refine ⟨hs, by omega, ?_, hilk, hd, hnd, hix⟩
          rw [show e.sn - 1 = k.sn by omega]
          exact tip (by simpa using hprior)
  · have := h.seq
    refine ⟨by omega, by omega, ?_, .inr (.inr h.ilk), fun hd => ?_, fun _ => by omega, fun _ => this⟩
    · rw [show e.sn - 1 = k.sn by omega]; exact tip h.prior
    · rw [h.ilk] at hd; exact absurd hd (by simp)

theorem ioAdd_last {α} [DecidableEq α] (l : List α) (v : α) (h : v ∉ l) : (ioAdd l v).getLast? = some v := by
  simp [ioAdd, h]

/-- Last entries of the log after an acceptance of an event not accepted before. -/
theorem acc_last {U : Event → Prop} {n n' : Node} {e : Event} {k1 : Kever} {v : Verified} {w : List Id} (hi : Inv U n) (g : AccN e k1 v w n n')
    (hnew : e.said ∉ n.db.fels e.pre) (i : Nat) :
    (n'.db.kels e.pre i).getLast? = if i = e.sn then some e.said else (n.db.kels e.pre i).getLast? := by
  rw [g.db.kels]
  unfold upd2
  by_cases h : i = e.sn
  · subst h
    simp only [true_and, if_true]
    exact ioAdd_last _ _ fun hm => hnew ((hi.mem _ _ _).1 hm).1
  · simp [h]

theorem Chain.acc {env : Env} {U : Event → Prop} (hnc : NoColl U) {n n' : Node} {e : Event} {ss ws : List Sig}
    {couple : Option Couple} {eager isLocal : Bool} {k1 : Kever} {v : Verified} {w : List Id} (hi : Inv U n) (he : U e)
    (hc : ∀ k, n.kevers e.pre = some k → Chain n.db e.pre k) (g : AccN e k1 v w n n')
    (ha : Accepts env n e ss ws couple eager isLocal k1 v w) (hnew : e.said ∉ n.db.fels e.pre) : Chain n'.db e.pre k1 := by
  have hlast := acc_last hi g hnew
  have hev := acc_evt hnc hi.evt he g
  rcases ha with ha | ha
  · obtain ⟨k, hk, _, _, hk1⟩ := ha.1.inc
    obtain ⟨h0, _, _, _, _, hkeq⟩ := incept_eq env e k hk
    subst hkeq
    subst hk1
    refine ⟨fun i hi => ⟨e, ?_⟩, Nat.le_refl _, rfl⟩
    simp only [h0, Nat.le_zero] at hi
    subst hi
    refine ⟨by rw [hlast, if_pos h0.symm], hev, h0, fun _ => ha.1.ilk, fun j hj => by omega, fun hj => by simp at hj, ?_,
      fun _ => rfl⟩
    intro _
    refine ⟨?_, rfl⟩
    rcases ha.1.ilk with h | h <;> rw [h] <;> rfl
  · have hex : ∃ k, AccRot env n e ss ws couple eager isLocal k1 k v w ∨ AccIxn env n e ss ws eager isLocal k1 k v := by
      rcases ha with ⟨k, h⟩ | ⟨k, h, _⟩
      · exact ⟨k, .inl h⟩
      · exact ⟨k, .inr h⟩
    obtain ⟨k, hk⟩ := hex
    have hkn : n.kevers e.pre = some k := by rcases hk with h | h <;> exact h.known
    have hck := hc k hkn
    obtain ⟨hs, hne, hprior, hilk, hdrt, hndrt, hix⟩ := accepts_prior hi.evt.ok hck hk
    have hsn1 : k1.sn = e.sn := by
      rcases hk with h | h
      · obtain ⟨_, _, _, _, _, h⟩ := h.rot; rw [h]; rfl
      · obtain ⟨_, _, h⟩ := h.val; rw [h]; rfl
    have hser : k1.serder = e := by
      rcases hk with h | h
      · obtain ⟨_, _, _, _, _, h⟩ := h.rot; rw [h]; rfl
      · obtain ⟨_, _, h⟩ := h.val; rw [h]; rfl
    have hil : k1.ilk = e.ilk := by
      rcases hk with h | h
      · obtain ⟨_, _, _, _, _, h⟩ := h.rot; rw [h]; rfl
      · obtain ⟨_, _, h⟩ := h.val; rw [h]; rfl
    have hle := hck.le
    have htop : (e.ilk = .ixn ∧ k1.lastS = k.lastS ∧ k1.lastD = k.lastD) ∨
        (e.ilk.est = true ∧ e.ilk ≠ .ixn ∧ k1.lastS = e.sn ∧ k1.lastD = e.said) := by
      rcases hk with h | h
      · right
        obtain ⟨_, _, _, _, _, h1⟩ := h.rot; rw [h1]
        refine ⟨?_, ?_, rfl, rfl⟩ <;> (rcases h.ilk with h | h <;> rw [h] <;> simp [Ilk.est])
      · left
        obtain ⟨_, _, h1⟩ := h.val; rw [h1]
        exact ⟨h.ilk, rfl, rfl⟩
    refine ⟨fun i hi => ?_, ?_, by rw [hil, hser]⟩
    · rw [hsn1] at hi
      by_cases hie : i = e.sn
      · subst hie
        refine ⟨e, by rw [hlast, if_pos rfl], hev, rfl, fun h0 => absurd h0 hne, ?_, ?_, ?_, fun _ => hser.symm⟩
        · intro j hj
          refine ⟨hilk, ?_⟩
          rw [hlast, if_neg (by omega), show j = e.sn - 1 by omega]
          exact hprior
        · intro hl
          rcases htop with h | h
          · exact h.1
          · omega
        · intro hl
          rcases htop with h | h
          · have := hix h.1; omega
          · exact ⟨h.1, h.2.2.2.symm⟩
      · obtain ⟨x, gx⟩ := hck.all i (by omega)
        refine ⟨x, by rw [hlast, if_neg hie]; exact gx.last, g.db.mono _ _ _ gx.evt, gx.sn, gx.zero, ?_, ?_, ?_, ?_⟩
        · intro j hj
          refine ⟨(gx.link j hj).1, ?_⟩
          rw [hlast, if_neg (by omega)]
          exact (gx.link j hj).2
        · intro hl
          rcases htop with h | h
          · exact gx.ixn (by omega)
          · omega
        · intro hl
          rcases htop with h | h
          · rw [h.2.2]; exact gx.est (by omega)
          · omega
        · intro hl; omega
    · rw [hsn1]
      rcases htop with h | h
      · have := hix h.1; omega
      · omega

/-! ## With possible duplicates in the first-seen log -/

/-- Wherever the first-seen log of an identifier has no duplicates, its chain is complete. -/
def ChainInv (n : Node) : Prop := ∀ p k, n.kevers p = some k → (n.db.fels p).Nodup → Chain n.db p k

theorem ChainInv.micro {env : Env} {U : Event → Prop} (hnc : NoColl U) {a b : Node} (h : ChainInv a) (hi : Inv U a)
    (g : Micro env U a b) : ChainInv b := by
  cases g with
  | core g =>
    intro p k hk hn
    rw [g.kevers] at hk
    rw [g.fels] at hn
    exact (h p k hk hn).mono (by rw [g.kels]) (fun d x hx => by rw [g.evts]; exact hx)
  | event e ss ws c eager isLocal he =>
    rcases processEvent_cases env a e ss ws c eager isLocal hi.evt.ok with g | ⟨_, k1, v, w, hk1, g, ha⟩
    · intro p k hk hn
      rw [g.kevers] at hk
      rw [g.db.fels] at hn
      exact (h p k hk hn).mono (by rw [g.db.kels]) (fun d x hx => g.db.mono _ _ _ hx)
    · intro p k hk hn
      rw [g.kevers] at hk
      rw [g.db.fels] at hn
      unfold upd at hk hn
      by_cases hp : p = e.pre
      · subst hp
        rw [if_pos rfl] at hk hn
        injection hk with hk; subst hk
        rw [List.nodup_append] at hn
        refine Chain.acc hnc hi he (fun k hk => h _ k hk hn.1) g ha fun hm => ?_
        exact hn.2.2 _ hm _ (by simp) rfl
      · rw [if_neg hp] at hk hn
        refine (h p k hk hn).mono ?_ (fun d x hx => g.db.mono _ _ _ hx)
        rw [g.db.kels]; funext s; simp [upd2, hp]

theorem chainInv_start (p g : List Id) (m : Id → Option Id) : ChainInv (Node.start p g m) := by
  intro p k hk; exact absurd hk (by simp [Node.start])

theorem ChainInv.steps {env : Env} {U : Event → Prop} (hnc : NoColl U) {a b : Node} (h : ChainInv a) (hi : Inv U a)
    (g : Steps env U a b) : ChainInv b := by
  induction g with
  | refl => exact h
  | tail hs g ih => exact ih.micro hnc (hi.steps hnc hs) g

/-! ## Without delegated rotations: no event is first seen twice -/

/-- `x` is on the current chain. -/
def InChain (db : Db) (p : Id) (k : Kever) (x : Event) : Prop := x.sn ≤ k.sn ∧ (db.kels p x.sn).getLast? = some x.said

/-- `x` has been superseded for good. -/
inductive Dead (db : Db) (p : Id) (l : Nat) : Event → Prop
  | here {x : Event} (h : x.sn ≤ l) (g : (db.kels p x.sn).getLast? ≠ some x.said) : Dead db p l x
  | up {x y : Event} (h1 : y.said = x.prior) (h2 : y.sn + 1 = x.sn) (h3 : db.evts p y.said = some y)
      (h : Dead db p l y) : Dead db p l x

theorem Dead.mono {db db' : Db} {p : Id} {l l' : Nat} {x : Event} (h : Dead db p l x) (hl : l ≤ l')
    (hk : ∀ i, i ≤ l → (db'.kels p i).getLast? = (db.kels p i).getLast?)
    (he : ∀ d x, db.evts p d = some x → db'.evts p d = some x) : Dead db' p l' x := by
  induction h with
  | here h g => exact .here (by omega) (by rw [hk _ h]; exact g)
  | up h1 h2 h3 _ ih => exact .up h1 h2 (he _ _ h3) ih

theorem not_dead {db : Db} {p : Id} {k : Kever} {x : Event} (hc : Chain db p k) (hs : db.evts p x.said = some x)
    (hx : InChain db p k x) (hd : Dead db p k.lastS x) : False := by
  induction hd with
  | here h g => exact g hx.2
  | @up x y h1 h2 h3 _ ih =>
    refine ih h3 ⟨by have := hx.1; omega, ?_⟩
    obtain ⟨z, gz⟩ := hc.all x.sn hx.1
    have hz : z = x := by
      have h1 := gz.last
      rw [hx.2] at h1; injection h1 with h1
      have h2 := gz.evt
      rw [← h1, hs] at h2; injection h2 with h2; exact h2.symm
    subst hz
    rw [h1]
    exact (gz.link y.sn (by omega)).2

/-- Invariant of histories without delegated rotations. -/
structure Live (n : Node) (p : Id) (k : Kever) : Prop where
  chain : Chain n.db p k
  nodup : (n.db.fels p).Nodup
  seen : ∀ d, d ∈ n.db.fels p → ∀ x, n.db.evts p d = some x → InChain n.db p k x ∨ Dead n.db p k.lastS x

/-- An event already first seen is not accepted. -/
theorem Live.not_again {env : Env} {U : Event → Prop} (hnc : NoColl U) {n : Node} {e : Event} {ss ws : List Sig}
    {couple : Option Couple} {eager isLocal : Bool} {k1 : Kever} {v : Verified} {w : List Id} (hi : Inv U n) (he : U e) (hnd : e.ilk ≠ .drt)
    (hl : ∀ k, n.kevers e.pre = some k → Live n e.pre k)
    (ha : Accepts env n e ss ws couple eager isLocal k1 v w) : e.said ∉ n.db.fels e.pre := by
  intro hm
  rcases ha with ha | ha
  · have := (hi.fresh _ ha.1.fresh).2
    rw [this] at hm; exact absurd hm (by simp)
  · have hex : ∃ k, AccRot env n e ss ws couple eager isLocal k1 k v w ∨ AccIxn env n e ss ws eager isLocal k1 k v := by
      rcases ha with ⟨k, h⟩ | ⟨k, h, _⟩
      · exact ⟨k, .inl h⟩
      · exact ⟨k, .inr h⟩
    obtain ⟨k, hk⟩ := hex
    have hkn : n.kevers e.pre = some k := by rcases hk with h | h <;> exact h.known
    have hL := hl k hkn
    obtain ⟨hs, hne, hprior, hilk, hdrt, hndrt, hix⟩ := accepts_prior hi.evt.ok hL.chain hk
    have hlt := hndrt hnd
    obtain ⟨x, hx⟩ := hi.stored _ _ hm
    have hxe : x = e := by
      have := hi.evt _ _ _ hx
      exact hnc x e this.2.2 he this.2.1
    subst hxe
    rcases hL.seen _ hm x hx with hin | hd
    · obtain ⟨z, gz⟩ := hL.chain.all x.sn hin.1
      have hz : z = x := by
        have h1 := gz.last
        rw [hin.2] at h1; injection h1 with h1
        have h2 := gz.evt
        rw [← h1, hx] at h2; injection h2 with h2; exact h2.symm
      subst hz
      have := hix (gz.ixn hlt)
      have := hin.1
      omega
    · cases hd with
      | here h g => omega
      | @up _ y h1 h2 h3 h =>
        refine not_dead hL.chain h3 ⟨by omega, ?_⟩ h
        rw [h1, ← hprior, show x.sn - 1 = y.sn by omega]

theorem Live.acc {env : Env} {U : Event → Prop} (hnc : NoColl U) {n n' : Node} {e : Event} {ss ws : List Sig}
    {couple : Option Couple} {eager isLocal : Bool} {k1 : Kever} {v : Verified} {w : List Id} (hi : Inv U n) (he : U e) (hnd : e.ilk ≠ .drt)
    (hl : ∀ k, n.kevers e.pre = some k → Live n e.pre k) (g : AccN e k1 v w n n') (hk1 : k1.pre = e.pre)
    (ha : Accepts env n e ss ws couple eager isLocal k1 v w) : Live n' e.pre k1 := by
  have hnew := Live.not_again hnc hi he hnd hl ha
  have hc' := Chain.acc hnc hi he (fun k hk => (hl k hk).chain) g ha hnew
  have hlast := acc_last hi g hnew
  have hev := acc_evt hnc hi.evt he g
  have hi' := hi.acc hnc he hk1 g
  have hfels : n'.db.fels e.pre = n.db.fels e.pre ++ [e.said] := by rw [g.db.fels]; simp [upd]
  refine ⟨hc', ?_, ?_⟩
  · rw [hfels, List.nodup_append]
    refine ⟨?_, by simp, ?_⟩
    · cases hk : n.kevers e.pre with
      | none => rw [(hi.fresh _ hk).2]; simp
      | some k => exact (hl k hk).nodup
    · intro a ha b hb hab
      simp at hb; subst hb hab; exact hnew ha
  · have hself : k1.sn = e.sn ∧ InChain n'.db e.pre k1 e := by
      have : k1.sn = e.sn := by
        rcases ha with ha | ⟨k, ha⟩ | ⟨k, ha, _⟩
        · obtain ⟨k, hk, _, _, h⟩ := ha.1.inc; obtain ⟨_, _, _, _, _, h'⟩ := incept_eq env e k hk; rw [h, h']
        · obtain ⟨_, _, _, _, _, h⟩ := ha.rot; rw [h]; rfl
        · obtain ⟨_, _, h⟩ := ha.val; rw [h]; rfl
      exact ⟨this, by rw [this]; exact Nat.le_refl _, by rw [hlast, if_pos rfl]⟩
    intro d hd x hx
    rw [hfels, List.mem_append, List.mem_singleton] at hd
    rcases hd with hd | rfl
    · -- an event seen before
      have hx0 : n.db.evts e.pre d = some x := by
        obtain ⟨y, hy⟩ := hi.stored _ _ hd
        have := g.db.mono _ _ _ hy
        rw [this] at hx; injection hx with hx; subst hx; exact hy
      have hxs := hi.evt _ _ _ hx0
      rcases ha with ha | ha
      · rw [(hi.fresh _ ha.1.fresh).2] at hd; exact absurd hd (by simp)
      · have hex : ∃ k, AccRot env n e ss ws couple eager isLocal k1 k v w ∨ AccIxn env n e ss ws eager isLocal k1 k v := by
          rcases ha with ⟨k, h⟩ | ⟨k, h, _⟩
          · exact ⟨k, .inl h⟩
          · exact ⟨k, .inr h⟩
        obtain ⟨k, hk⟩ := hex
        have hkn : n.kevers e.pre = some k := by rcases hk with h | h <;> exact h.known
        have hL := hl k hkn
        obtain ⟨hs, hne, hprior, hilk, hdrt, hndrt, hix⟩ := accepts_prior hi.evt.ok hL.chain hk
        have hlt := hndrt hnd
        have hle : k.lastS ≤ k1.lastS := by
          rcases hk with h | h
          · obtain ⟨_, _, _, _, _, h⟩ := h.rot; rw [h]; exact Nat.le_of_lt hlt
          · obtain ⟨_, _, h⟩ := h.val; rw [h]; exact Nat.le_refl _
        rcases hL.seen d hd x hx0 with hin | hdead
        · by_cases hxe : x.sn < e.sn
          · left
            refine ⟨by rw [hself.1]; omega, ?_⟩
            rw [hlast, if_neg (by omega)]; exact hin.2
          · right
            -- a recovery: everything at or after its position is dead
            have hrec : k1.lastS = e.sn := by
              rcases hk with h | h
              · obtain ⟨_, _, _, _, _, h⟩ := h.rot; rw [h]; rfl
              · have h1 := h.seq; have h2 := hin.1; omega
            have key : ∀ j, ∀ y : Event, y.sn = e.sn + j → n.db.evts e.pre y.said = some y →
                y.said ∈ n.db.fels e.pre → InChain n.db e.pre k y → Dead n'.db e.pre k1.lastS y := by
              intro j
              induction j with
              | zero =>
                intro y hy hys hyf _
                refine .here (by omega) ?_
                rw [hlast, if_pos (by omega)]
                intro hc; injection hc with hc
                exact hnew (hc ▸ hyf)
              | succ j ih =>
                intro y hy hys hyf hyc
                obtain ⟨w, gw⟩ := hL.chain.all y.sn hyc.1
                have hw : w = y := by
                  have h1 := gw.last
                  rw [hyc.2] at h1; injection h1 with h1
                  have h2 := gw.evt
                  rw [← h1, hys] at h2; injection h2 with h2; exact h2.symm
                subst hw
                have hpl := (gw.link (e.sn + j) (by omega)).2
                obtain ⟨v, gv⟩ := hL.chain.all (e.sn + j) (by have := hyc.1; omega)
                have hvp : v.said = w.prior := by
                  have h1 := gv.last
                  rw [hpl] at h1; injection h1 with h1; exact h1.symm
                have hvsn := gv.sn
                refine .up hvp (by omega) (g.db.mono _ _ _ gv.evt) (ih v gv.sn gv.evt ?_ ⟨?_, ?_⟩)
                · exact ((hi.mem _ _ _).1 (List.mem_of_getLast? gv.last)).1
                · have := hyc.1; omega
                · rw [gv.sn]; exact gv.last
            have hd' : x.said ∈ n.db.fels e.pre := by rw [hxs.2.1]; exact hd
            exact key (x.sn - e.sn) x (by omega) (by rw [hxs.2.1]; exact hx0) hd' hin
        · right
          refine hdead.mono hle (fun i hil => ?_) (fun d x hx => g.db.mono _ _ _ hx)
          rw [hlast, if_neg (by omega)]
    · left
      rw [hev] at hx; injection hx with hx; subst hx
      exact hself.2

/-- All identifiers are live. -/
def LiveAll (n : Node) : Prop := ∀ p k, n.kevers p = some k → Live n p k

theorem Live.mono {n n' : Node} {p : Id} {k : Kever} (h : Live n p k) (hs : ∀ d, d ∈ n.db.fels p → ∃ x, n.db.evts p d = some x)
    (hk : n'.db.kels p = n.db.kels p) (hf : n'.db.fels p = n.db.fels p)
    (he : ∀ d x, n.db.evts p d = some x → n'.db.evts p d = some x) : Live n' p k := by
  refine ⟨h.chain.mono hk he, by rw [hf]; exact h.nodup, ?_⟩
  intro d hd x hx
  rw [hf] at hd
  obtain ⟨y, hy⟩ := hs d hd
  have := he _ _ hy
  rw [this] at hx; injection hx with hx; subst hx
  rcases h.seen d hd y hy with h | h
  · left; refine ⟨h.1, ?_⟩; rw [hk]; exact h.2
  · right; exact h.mono (Nat.le_refl _) (fun i _ => by rw [hk]) he

theorem LiveAll.micro {env : Env} {U : Event → Prop} (hnc : NoColl U) (hnd : ∀ e, U e → e.ilk ≠ .drt) {a b : Node}
    (h : LiveAll a) (hi : Inv U a) (g : Micro env U a b) : LiveAll b := by
  cases g with
  | core g =>
    intro p k hk
    rw [g.kevers] at hk
    exact (h p k hk).mono (hi.stored p) (by rw [g.kels]) (by rw [g.fels]) (fun d x hx => by rw [g.evts]; exact hx)
  | event e ss ws c eager isLocal he =>
    rcases processEvent_cases env a e ss ws c eager isLocal hi.evt.ok with g | ⟨_, k1, v, w, hk1, g, ha⟩
    · intro p k hk
      rw [g.kevers] at hk
      exact (h p k hk).mono (hi.stored p) (by rw [g.db.kels]) (by rw [g.db.fels]) (fun d x hx => g.db.mono _ _ _ hx)
    · intro p k hk
      rw [g.kevers] at hk
      unfold upd at hk
      by_cases hp : p = e.pre
      · subst hp
        rw [if_pos rfl] at hk
        injection hk with hk; subst hk
        exact Live.acc hnc hi he (hnd e he) (fun k hk => h _ k hk) g hk1 ha
      · rw [if_neg hp] at hk
        refine (h p k hk).mono (hi.stored p) ?_ ?_ (fun d x hx => g.db.mono _ _ _ hx)
        · rw [g.db.kels]; funext s; simp [upd2, hp]
        · rw [g.db.fels]; simp [upd, hp]

theorem liveAll_start (p g : List Id) (m : Id → Option Id) : LiveAll (Node.start p g m) := by
  intro p k hk; exact absurd hk (by simp [Node.start])

theorem LiveAll.steps {env : Env} {U : Event → Prop} (hnc : NoColl U) (hnd : ∀ e, U e → e.ilk ≠ .drt) {a b : Node}
    (h : LiveAll a) (hi : Inv U a) (g : Steps env U a b) : LiveAll b := by
  induction g with
  | refl => exact h
  | tail hs g ih => exact ih.micro hnc hnd (hi.steps hnc hs) g

end Verif.Kel
