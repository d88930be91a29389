import Verif.Tel.PropsLog

/-! # Registries: rotation chain, restart, backers, own registries (C58, C59, C61, C62) -/

namespace Verif.Tel

open Verif.Kel (Id Dig Sig Couple Event Node Inp upd upd2 ioPut oset escAdd Accepted NoColl EvtU)

variable {env : TEnv} {U : Event → Prop} {V : TEvt → Prop}

/-! ## C58: the chain of registry events -/

/-- Identifiers of registries are not used for credentials. -/
def NoSquat (V : TEvt → Prop) : Prop := ∀ x y, V x → V y → x.ilk = .vcp → y.pre = x.pre → y.ilk = .vcp ∨ y.ilk = .vrt

/-- Registries in memory stand at the end of their logs, and rotations in logs name the entry before. -/
structure Lin (r : Reger) : Prop where
  known : ∀ k s, r.states k = some s → ∃ t, r.tevers k = some t
  opened : ∀ k on d e, (on, d) ∈ r.tels k → r.tvts k d = some e → e.ilk = .vcp ∨ e.ilk = .vrt → ∃ t, r.tevers k = some t
  last : ∀ k t, r.tevers k = some t → (r.tels k).getLast? = some (t.sn, t.serder.said)
  link : ∀ k on d e, (on, d) ∈ r.tels k → r.tvts k d = some e → e.ilk = .vrt → (on - 1, e.prior) ∈ r.tels k

theorem Lin.fetch {r : Reger} (h : Lin r) (k : Id) : (r.fetch k).1 = r ∧ (r.fetch k).2 = r.tevers k := by
  unfold Reger.fetch
  cases ht : r.tevers k with
  | some t => exact ⟨rfl, rfl⟩
  | none =>
    dsimp only
    cases hs : r.states k with
    | none => exact ⟨rfl, rfl⟩
    | some s => obtain ⟨t, h2⟩ := h.known k s hs; rw [ht] at h2; simp at h2

theorem Lin.of_eq {r r' : Reger} (h : Lin r) (h1 : r'.states = r.states) (h2 : r'.tevers = r.tevers) (h3 : r'.tels = r.tels) (h4 : r'.tvts = r.tvts) : Lin r' :=
  ⟨by rw [h1, h2]; exact h.known, by rw [h2, h3, h4]; exact h.opened, by rw [h2, h3]; exact h.last, by rw [h3, h4]; exact h.link⟩

theorem rotate_facts {t : Tever} {e : TEvt} {baks : List Id} (h : t.rotate e = .ok baks) :
    e.pre = t.regk ∧ e.sn = t.sn + 1 ∧ t.serder.said = e.prior ∧
    baks = ioPut ((oset t.baks).filter (fun w => !decide (w ∈ e.cuts))) e.adds ∧ toadOk e.toad baks = true ∧
    baks.length + e.cuts.length = t.baks.length + e.adds.length := by
  unfold Tever.rotate at h
  split at h; · simp at h
  rename_i h1
  split at h; · simp at h
  rename_i h2
  split at h; · simp at h
  rename_i h3
  split at h; · simp at h
  split at h; · simp at h
  split at h; · simp at h
  split at h; · simp at h
  split at h; · simp at h
  dsimp only at h
  split at h; · simp at h
  rename_i h4
  split at h; · simp at h
  rename_i h5
  injection h with h
  subst h
  exact ⟨by simpa using h1, by simpa using h2, by simpa using h3, rfl, by simpa using h5, by simpa using h4⟩

theorem getLast_put {l : List (Nat × Dig)} {on : Nat} {d : Dig} (h : From 0 l) (he : on = l.length) : (telPut l on d).getLast? = some (on, d) := by
  rcases telPut_cases (d := d) h (Nat.le_of_eq he) with ⟨_, h2⟩ | ⟨h1, _⟩
  · omega
  · rw [h1]; simp

theorem Lin.process (hnt : NoCollT V) (hsq : NoSquat V) {n : Node} {r : Reger} (hi : TInv env U V n r) (h : Lin r) (lax isLocal : Bool) {e : TEvt} (he : V e)
    (c : Option Couple) (bs : List Sig) : Lin (r.processEvent env n lax isLocal e c bs).1 := by
  rcases processEvent_cases env n r lax isLocal e c bs with ⟨h1, _⟩ | ⟨k, ha, h1⟩
  · rw [h1]; exact h
  obtain ⟨hf1, hf2⟩ := h.fetch k
  rw [hf1, hf2] at h1
  generalize (r.processEvent env n lax isLocal e c bs) = out at h1 ⊢
  obtain ⟨r', res⟩ := out
  rcases h1 with ⟨_, h1⟩ | ⟨_, h1⟩
  · -- refused: the stores may have gained the event, which is in no log unless already stored
    refine ⟨by rw [h1.states, h1.tevers]; exact h.known, ?_, by rw [h1.tevers, h1.tels]; exact h.last, ?_⟩
    · intro k' on d x hd hx hk
      rw [h1.tels] at hd; rw [h1.tevers]
      obtain ⟨x', _, _, g, _⟩ := hi.ent k' on d hd
      have := h1.tmono _ _ _ g
      rw [hx] at this; injection this with this; subst this
      exact h.opened k' on d x hd g hk
    · intro k' on d x hd hx hk
      rw [h1.tels] at hd ⊢
      obtain ⟨x', _, _, g, _⟩ := hi.ent k' on d hd
      have := h1.tmono _ _ _ g
      rw [hx] at this; injection this with this; subst this
      exact h.link k' on d x hd g hk
  · dsimp only at h1 ⊢
    -- old entries keep their events
    have old : Logged e r r' → ∀ k' on d x, (on, d) ∈ r.tels k' → r'.tvts k' d = some x → r.tvts k' d = some x := by
      intro hl k' on d x hd hx
      obtain ⟨x', _, _, g, _⟩ := hi.ent k' on d hd
      have := hl.tmono _ _ _ g
      rw [hx] at this; injection this with this; subst this; exact g
    have cred : ∀ t, r.tevers k = some t → Logged e r r' → r'.tevers = r.tevers → r'.states = r.states → e.sn = (r.tels e.pre).length →
        (e.ilk ≠ .vcp ∧ e.ilk ≠ .vrt) → Lin r' := by
      intro t ht hl hm hs hsn hk
      obtain ⟨f1, f2, f3, f4, f5, f6⟩ := hl.facts hnt hi he (Nat.le_of_eq hsn)
      have nosq : ∀ k' t', r.tevers k' = some t' → k' ≠ e.pre := by
        intro k' t' ht' hke
        obtain ⟨v, hv, _⟩ := (hi.tev k' t' ht').inc
        rcases hsq v e (hi.tvt _ _ _ hv.stored).2.2 he hv.ilk (by rw [hv.pre, hke]) with h | h
        · exact hk.1 h
        · exact hk.2 h
      refine ⟨by rw [hs, hm]; exact h.known, ?_, ?_, ?_⟩
      · intro k' on d x hd hx hx2
        rw [hm]
        rcases f4 k' (on, d) hd with hd | ⟨rfl, hd2⟩
        · exact h.opened k' on d x hd (old hl _ _ _ _ hd hx) hx2
        · injection hd2 with h1 h2
          subst h2
          rw [f1] at hx; injection hx with hx; subst hx
          rcases hx2 with h | h
          · exact absurd h hk.1
          · exact absurd h hk.2
      · intro k' t' ht'
        rw [hm] at ht'
        rw [hl.tels]
        simp only [upd, nosq k' t' ht', if_false]
        exact h.last k' t' ht'
      · intro k' on d x hd hx hx2
        rcases f4 k' (on, d) hd with hd | ⟨rfl, hd2⟩
        · exact f2 _ _ (h.link k' on d x hd (old hl _ _ _ _ hd hx) hx2)
        · injection hd2 with h1 h2
          subst h2
          rw [f1] at hx; injection hx with hx; subst hx
          exact absurd hx2 hk.2
    generalize hto : r.tevers k = o at h1
    cases h1 with
    | vcp c' bs' _ hil hd ht hc hl hm hs =>
      have hke : k = e.pre := by have := ha.regk; simp [TEvt.regk, hil] at this; exact this.symm
      subst hke
      have h0 : e.sn = 0 := ha.num.1 (by simp [hil, TIlk.inceptive])
      have hemp : r.tels e.pre = [] := by
        rcases List.eq_nil_or_concat (r.tels e.pre) with h | ⟨l, ⟨on, d⟩, hl⟩
        · exact h
        · exfalso
          have hmem : (on, d) ∈ r.tels e.pre := by rw [hl]; simp
          obtain ⟨x, _, _, g, _⟩ := hi.ent _ _ _ hmem
          obtain ⟨g1, _, g3⟩ := hi.tvt _ _ _ g
          obtain ⟨t, ht⟩ := h.opened _ _ _ x hmem g (hsq e x he g3 hil g1)
          rw [hto] at ht; simp at ht
      have hsn : e.sn = (r.tels e.pre).length := by rw [hemp, h0]; rfl
      obtain ⟨f1, f2, f3, f4, f5, f6⟩ := hl.facts hnt hi he (Nat.le_of_eq hsn)
      refine ⟨?_, ?_, ?_, ?_⟩
      · intro k' s hs'
        rw [hs] at hs'; rw [hm]
        simp only [upd] at hs' ⊢
        split
        · exact ⟨_, rfl⟩
        · rename_i hk; rw [if_neg hk] at hs'; exact h.known k' s hs'
      · intro k' on d x hd hx hx2
        rw [hm]
        simp only [upd]
        split
        · exact ⟨_, rfl⟩
        · rename_i hk
          rcases f4 k' (on, d) hd with hd | ⟨h1, _⟩
          · exact h.opened k' on d x hd (old hl _ _ _ _ hd hx) hx2
          · exact absurd h1 hk
      · intro k' t' ht'
        rw [hm] at ht'
        rw [hl.tels]
        simp only [upd] at ht' ⊢
        split
        · rename_i hk; rw [if_pos hk] at ht'
          injection ht' with ht'; subst ht'
          exact getLast_put (hi.ord _) hsn
        · rename_i hk; rw [if_neg hk] at ht'; exact h.last k' t' ht'
      · intro k' on d x hd hx hx2
        rcases f4 k' (on, d) hd with hd | ⟨rfl, hd2⟩
        · exact f2 _ _ (h.link k' on d x hd (old hl _ _ _ _ hd hx) hx2)
        · injection hd2 with h1 h2
          subst h2
          rw [f1] at hx; injection hx with hx; subst hx
          rw [hil] at hx2; cases hx2
    | vrt t baks c' bs' _ hil hnb hrot hc hl hm hs =>
      have hke : k = e.pre := by have := ha.regk; simp [TEvt.regk, hil] at this; exact this.symm
      subst hke
      obtain ⟨q1, q2, q3, _⟩ := rotate_facts hrot
      have hlast := h.last _ _ hto
      have hlen : t.sn = (r.tels e.pre).length - 1 := by
        rw [List.getLast?_eq_getElem?] at hlast; exact hi.at hlast
      have hpos := List.length_pos_of_mem (List.mem_of_getLast? hlast)
      have hsn : e.sn = (r.tels e.pre).length := by omega
      obtain ⟨f1, f2, f3, f4, f5, f6⟩ := hl.facts hnt hi he (Nat.le_of_eq hsn)
      refine ⟨?_, ?_, ?_, ?_⟩
      · intro k' s hs'
        rw [hs] at hs'; rw [hm]
        simp only [upd]
        split
        · exact ⟨_, rfl⟩
        · exact h.known k' s hs'
      · intro k' on d x hd hx hx2
        rw [hm, ← q1]
        simp only [upd]
        split
        · exact ⟨_, rfl⟩
        · rename_i hk
          rcases f4 k' (on, d) hd with hd | ⟨h1, _⟩
          · exact h.opened k' on d x hd (old hl _ _ _ _ hd hx) hx2
          · exact absurd h1 hk
      · intro k' t' ht'
        rw [hm, ← q1] at ht'
        rw [hl.tels]
        simp only [upd] at ht' ⊢
        split
        · rename_i hk; rw [if_pos hk] at ht'
          injection ht' with ht'; subst ht'
          exact getLast_put (hi.ord _) hsn
        · rename_i hk; rw [if_neg hk] at ht'; exact h.last k' t' ht'
      · intro k' on d x hd hx hx2
        rcases f4 k' (on, d) hd with hd | ⟨rfl, hd2⟩
        · exact f2 _ _ (h.link k' on d x hd (old hl _ _ _ _ hd hx) hx2)
        · obtain ⟨h1, h2⟩ := Prod.mk.inj hd2
          subst h1; subst h2
          rw [f1] at hx; injection hx with hx; subst hx
          have := List.mem_of_getLast? hlast
          rw [q2, ← q3]; exact f2 _ _ this
    | simple t c' _ hil hnb hcc hc hsn hp hl hm hs =>
      exact cred t hto hl hm hs hsn (by rcases hil with h | h <;> simp [h])
    | backed t toad baks c' bs' _ hil hnb hb hc hsn hp hl hm hs =>
      exact cred t hto hl hm hs hsn (by rcases hil with h | h <;> simp [h])

theorem Lin.stepO (hnt : NoCollT V) (hsq : NoSquat V) {n : Node} {r : Reger} (hi : TInv env U V n r) (h : Lin r) (lax isLocal : Bool) (x : Id × Nat × Dig) :
    Lin (r.stepO env n lax isLocal x) := by
  unfold Reger.stepO
  dsimp only
  split
  · rename_i e c he hc
    have := h.process hnt hsq hi lax isLocal (hi.tvt _ _ _ he).2.2 (some c) (r.tibs x.1 x.2.2)
    split
    · rename_i r' hr; rw [hr] at this; exact this
    · rename_i r' o _ hr; rw [hr] at this; exact this.of_eq rfl rfl rfl rfl
  · exact h.of_eq rfl rfl rfl rfl

theorem Lin.stepA (hnt : NoCollT V) (hsq : NoSquat V) {n : Node} {r : Reger} (hi : TInv env U V n r) (h : Lin r) (lax isLocal : Bool) (x : Id × Nat × Dig) :
    Lin (r.stepA env n lax isLocal x) := by
  unfold Reger.stepA
  dsimp only
  split
  · exact h.of_eq rfl rfl rfl rfl
  · exact h
  · rename_i e c he hc
    have := h.process hnt hsq hi lax isLocal (hi.tvt _ _ _ he).2.2 (some c) (r.tibs x.1 x.2.2)
    split
    · rename_i r' hr; rw [hr] at this; exact this
    · rename_i r' o _ hr; rw [hr] at this; exact this.of_eq rfl rfl rfl rfl

theorem Lin.run (hnc : NoColl U) (hnt : NoCollT V) (hsq : NoSquat V) : ∀ (h : List TInp) (t : TNode), TInv env U V t.node t.reg → Lin t.reg →
    TDelivers U V h → (∀ i ∈ h, i ≠ .restart) → Lin (t.run env h).reg := by
  intro h
  induction h with
  | nil => intro t _ hl _ _; exact hl
  | cons i h ih =>
    intro t ht hl hd hr
    have hu := hd.1 i (by simp)
    have hv := hd.2 i (by simp)
    refine ih _ (ht.step hnc hnt i hu hv) ?_ ⟨fun j hj => hd.1 j (by simp [hj]), fun j hj => hd.2 j (by simp [hj])⟩ (fun j hj => hr j (by simp [hj]))
    cases i with
    | kel i => exact hl
    | tel lax l e c bs => exact hl.process hnt hsq ht lax l (hv e rfl) c bs
    | passO lax l => exact (pass_induction (P := fun r => TInv env U V t.node r ∧ Lin r) (fun r x hr => ⟨hr.1.stepO hnt lax l x, hr.2.stepO hnt hsq hr.1 lax l x⟩) _ _ ⟨ht, hl⟩).2
    | passA lax l => exact (pass_induction (P := fun r => TInv env U V t.node r ∧ Lin r) (fun r x hr => ⟨hr.1.stepA hnt lax l x, hr.2.stepA hnt hsq hr.1 lax l x⟩) _ _ ⟨ht, hl⟩).2
    | own l => exact hl.of_eq rfl rfl rfl rfl
    | restart => exact absurd rfl (hr .restart (by simp))

theorem lin_start (p g : List Id) (m : Id → Option Id) : Lin (TNode.start p g m).reg := by
  refine ⟨?_, ?_, ?_, ?_⟩ <;> simp [TNode.start, Reger.empty]

/-- **C58, registries, partly.** As long as the process is not restarted and identifiers of registries are not used for credentials, a
rotation in the log of a registry names the entry before it, and the registry in memory stands at the last entry of its log. Missing:
after a restart both fail, see `c58_forked_after_restart`; with credential events for the registry's identifier, see `c58_squatted`. -/
theorem c58_registry_chain_partial (hnc : NoColl U) (hnt : NoCollT V) (hsq : NoSquat V) (p g : List Id) (m : Id → Option Id) (h : List TInp)
    (hd : TDelivers U V h) (hr : ∀ i ∈ h, i ≠ .restart) :
    let r := ((TNode.start p g m).run env h).reg
    (∀ k on e, InLog r k on e → e.ilk = .vrt → (r.tels k)[on - 1]? = some (on - 1, e.prior) ∧ 1 ≤ on) ∧
    (∀ k t, r.tevers k = some t → (r.tels k).getLast? = some (t.sn, t.serder.said)) := by
  have hi := (tinv_start env U V p g m).run hnc hnt h _ hd
  have hl := (lin_start p g m).run hnc hnt hsq h _ (tinv_start env U V p g m) hd hr
  refine ⟨?_, hl.last⟩
  intro k on e he hv
  refine ⟨hi.pos (hl.link k on e.said e he.entry he.stored hv), ?_⟩
  obtain ⟨e', _, _, h1, _, _, _, _, _, h7, _⟩ := hi.ent k on e.said he.entry
  rw [he.stored] at h1; injection h1 with h1; subst h1
  rcases Nat.eq_zero_or_pos on with h0 | h0
  · have := h7.2 h0; rw [hv] at this; simp [TIlk.inceptive] at this
  · exact h0

/-! ## C59: restart -/

theorem fetch_restart {n : Node} {r : Reger} (h : TInv env U V n r) {k : Id} {tv : Tever} (hf : (r.fetch k).2 = some tv) :
    ∃ t, r.states k = some t.state ∧ TevOk env n r k t ∧ t.ilk = .vcp ∧
      ({ r with tevers := fun _ => none }.fetch k).2 = some { t with isLocal := false } := by
  have hst : ∃ s, r.states k = some s := by
    have h2 := (h.fetch k).mem k tv (fetch_some hf)
    rw [fetch_rest] at h2; exact h2
  obtain ⟨s, hs⟩ := hst
  obtain ⟨t, rfl, h2, h3⟩ := h.sts k s hs
  refine ⟨t, hs, h2, h3, ?_⟩
  unfold Reger.fetch
  dsimp only
  rw [hs]
  have : t.state.reload { r with tevers := fun _ => none } = t.state.reload r := rfl
  dsimp only
  rw [this, reload_state h2]

/-- **C59, as the code does it.** After a restart every registry known before is still known, with the issuer and backer trait it had,
but as it was at its inception: number, last event, threshold and backers are those of its inception event. -/
theorem c59_back_to_inception (hnc : NoColl U) (hnt : NoCollT V) {t : TNode} (h : TReached env U V t) {k : Id} {tv : Tever}
    (hf : (t.reg.fetch k).2 = some tv) :
    ∃ v tv', Registered env t.node t.reg k v ∧ ((t.step env .restart).reg.fetch k).2 = some tv' ∧ tv'.pre = v.issuer ∧ tv'.regk = k ∧
      tv'.noBackers = v.noBackers ∧ tv'.sn = 0 ∧ tv'.serder = v ∧ tv'.ilk = .vcp ∧ tv'.toad = v.toad ∧ tv'.baks = v.baks ∧ tv'.isLocal = false := by
  have hi := h.inv hnc hnt
  obtain ⟨t', h1, h2, h3, h4⟩ := fetch_restart hi hf
  obtain ⟨v, g1, g2, g3, g4⟩ := h2.inc
  obtain ⟨g5, g6, g7⟩ := g4 h3
  exact ⟨v, _, g1, h4, g2, h2.regk, g3, h2.num h3, g5, h3, g6, g7, rfl⟩

/-- **C59, partly.** A registry that was not rotated is the same after a restart, except that it no longer counts as the node's own.
Missing: rotated registries, see `c59_rotation_forgotten`. -/
theorem c59_unrotated_partial (hnc : NoColl U) (hnt : NoCollT V) (hsa : SelfAddressing V) {t : TNode} (h : TReached env U V t) {k : Id} {tv : Tever}
    (hf : (t.reg.fetch k).2 = some tv) (hr : tv.ilk ≠ .vrt) :
    ((t.step env .restart).reg.fetch k).2 = some { tv with isLocal := false } := by
  have hi := h.inv hnc hnt
  obtain ⟨t', h1, h2, h3, h4⟩ := fetch_restart hi hf
  have h5 := (hi.fetch k).tev k tv (fetch_some hf)
  have hk : tv.ilk = .vcp := by
    rcases h5.kind with h | h
    · exact h
    · exact absurd h.1 hr
  obtain ⟨v, g1, g2, g3, g4⟩ := h2.inc
  obtain ⟨w, q1, q2, q3, q4⟩ := h5.inc
  have hT : (t.reg.fetch k).1.tvts = t.reg.tvts := by rw [fetch_rest]
  have q1' : Registered env t.node t.reg k w := ⟨q1.ilk, q1.pre, by rw [← hT]; exact q1.stored, q1.sealed⟩
  have := c55_one_issuer hnc hnt hsa h g1 q1'
  subst this
  obtain ⟨g5, g6, g7⟩ := g4 h3
  obtain ⟨q5, q6, q7⟩ := q4 hk
  show (({ t.reg with tevers := fun _ => none } : Reger).fetch k).2 = _
  rw [h4]
  have e1 := h2.regk
  have e2 := h5.regk
  have e3 := h2.num h3
  have e4 := h5.num hk
  cases t'; cases tv
  simp_all

/-- **C59, registries without backers.** Such a registry is never rotated and hence the same after a restart. -/
theorem c59_backerless (hnc : NoColl U) (hnt : NoCollT V) (hsa : SelfAddressing V) {t : TNode} (h : TReached env U V t) {k : Id} {tv : Tever}
    (hf : (t.reg.fetch k).2 = some tv) (hb : tv.noBackers = true) :
    ((t.step env .restart).reg.fetch k).2 = some { tv with isLocal := false } := by
  refine c59_unrotated_partial hnc hnt hsa h hf ?_
  have h5 := ((h.inv hnc hnt).fetch k).tev k tv (fetch_some hf)
  intro hv
  rcases h5.kind with h | h
  · rw [hv] at h; cases h
  · rw [hb] at h; exact absurd h.2 (by simp)

/-! ## C61: backers -/

/-- Enough signatures: `m` different ones out of `given` verify over `e` with the backer their index names. -/
def Backed (env : TEnv) (e : TEvt) (given : List Sig) (baks : List Id) (m : Nat) : Prop :=
  ∃ bs : List Sig, bs.Nodup ∧ m ≤ bs.length ∧ ∀ s ∈ bs, s ∈ given ∧ ∃ w, baks[s.index]? = some w ∧ env.bverify w s.raw e = true

theorem Checked.backed {n : Node} {iss regk : Id} {isLocal : Bool} {e : TEvt} {c : Option Couple} {bigers : List Sig} {toad : Nat}
    {baks : List Id} {c' : Couple} {bs : List Sig} (h : Checked env n iss regk isLocal e c bigers toad baks c' bs)
    (h1 : baks ≠ []) (h2 : isLocal = false) (h3 : regk ∉ baks) : Backed env e bigers baks toad := by
  refine ⟨bs, ?_, h.count h1 h2 h3, ?_⟩
  · rw [h.sigs]; exact (Kel.nodup_oset bigers).filter _
  · intro s hs
    rw [h.sigs, verifyBigs, List.mem_filter] at hs
    refine ⟨(Kel.mem_oset _ _).1 hs.1, ?_⟩
    have := hs.2
    split at this
    · simp at this
    · rename_i w hw; exact ⟨w, hw, this⟩

/-- **C61, partly.** An accepted registry inception from elsewhere carries enough backer signatures for its own threshold, which is
between one and the number of its backers; an accepted rotation carries enough from the backers it leads to, for its own threshold; an
accepted credential event carries enough for the threshold and backers stored for the registry event it refers to. `fetch` gives the
registry the event was checked against. Missing: the signatures need not be of different backers (`c61_one_backer_twice`) and the event
referred to need not have been accepted (`c61_backers_bypassed`). -/
theorem c61_backed_partial {n : Node} {r : Reger} {lax isLocal : Bool} {e : TEvt} {c : Option Couple} {bigers : List Sig} {k : Id}
    (hk : e.regk = some k) (hok : (r.processEvent env n lax isLocal e c bigers).2 = .ok ()) :
    (e.ilk = .vcp → e.baks ≠ [] → isLocal = false → e.pre ∉ e.baks → 1 ≤ e.toad ∧ e.toad ≤ e.baks.length ∧ Backed env e bigers e.baks e.toad) ∧
    (∀ tv, (r.fetch k).2 = some tv → e.ilk = .vrt → tv.isLocal = false → ∃ baks : List Id,
      (∀ w, w ∈ baks ↔ (w ∈ tv.baks ∧ w ∉ e.cuts) ∨ w ∈ e.adds) ∧ baks.Nodup ∧ baks.length + e.cuts.length = tv.baks.length + e.adds.length ∧
      (baks ≠ [] → tv.regk ∉ baks → 1 ≤ e.toad ∧ e.toad ≤ baks.length ∧ Backed env e bigers baks e.toad)) ∧
    (∀ tv, (r.fetch k).2 = some tv → e.ilk = .bis ∨ e.ilk = .brv → tv.isLocal = false → ∃ x : TEvt, (x.ilk = .vcp ∨ x.ilk = .vrt) ∧
      e.raI = tv.regk ∧ r.tvts e.raI e.raD = some x ∧
      (r.baks e.raI e.raD ≠ [] → tv.regk ∉ r.baks e.raI e.raD → Backed env e bigers (r.baks e.raI e.raD) x.toad)) := by
  rcases processEvent_cases env n r lax isLocal e c bigers with ⟨_, h1⟩ | ⟨k', ha, h1⟩
  · exact absurd hok h1
  rcases h1 with ⟨h1, _⟩ | ⟨_, h1⟩
  · exact absurd hok h1
  have := ha.regk
  rw [hk] at this; injection this with this; subst this
  have hT : (r.fetch k).1.tvts = r.tvts ∧ (r.fetch k).1.baks = r.baks := by rw [fetch_rest]; exact ⟨rfl, rfl⟩
  have tOk : ∀ (m : Nat) (b : List Id), toadOk m b = true → b ≠ [] → 1 ≤ m ∧ m ≤ b.length := by
    intro m b h hb; simpa [toadOk, hb] using h
  generalize hfo : (r.fetch k).2 = o at h1
  generalize (r.processEvent env n lax isLocal e c bigers).1 = r' at h1
  cases h1 with
  | vcp c' bs _ hil hd ht hc hl hm hs =>
    refine ⟨?_, fun _ h => by simp at h, fun _ h => by simp at h⟩
    intro _ hb hlo hne
    obtain ⟨q1, q2⟩ := tOk _ _ ht hb
    exact ⟨q1, q2, hc.backed hb hlo hne⟩
  | vrt t baks c' bs _ hil hnb hrot hc hl hm hs =>
    refine ⟨(fun h => by rw [hil] at h; cases h), ?_, (fun _ _ h => by rcases h with h | h <;> rw [hil] at h <;> cases h)⟩
    intro tv htv _ hlo
    injection htv with htv; subst htv
    obtain ⟨_, _, _, q4, q5, q6⟩ := rotate_facts hrot
    refine ⟨baks, ?_, ?_, q6, ?_⟩
    · intro w
      rw [q4, Kel.mem_ioPut, List.mem_filter, Kel.mem_oset]
      simp
    · rw [q4]; exact Kel.nodup_ioPut _ _ ((Kel.nodup_oset _).filter _)
    · intro hb hne
      obtain ⟨q1, q2⟩ := tOk _ _ q5 hb
      exact ⟨q1, q2, hc.backed hb hlo hne⟩
  | simple t c' _ hil hnb hcc hc hsn hp hl hm hs =>
    refine ⟨?_, ?_, ?_⟩
    · intro h; rcases hil with h' | h' <;> rw [h'] at h <;> cases h
    · intro _ _ h; rcases hil with h' | h' <;> rw [h'] at h <;> cases h
    · intro _ _ h; rcases hil with h' | h' <;> rw [h'] at h <;> rcases h with h | h <;> cases h
  | backed t toad baks c' bs _ hil hnb hb hc hsn hp hl hm hs =>
    refine ⟨?_, ?_, ?_⟩
    · intro h; rcases hil with h' | h' <;> rw [h'] at h <;> cases h
    · intro _ _ h; rcases hil with h' | h' <;> rw [h'] at h <;> cases h
    · intro tv htv _ hlo
      injection htv with htv; subst htv
      unfold Reger.backerState at hb
      split at hb; · simp at hb
      rename_i h0
      split at hb; · simp at hb
      rename_i x hx
      have key : (x.ilk = .vcp ∨ x.ilk = .vrt) ∧ x.toad = toad ∧ r.baks e.raI e.raD = baks := by
        cases hxi : x.ilk <;> rw [hxi] at hb <;> simp at hb
        · exact ⟨.inl rfl, hb.1, by rw [← hT.2]; exact hb.2⟩
        · exact ⟨.inr rfl, hb.1, by rw [← hT.2]; exact hb.2⟩
      refine ⟨x, key.1, by simpa using h0, by rw [← hT.1]; exact hx, ?_⟩
      rw [key.2.1, key.2.2]
      intro h1 h2
      exact hc.backed h1 hlo h2

/-! ## C62: own registries -/

/-- **C62.** Outside lax mode an event that names one of the node's own registries is refused when it comes from elsewhere, and an event
that names another registry is refused when it is claimed to be local; nothing changes. -/
theorem c62_source (n : Node) (r : Reger) (isLocal : Bool) (e : TEvt) (c : Option Couple) (bigers : List Sig) {k : Id}
    (hk : e.regk = some k) (hs : (k ∈ r.registries) ↔ isLocal = false) :
    (r.processEvent env n false isLocal e c bigers).1 = r ∧ (r.processEvent env n false isLocal e c bigers).2 ≠ .ok () := by
  rcases processEvent_cases env n r false isLocal e c bigers with h | ⟨k', ha, h1⟩
  · exact h
  have := ha.regk
  rw [hk] at this; injection this with this; subst this
  have := ha.source
  unfold Reger.sourceBad at this
  cases isLocal
  · simp at this; exact absurd (hs.2 rfl) this
  · simp at this; exact absurd (hs.1 this) (by simp)

/-- What happens to own registry `k` while others write: it stays own, no entry that names it is added to any log, its stored state
stays, and so does the one in memory unless the process restarts. -/
structure Own (k : Id) (r r' : Reger) : Prop where
  own : k ∈ r'.registries
  entries : ∀ p on e, InLog r' p on e → e.regk = some k → InLog r p on e
  states : r'.states k = r.states k
  memory : ∀ tv, r'.tevers k = some tv → r.tevers k = some tv

/-- An input from elsewhere, outside lax mode, with `k` among the own registries. -/
def TInp.foreign (k : Id) : TInp → Bool
  | .kel _ => true
  | .tel lax isLocal _ _ _ => !lax && !isLocal
  | .passO lax isLocal => !lax && !isLocal
  | .passA lax isLocal => !lax && !isLocal
  | .own l => decide (k ∈ l)
  | .restart => true

theorem Own.trans {k : Id} {a b c : Reger} (h : Own k a b) (g : Own k b c) : Own k a c :=
  ⟨g.own, fun p on e he hk => h.entries p on e (g.entries p on e he hk) hk, g.states.trans h.states, fun tv ht => h.memory tv (g.memory tv ht)⟩

theorem Own.of_eq {k : Id} {r r' : Reger} (h0 : k ∈ r'.registries) (h1 : r'.tels = r.tels) (h2 : r'.tvts = r.tvts) (h3 : r'.states = r.states)
    (h4 : r'.tevers k = none ∨ r'.tevers k = r.tevers k) : Own k r r' := by
  refine ⟨h0, ?_, by rw [h3], ?_⟩
  · intro p on e he _
    exact ⟨by rw [← h1]; exact he.entry, by rw [← h2]; exact he.stored⟩
  · intro tv ht
    rcases h4 with h | h <;> rw [h] at ht
    · simp at ht
    · exact ht

theorem own_process (hnt : NoCollT V) {n : Node} {r : Reger} (hi : TInv env U V n r) {k : Id} (ho : k ∈ r.registries) {e : TEvt} (he : V e) (c : Option Couple)
    (bs : List Sig) : Own k r (r.processEvent env n false false e c bs).1 := by
  rcases processEvent_cases env n r false false e c bs with ⟨h1, _⟩ | ⟨k', ha, h1⟩
  · rw [h1]; exact .of_eq ho rfl rfl rfl (.inr rfl)
  have hkk : k ≠ k' := by
    intro h; subst h
    have := ha.source
    simp [Reger.sourceBad] at this
    exact this ho
  have hif := hi.fetch k'
  have hof : Own k r (r.fetch k').1 := by
    refine .of_eq ?_ ?_ ?_ ?_ (.inr ?_)
    · rw [fetch_rest]; exact ho
    · rw [fetch_rest]
    · rw [fetch_rest]
    · rw [fetch_rest]
    · unfold Reger.fetch
      split
      · rfl
      · split
        · rfl
        · split
          · rfl
          · simp [upd, hkk]
  refine hof.trans ?_
  have ho' := hof.own
  have hsn := fun h => Acc.sn_le (env := env) (U := U) (V := V) (n := n) (r0 := r) (isLocal := false) (e := e) (c := c) (bigers := bs) (k := k')
    (r' := (r.processEvent env n false false e c bs).1) hi ha.regk ha.num h
  have hte : ∀ tv, (r.fetch k').2 = some tv → tv.regk = k' := fun tv h => (hif.tev k' tv (fetch_some h)).regk
  generalize (r.fetch k').2 = o at h1 hsn hte
  generalize (r.fetch k').1 = q at h1 hif ho' hsn
  generalize (r.processEvent env n false false e c bs) = out at h1 hsn ⊢
  have hold : (∀ p d x, q.tvts p d = some x → out.1.tvts p d = some x) → ∀ p on x, (on, x.said) ∈ q.tels p → out.1.tvts p x.said = some x → InLog q p on x := by
    intro hm p on x h1 h2
    obtain ⟨x', _, _, g, _⟩ := hif.ent p on x.said h1
    have := hm _ _ _ g
    rw [h2] at this; injection this with this; subst this
    exact ⟨h1, g⟩
  rcases h1 with ⟨_, h1⟩ | ⟨_, h1⟩
  · refine ⟨by rw [h1.own]; exact ho', ?_, by rw [h1.states], by rw [h1.tevers]; exact fun _ h => h⟩
    intro p on x hx _
    exact hold h1.tmono p on x (by rw [← h1.tels]; exact hx.entry) hx.stored
  · obtain ⟨hle, hl⟩ := hsn h1
    obtain ⟨f1, f2, f3, f4, f5, f6⟩ := hl.facts hnt hif he hle
    refine ⟨by rw [hl.own]; exact ho', ?_, ?_, ?_⟩
    · intro p on x hx hxk
      rcases f4 p (on, x.said) hx.entry with h2 | ⟨rfl, h2⟩
      · exact hold hl.tmono p on x h2 hx.stored
      · injection h2 with h2 h3
        have h4 := hx.stored
        rw [h3, f1] at h4; injection h4 with h4; subst h4
        rw [ha.regk] at hxk; injection hxk with hxk
        exact absurd hxk.symm hkk
    · generalize out.1 = r' at h1
      cases h1 with
      | vcp c' bs' _ hil hd ht hc hl hm hs =>
        have hke : k' = e.pre := by have := ha.regk; simp [TEvt.regk, hil] at this; exact this.symm
        rw [hs]; simp [upd, ← hke, hkk]
      | vrt t baks c' bs' _ hil hnb hrot hc hl hm hs => rw [hs]
      | simple t c' _ hil hnb hcc hc hsn hp hl hm hs => rw [hs]
      | backed t toad baks c' bs' _ hil hnb hb hc hsn hp hl hm hs => rw [hs]
    · generalize out.1 = r' at h1
      cases h1 with
      | vcp c' bs' _ hil hd ht hc hl hm hs =>
        have hke : k' = e.pre := by have := ha.regk; simp [TEvt.regk, hil] at this; exact this.symm
        rw [hm]; simp [upd, ← hke, hkk]
      | vrt t baks c' bs' _ hil hnb hrot hc hl hm hs =>
        rw [hm, hte t rfl]; simp [upd, hkk]
      | simple t c' _ hil hnb hcc hc hsn hp hl hm hs => rw [hm]; exact fun _ h => h
      | backed t toad baks c' bs' _ hil hnb hb hc hsn hp hl hm hs => rw [hm]; exact fun _ h => h

theorem own_stepO (hnt : NoCollT V) {n : Node} {r : Reger} (hi : TInv env U V n r) {k : Id} (ho : k ∈ r.registries) (x : Id × Nat × Dig) :
    Own k r (r.stepO env n false false x) := by
  unfold Reger.stepO
  dsimp only
  split
  · rename_i e c he hc
    have := own_process hnt hi ho (hi.tvt _ _ _ he).2.2 (some c) (r.tibs x.1 x.2.2)
    split
    · rename_i r' hr; rw [hr] at this; exact this
    · rename_i r' o _ hr; rw [hr] at this; exact this.trans (.of_eq this.own rfl rfl rfl (.inr rfl))
  · exact .of_eq ho rfl rfl rfl (.inr rfl)

theorem own_stepA (hnt : NoCollT V) {n : Node} {r : Reger} (hi : TInv env U V n r) {k : Id} (ho : k ∈ r.registries) (x : Id × Nat × Dig) :
    Own k r (r.stepA env n false false x) := by
  unfold Reger.stepA
  dsimp only
  split
  · exact .of_eq ho rfl rfl rfl (.inr rfl)
  · exact .of_eq ho rfl rfl rfl (.inr rfl)
  · rename_i e c he hc
    have := own_process hnt hi ho (hi.tvt _ _ _ he).2.2 (some c) (r.tibs x.1 x.2.2)
    split
    · rename_i r' hr; rw [hr] at this; exact this
    · rename_i r' o _ hr; rw [hr] at this; exact this.trans (.of_eq this.own rfl rfl rfl (.inr rfl))

/-- **C62, over histories, partly.** While everything that is delivered or taken out of escrow is processed as coming from elsewhere and
`k` stays an own registry, no event that names `k` is added to any log and the state of `k` stays. Missing: the logs of credentials
issued in `k` are open to events that name other registries, see `c62_own_credential_revoked`. -/
theorem c62_own_partial (hnc : NoColl U) (hnt : NoCollT V) {t : TNode} (ht : TReached env U V t) {k : Id} (ho : k ∈ t.reg.registries)
    (h : List TInp) (hd : TDelivers U V h) (hf : ∀ i ∈ h, i.foreign k = true) : Own k t.reg (t.run env h).reg := by
  have main : ∀ (h : List TInp) (t : TNode), TInv env U V t.node t.reg → k ∈ t.reg.registries → TDelivers U V h → (∀ i ∈ h, i.foreign k = true) →
      Own k t.reg (t.run env h).reg := by
    intro h
    induction h with
    | nil => intro t _ ho _ _; exact .of_eq ho rfl rfl rfl (.inr rfl)
    | cons i h ih =>
      intro t hi ho hd hf
      have hu := hd.1 i (by simp)
      have hv := hd.2 i (by simp)
      have step : Own k t.reg (t.step env i).reg := by
        have hfi := hf i (by simp)
        cases i with
        | kel i => exact .of_eq ho rfl rfl rfl (.inr rfl)
        | tel lax l e c bs =>
          simp [TInp.foreign] at hfi
          obtain ⟨rfl, rfl⟩ := hfi
          exact own_process hnt hi ho (hv e rfl) c bs
        | passO lax l =>
          simp [TInp.foreign] at hfi
          obtain ⟨rfl, rfl⟩ := hfi
          exact (pass_induction (P := fun r => TInv env U V t.node r ∧ Own k t.reg r)
            (fun r x hr => ⟨hr.1.stepO hnt false false x, hr.2.trans (own_stepO hnt hr.1 hr.2.own x)⟩) _ _ ⟨hi, .of_eq ho rfl rfl rfl (.inr rfl)⟩).2
        | passA lax l =>
          simp [TInp.foreign] at hfi
          obtain ⟨rfl, rfl⟩ := hfi
          exact (pass_induction (P := fun r => TInv env U V t.node r ∧ Own k t.reg r)
            (fun r x hr => ⟨hr.1.stepA hnt false false x, hr.2.trans (own_stepA hnt hr.1 hr.2.own x)⟩) _ _ ⟨hi, .of_eq ho rfl rfl rfl (.inr rfl)⟩).2
        | own l => simp [TInp.foreign] at hfi; exact .of_eq hfi rfl rfl rfl (.inr rfl)
        | restart => exact .of_eq ho rfl rfl rfl (.inl rfl)
      exact step.trans (ih _ (hi.step hnc hnt i hu hv) step.own ⟨fun j hj => hd.1 j (by simp [hj]), fun j hj => hd.2 j (by simp [hj])⟩ (fun j hj => hf j (by simp [hj])))
  exact main h t (ht.inv hnc hnt) ho hd hf

end Verif.Tel
