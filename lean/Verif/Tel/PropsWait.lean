import Verif.Tel.PropsReg
import Verif.Kel.Frame

/-! # Events that wait for their seal (C60) -/

namespace Verif.Tel

open Verif.Kel (Id Dig Sig Couple Event Node Inp upd upd2 ioPut oset escAdd Accepted NoColl EvtU)

variable {env : TEnv} {U : Event → Prop} {V : TEvt → Prop}

/-- A credential event of a registry without backers that is next in the log of its credential. -/
structure Next (env : TEnv) (r : Reger) (lax isLocal : Bool) (k : Id) (e : TEvt) : Prop where
  pre : env.kel.okPre e.pre = true
  kind : (e.ilk = .iss ∧ e.sn = 0) ∨ (e.ilk = .rev ∧ e.sn ≠ 0 ∧ ∃ on x, (r.tels e.pre).getLast? = some (on, e.prior) ∧ r.tvts e.pre e.prior = some x)
  ri : e.ri = k
  source : lax = true ∨ (isLocal = true ↔ k ∈ r.registries)
  known : ∃ t, (r.fetch k).2 = some t ∧ t.noBackers = true
  num : e.sn = (r.tels e.pre).length

/-- The key event at number `s` of `iss` has digest `d` and exactly one anchor, the seal of `e`. -/
def SealAt (env : TEnv) (n : Node) (iss : Id) (s : Nat) (d : Dig) (e : TEvt) : Prop :=
  ∃ x dig, (n.db.kels iss s).getLast? = some dig ∧ n.db.evts iss dig = some x ∧ x.said = d ∧ env.anc x = .one e.pre e.sn e.said

theorem verifyAnchor_at {n : Node} {iss : Id} {s : Nat} {d : Dig} {e : TEvt} (h : SealAt env n iss s d e) : verifyAnchor env n iss e (some (s, d)) = .ok true := by
  obtain ⟨x, dig, h1, h2, h3, h4⟩ := h
  simp [verifyAnchor, h1, h2, h3, h4]

theorem Next.regk {r : Reger} {lax isLocal : Bool} {k : Id} {e : TEvt} (h : Next env r lax isLocal k e) : e.regk = some k := by
  rcases h.kind with ⟨h1, _⟩ | ⟨h1, _⟩ <;> simp [TEvt.regk, h1, h.ri]

/-- Processing such an event comes down to its seal. -/
theorem Next.process {n : Node} {r : Reger} (hi : TInv env U V n r) {lax isLocal : Bool} {k : Id} {e : TEvt} (h : Next env r lax isLocal k e)
    (c : Option Couple) (bs : List Sig) : ∃ t, (r.fetch k).2 = some t ∧
      r.processEvent env n lax isLocal e c bs = (r.fetch k).1.simple env n t e c := by
  obtain ⟨t, ht, hb⟩ := h.known
  refine ⟨t, ht, ?_⟩
  have hif := hi.fetch k
  have htk := (hif.tev k t (fetch_some ht)).regk
  have hbad : e.badNum = false := by
    rcases h.kind with ⟨h1, h2⟩ | ⟨h1, h2, _⟩ <;> simp [TEvt.badNum, h1, TIlk.inceptive, h2]
  have hsrc : r.sourceBad lax isLocal k = false := by
    rcases h.source with h1 | h1
    · simp [Reger.sourceBad, h1]
    · unfold Reger.sourceBad
      cases isLocal <;> simp at h1 <;> simp [h1]
  have hvcp : e.ilk ≠ .vcp := by rcases h.kind with ⟨h1, _⟩ | ⟨h1, _⟩ <;> simp [h1]
  have hvrt : e.ilk ≠ .vrt := by rcases h.kind with ⟨h1, _⟩ | ⟨h1, _⟩ <;> simp [h1]
  have hT : (r.fetch k).1.tels = r.tels ∧ (r.fetch k).1.tvts = r.tvts := by rw [fetch_rest]; exact ⟨rfl, rfl⟩
  have hnext : (r.fetch k).1.nextSn t e = e.sn := by
    unfold Reger.nextSn
    rw [if_neg hvrt, hT.1, ← h.num]
  unfold Reger.processEvent
  have hf : r.fetch k = ((r.fetch k).1, some t) := by rw [← ht]
  rw [if_neg (by simp [h.pre]), h.regk]
  dsimp only
  rw [if_neg (by simp [hbad]), if_neg (by simp [hsrc]), hf]
  dsimp only
  rw [if_neg hvcp, hnext, if_neg (by omega), if_pos rfl]
  unfold Reger.update
  rcases h.kind with ⟨h1, _⟩ | ⟨h1, h2, on, x, h3, h4⟩
  · rw [h1]
    dsimp only
    unfold Reger.issue
    rw [h1]
    dsimp only
    rw [if_neg (by simp [hb]), if_neg (by simp [h.ri, htk])]
  · rw [h1]
    dsimp only
    unfold Reger.revoke
    have hon : on = (r.tels e.pre).length - 1 := by
      rw [List.getLast?_eq_getElem?] at h3; exact hi.at h3
    have hmem := List.mem_of_getLast? h3
    have hget : telGet (r.tels e.pre) (e.sn - 1) = some e.prior := by
      rw [h.num, ← hon]
      cases hg : telGet (r.tels e.pre) on with
      | none =>
        unfold telGet at hg
        rw [Option.map_eq_none_iff, List.find?_eq_none] at hg
        have := hg _ hmem
        simp at this
      | some d =>
        have h5 := hi.pos (telGet_mem hg)
        have h6 := hi.pos hmem
        rw [h5] at h6
        simp at h6; rw [h6]
    rw [hT.1, hget, hT.2]
    dsimp only
    rw [h4]
    dsimp only
    rw [if_neg (by simp [(hi.tvt _ _ _ h4).2.1]), h1]
    dsimp only
    rw [if_neg (by simp [hb])]

/-- **C60, waiting.** A credential event of a registry without backers that is next in its log, and whose source seal points at a number
that the key event log of the registry's issuer does not have yet, is refused with a missing anchor, kept, and put with the others that
wait; the log stays. The source seal given is remembered unless there was one before. -/
theorem c60_waits (hnc : NoColl U) (hnt : NoCollT V) {t : TNode} (h0 : TReached env U V t) {lax isLocal : Bool} {k : Id} {e : TEvt} (he : V e)
    (h : Next env t.reg lax isLocal k e) {s : Nat} {d : Dig} (bs : List Sig)
    (hno : ∀ tv, (t.reg.fetch k).2 = some tv → t.node.db.kels tv.pre s = []) :
    let o := t.reg.processEvent env t.node lax isLocal e (some (s, d)) bs
    o.2 = .error .missingAnchor ∧ (e.pre, e.sn, e.said) ∈ o.1.taes ∧ o.1.tvts e.pre e.said = some e ∧
    (t.reg.ancs e.pre e.said = none → o.1.ancs e.pre e.said = some (s, d)) ∧ o.1.tels = t.reg.tels := by
  have hi := h0.inv hnc hnt
  generalize t.node = n at *
  generalize t.reg = r at *
  obtain ⟨t, ht, hp⟩ := h.process hi (some (s, d)) bs
  dsimp only
  rw [hp]
  have hT : (r.fetch k).1.tels = r.tels ∧ (r.fetch k).1.ancs = r.ancs := by rw [fetch_rest]; exact ⟨rfl, rfl⟩
  have hif := hi.fetch k
  generalize (r.fetch k).1 = q at hT hif
  have hva : verifyAnchor env n t.pre e (some (s, d)) = .ok false := by
    simp [verifyAnchor, hno t ht]
  unfold Reger.simple
  rw [hva]
  dsimp only
  have hx := ext_escrowAL e q (some (s, d)) [] []
  have hst : (q.escrowAL e (some (s, d)) [] []).tvts e.pre e.said = some e := by
    have h1 : ∃ x, (q.escrowAL e (some (s, d)) [] []).tvts e.pre e.said = some x := putTvt_stored e _
    obtain ⟨x, h1⟩ := h1
    rcases hx.tonly _ _ _ h1 with h2 | ⟨_, _, rfl⟩
    · obtain ⟨_, g2, g3⟩ := hif.tvt _ _ _ h2
      rw [h1, hnt x e g3 he g2]
    · exact h1
  refine ⟨rfl, ?_, hst, ?_, by rw [hx.tels, hT.1]⟩
  · unfold Reger.escrowAL
    dsimp only
    exact (Kel.mem_escAdd _ _ _).2 (.inl rfl)
  · intro hn
    have h1 : (q.putAnc e (s, d)).ancs e.pre e.said = some (s, d) := by
      unfold Reger.putAnc
      rw [hT.2, hn]
      simp [upd2]
    exact ((ext_pinTibs e (q.putAnc e (s, d)) []).trans ((ext_pinBaks e _ []).trans (ext_putTvt e _))).amono _ _ _ h1

/-- What other events of a pass leave of the conditions for `e`. -/
structure Same (k : Id) (p : Id) (r r' : Reger) : Prop where
  kept : Kept r r'
  log : r'.tels p = r.tels p
  own : r'.registries = r.registries
  known : ∀ s, r.states k = some s → ∃ s', r'.states k = some s'

theorem Same.rfl' {k p : Id} {r : Reger} : Same k p r r := ⟨.rfl', rfl, rfl, fun s h => ⟨s, h⟩⟩

theorem Same.trans {k p : Id} {a b c : Reger} (h : Same k p a b) (g : Same k p b c) : Same k p a c :=
  ⟨h.kept.trans g.kept, g.log.trans h.log, g.own.trans h.own, fun s hs => by obtain ⟨s', h'⟩ := h.known s hs; exact g.known s' h'⟩

theorem Same.of_eq {k p : Id} {r r' : Reger} (h1 : r'.tels = r.tels) (h2 : r'.tvts = r.tvts) (h3 : r'.ancs = r.ancs) (h4 : r'.registries = r.registries)
    (h5 : r'.states = r.states) : Same k p r r' :=
  ⟨.of_eq h1 h2 h3, by rw [h1], h4, by rw [h5]; exact fun s h => ⟨s, h⟩⟩

theorem same_process {n : Node} {r : Reger} (hi : TInv env U V n r) (k : Id) {p : Id} (lax isLocal : Bool) {e : TEvt} (he : e.pre ≠ p) (c : Option Couple)
    (bs : List Sig) : Same k p r (r.processEvent env n lax isLocal e c bs).1 := by
  have hk := kept_process hi lax isLocal e c bs
  rcases processEvent_cases env n r lax isLocal e c bs with ⟨h1, _⟩ | ⟨k', ha, h1⟩
  · rw [h1]; exact .rfl'
  have hT : (r.fetch k').1.tels = r.tels ∧ (r.fetch k').1.states = r.states ∧ (r.fetch k').1.registries = r.registries := by
    rw [fetch_rest]; exact ⟨rfl, rfl, rfl⟩
  generalize (r.fetch k').1 = q at h1 hT
  generalize (r.fetch k').2 = o at h1
  generalize (r.processEvent env n lax isLocal e c bs) = out at h1 hk ⊢
  have hlog : Logged e q out.1 → out.1.tels p = r.tels p := by
    intro hl; rw [hl.tels]; simp [upd, Ne.symm he, hT.1]
  have hst : out.1.states = q.states → ∀ s, r.states k = some s → ∃ s', out.1.states k = some s' := by
    intro h s hs; rw [h, hT.2.1]; exact ⟨s, hs⟩
  rcases h1 with ⟨_, h1⟩ | ⟨_, h1⟩
  · exact ⟨hk, by rw [h1.tels, hT.1], by rw [h1.own, hT.2.2], hst h1.states⟩
  · generalize out.1 = r' at *
    cases h1 with
    | vcp c' bs' _ hil hd ht hc hl hm hs =>
      refine ⟨hk, hlog hl, by rw [hl.own, hT.2.2], ?_⟩
      intro s h
      rw [hs]; simp only [upd]
      split
      · exact ⟨_, rfl⟩
      · exact ⟨s, by rw [hT.2.1]; exact h⟩
    | vrt t baks c' bs' _ hil hnb hrot hc hl hm hs => exact ⟨hk, hlog hl, by rw [hl.own, hT.2.2], hst hs⟩
    | simple t c' _ hil hnb hcc hc hsn hp hl hm hs => exact ⟨hk, hlog hl, by rw [hl.own, hT.2.2], hst hs⟩
    | backed t toad baks c' bs' _ hil hnb hb hc hsn hp hl hm hs => exact ⟨hk, hlog hl, by rw [hl.own, hT.2.2], hst hs⟩

theorem same_stepA {n : Node} {r : Reger} (hi : TInv env U V n r) (k : Id) {p : Id} (lax isLocal : Bool) {x : Id × Nat × Dig} (hx : x.1 ≠ p) :
    Same k p r (r.stepA env n lax isLocal x) := by
  unfold Reger.stepA
  dsimp only
  split
  · exact .of_eq rfl rfl rfl rfl rfl
  · exact .rfl'
  · rename_i e c he hc
    have := same_process hi k (p := p) lax isLocal (e := e) (by rw [(hi.tvt _ _ _ he).1]; exact hx) (some c) (r.tibs x.1 x.2.2)
    split
    · rename_i r' hr; rw [hr] at this; exact this
    · rename_i r' o _ hr; rw [hr] at this; exact this.trans (.of_eq rfl rfl rfl rfl rfl)

theorem known_iff {n : Node} {r : Reger} (hi : TInv env U V n r) (k : Id) : (∃ t, (r.fetch k).2 = some t) ↔ ∃ s, r.states k = some s := by
  constructor
  · rintro ⟨t, ht⟩
    have := (hi.fetch k).mem k t (fetch_some ht)
    rw [fetch_rest] at this; exact this
  · rintro ⟨s, hs⟩
    cases hf : (r.fetch k).2 with
    | some t => exact ⟨t, rfl⟩
    | none =>
      have := (fetch_none hi hf).2
      rw [hs] at this; simp at this

/-- Acceptance of an event that is next and waits, whenever the invariant holds. -/
theorem accepted_next (hnt : NoCollT V) (hsa : SelfAddressing V) {t : TNode} (hi : TInv env U V t.node t.reg) {lax isLocal : Bool}
    {k : Id} {e v : TEvt} {s : Nat} {d : Dig} (hn : Next env t.reg lax isLocal k e) (hv : Registered env t.node t.reg k v)
    (hst : t.reg.tvts e.pre e.said = some e) (hc : t.reg.ancs e.pre e.said = some (s, d)) (hw : (e.pre, e.sn, e.said) ∈ t.reg.taes)
    (ho : ∀ x ∈ t.reg.taes, x.1 = e.pre → x = (e.pre, e.sn, e.said)) (hs : SealAt env t.node v.issuer s d e) :
    InLog (t.step env (.passA lax isLocal)).reg e.pre e.sn e := by
  have hsf : verifyAnchor env t.node v.issuer e (some (s, d)) = .ok true := verifyAnchor_at hs
  obtain ⟨l1, l2, hl, hl1⟩ : ∃ l1 l2, t.reg.taes = l1 ++ (e.pre, e.sn, e.said) :: l2 ∧ (e.pre, e.sn, e.said) ∉ l1 := by
    obtain ⟨l1, l2, h1, h2⟩ := List.eq_append_cons_of_mem hw
    exact ⟨l1, l2, h1, h2⟩
  show InLog (t.reg.taes.foldl _ t.reg) _ _ _
  rw [hl, List.foldl_append, List.foldl_cons]
  -- before
  have before : ∀ (l : List (Id × Nat × Dig)), (∀ x ∈ l, x.1 ≠ e.pre) → ∀ r, TInv env U V t.node r →
      TInv env U V t.node (l.foldl (fun r x => r.stepA env t.node lax isLocal x) r) ∧ Same k e.pre r (l.foldl (fun r x => r.stepA env t.node lax isLocal x) r) := by
    intro l
    induction l with
    | nil => intro _ r hr; exact ⟨hr, .rfl'⟩
    | cons x xs ih =>
      intro hx r hr
      obtain ⟨g1, g2⟩ := ih (fun y hy => hx y (by simp [hy])) _ (hr.stepA hnt lax isLocal x)
      exact ⟨g1, (same_stepA hr k lax isLocal (hx x (by simp))).trans g2⟩
  obtain ⟨i1, s1⟩ := before l1 (by
    intro x hx hxe
    have := ho x (by rw [hl]; exact List.mem_append_left _ hx) hxe
    subst this; exact hl1 hx) t.reg hi
  generalize l1.foldl (fun r x => r.stepA env t.node lax isLocal x) t.reg = r1 at i1 s1
  -- the entry itself
  have hreg1 : Registered env t.node r1 k v := ⟨hv.ilk, hv.pre, s1.kept.tvts _ _ _ hv.stored, hv.sealed⟩
  have uniq : ∀ tv, (r1.fetch k).2 = some tv → tv.pre = v.issuer ∧ tv.noBackers = v.noBackers := by
    intro tv htv
    obtain ⟨w, q1, q2, q3, _⟩ := ((i1.fetch k).tev k tv (fetch_some htv)).inc
    have hT : (r1.fetch k).1.tvts = r1.tvts := by rw [fetch_rest]
    have h1 := (i1.tvt _ _ _ hreg1.stored).2.2
    have h2 := (i1.tvt _ _ _ (by rw [← hT]; exact q1.stored)).2.2
    have : v = w := hnt v w h1 h2 (by rw [← hsa v h1 hv.ilk, ← hsa w h2 q1.ilk, hv.pre, q1.pre])
    subst this
    exact ⟨q2, q3⟩
  have hvb : v.noBackers = true := by
    obtain ⟨tv, h1, h2⟩ := hn.known
    obtain ⟨w, q1, q2, q3, _⟩ := ((hi.fetch k).tev k tv (fetch_some h1)).inc
    have hT : (t.reg.fetch k).1.tvts = t.reg.tvts := by rw [fetch_rest]
    have g1 := (hi.tvt _ _ _ hv.stored).2.2
    have g2 := (hi.tvt _ _ _ (by rw [← hT]; exact q1.stored)).2.2
    have : v = w := hnt v w g1 g2 (by rw [← hsa v g1 hv.ilk, ← hsa w g2 q1.ilk, hv.pre, q1.pre])
    rw [this, ← q3]; exact h2
  have hn1 : Next env r1 lax isLocal k e := by
    refine ⟨hn.pre, ?_, hn.ri, by rw [s1.own]; exact hn.source, ?_, by rw [s1.log]; exact hn.num⟩
    · rcases hn.kind with h1 | ⟨h1, h2, on, x, h3, h4⟩
      · exact .inl h1
      · exact .inr ⟨h1, h2, on, x, by rw [s1.log]; exact h3, s1.kept.tvts _ _ _ h4⟩
    · obtain ⟨tv, h1, _⟩ := hn.known
      obtain ⟨st, h2⟩ := (known_iff hi k).1 ⟨tv, h1⟩
      obtain ⟨tv', h3⟩ := (known_iff i1 k).2 (s1.known st h2)
      exact ⟨tv', h3, by rw [(uniq tv' h3).2]; exact hvb⟩
  have mid : InLog (r1.stepA env t.node lax isLocal (e.pre, e.sn, e.said)) e.pre e.sn e := by
    unfold Reger.stepA
    dsimp only
    rw [s1.kept.tvts _ _ _ hst, s1.kept.ancs _ _ _ hc]
    dsimp only
    obtain ⟨tv, h1, h2⟩ := hn1.process i1 (n := t.node) (some (s, d)) (r1.tibs e.pre e.said)
    rw [h2]
    unfold Reger.simple
    rw [(uniq tv h1).1, hsf]
    dsimp only
    have hif := i1.fetch k
    have hT : (r1.fetch k).1.tels = r1.tels ∧ (r1.fetch k).1.tvts = r1.tvts := by rw [fetch_rest]; exact ⟨rfl, rfl⟩
    generalize (r1.fetch k).1 = q at hif hT
    have hl' := logged e q (s, d) [] []
    have hnum : e.sn = (q.tels e.pre).length := by rw [hT.1]; exact hn1.num
    have hstq : q.tvts e.pre e.said = some e := by rw [hT.2]; exact s1.kept.tvts _ _ _ hst
    refine ⟨?_, hl'.tmono _ _ _ hstq⟩
    show (e.sn, e.said) ∈ (q.logEvent e (s, d) [] []).tels e.pre
    rw [hl'.tels]
    simp only [upd, if_true]
    exact List.mem_of_getLast? (getLast_put (hif.ord _) hnum)
  -- after
  have i2 := i1.stepA hnt lax isLocal (e.pre, e.sn, e.said)
  have after := (pass_induction (P := fun r => TInv env U V t.node r ∧ InLog r e.pre e.sn e)
    (fun r x hr => ⟨hr.1.stepA hnt lax isLocal x,
      ⟨((kept_stepA hr.1 lax isLocal x).tels _).subset hr.2.entry, (kept_stepA hr.1 lax isLocal x).tvts _ _ _ hr.2.stored⟩⟩) l2 _ ⟨i2, mid⟩).2
  exact after

/-- **C60, partly.** A credential event of a registry without backers that is next in its log and waits with the right source seal is
entered in the log by the next pass over the waiting events once its issuer's key event log has the seal, provided nothing else
waits for the same credential; whatever else waits. Missing: the wrong source seal given first stays (`c60_wrong_seal_sticks`), entries at the same number push
each other out (`c60_sibling_dropped`), events short of backer signatures are never looked at again (`c60_backers_never`). -/
theorem c60_accepted_partial (hnc : NoColl U) (hnt : NoCollT V) (hsa : SelfAddressing V) {t : TNode} (h : TReached env U V t) {lax isLocal : Bool}
    {k : Id} {e v : TEvt} {s : Nat} {d : Dig} (hn : Next env t.reg lax isLocal k e) (hv : Registered env t.node t.reg k v)
    (hst : t.reg.tvts e.pre e.said = some e) (hc : t.reg.ancs e.pre e.said = some (s, d)) (hw : (e.pre, e.sn, e.said) ∈ t.reg.taes)
    (ho : ∀ x ∈ t.reg.taes, x.1 = e.pre → x = (e.pre, e.sn, e.said)) (hs : SealAt env t.node v.issuer s d e) :
    InLog (t.step env (.passA lax isLocal)).reg e.pre e.sn e :=
  accepted_next hnt hsa (h.inv hnc hnt) hn hv hst hc hw ho hs

end Verif.Tel
