import Verif.Kel.PropsAuth

/-! # C51: properly signed events that continue the log are accepted; C24 for direct updates -/

namespace Verif.Kel

open Verif.Thold (Thold)

/-- `vs` lists, each once, the signatures of `ss` that verify over `e` under the key at their position. -/
structure Good (env : Env) (keys : List Id) (e : Event) (ss vs : List Sig) : Prop where
  nodup : vs.Nodup
  iff : ∀ s, s ∈ vs ↔ s ∈ ss ∧ SignedBy env keys e s

/-- The positions of the verifying signatures meet the threshold. -/
def Enough (env : Env) (keys : List Id) (kt : Thold) (e : Event) (ss : List Sig) : Prop :=
  ∀ vs, Good env keys e ss vs → Thold.satisfy kt (vs.map Sig.index) = true

/-- The signature is by a key whose commitment is at the second position `o` of the prior list. -/
def ExposedBy (env : Env) (ndigs : List Dig) (keys : List Id) (s : Sig) (o : Nat) : Prop :=
  s.ondex = some o ∧ ∃ key d, keys[s.index]? = some key ∧ ndigs[o]? = some d ∧ env.commits key d = true

/-- The second positions of the verifying signatures whose keys were committed to meet the prior next threshold. -/
def EnoughNext (env : Env) (ndigs : List Dig) (nt : Thold) (keys : List Id) (e : Event) (ss : List Sig) : Prop :=
  ∀ vs xs : List Sig, Good env keys e ss vs → xs.Sublist vs → (∀ s, s ∈ vs → (s ∈ xs ↔ ∃ o, ExposedBy env ndigs keys s o)) →
    Thold.satisfy nt (xs.map fun s => s.ondex.getD 0) = true

/-- The host has a part in the identifier: it owns it, has a member of the group, or one of its identifiers is a witness. -/
def HostPart (n : Node) (p : Id) (wits : List Id) : Prop :=
  p ∈ n.prefixes ∨ p ∈ n.groups ∨ ∃ w, w ∈ wits ∧ w ∈ n.prefixes

/-- The witness threshold is met, or need not be because the host has a part in the identifier. -/
def Witnessed (env : Env) (n : Node) (p : Id) (wits : List Id) (toad : Nat) (e : Event) (ws : List Sig) : Prop :=
  HostPart n p wits ∨ ∀ vs, Good env wits e ws vs → toad ≤ vs.length

/-- The message comes from a local source, or concerns an identifier in which the host has no part before or after it. -/
def Admissible (n : Node) (p : Id) (isLocal : Bool) (old new : List Id) : Prop :=
  isLocal = true ∨ (¬ HostPart n p old ∧ ¬ HostPart n p new)

/-- The witness threshold fits the list. -/
def ToadFits (toad : Nat) (wits : List Id) : Prop :=
  (wits = [] → toad = 0) ∧ (wits ≠ [] → 1 ≤ toad ∧ toad ≤ wits.length)

theorem good_verifySigs (env : Env) (e : Event) (ss : List Sig) (keys : List Id) :
    Good env keys e ss (verifySigs env e ss keys) := by
  refine ⟨nodup_verifySigs .., fun s => ⟨fun h => mem_verifySigs h, ?_⟩⟩
  rintro ⟨h, k, hk, hv⟩
  unfold verifySigs
  rw [List.mem_filter, mem_oset]
  exact ⟨h, by simp [hk, hv]⟩

theorem exposeds_eq (env : Env) (ndigs : List Dig) (keys : List Id) (vs : List Sig) :
    ∃ xs : List Sig, xs.Sublist vs ∧ (∀ s, s ∈ vs → (s ∈ xs ↔ ∃ o, ExposedBy env ndigs keys s o)) ∧
      exposeds env ndigs keys vs = xs.map fun s => s.ondex.getD 0 := by
  let f : Sig → Option Nat := fun s => match s.ondex with
    | none => none
    | some o => match ndigs[o]?, keys[s.index]? with
      | some d, some k => if env.commits k d then some o else none
      | _, _ => none
  have hf : ∀ s o, f s = some o ↔ ExposedBy env ndigs keys s o := by
    intro s o
    unfold ExposedBy
    constructor
    · intro h
      simp only [f] at h
      split at h
      · exact absurd h (by simp)
      · rename_i o' ho
        split at h
        · rename_i d k hd hk
          split at h
          · rename_i hc
            injection h with h; subst h
            exact ⟨ho, k, d, hk, hd, hc⟩
          · exact absurd h (by simp)
        · exact absurd h (by simp)
    · rintro ⟨ho, k, d, hk, hd, hc⟩
      simp [f, ho, hk, hd, hc]
  refine ⟨vs.filter (fun s => (f s).isSome), List.filter_sublist, ?_, ?_⟩
  · intro s hs
    rw [List.mem_filter]
    constructor
    · rintro ⟨_, h⟩
      obtain ⟨o, ho⟩ := Option.isSome_iff_exists.1 h
      exact ⟨o, (hf s o).1 ho⟩
    · rintro ⟨o, ho⟩
      exact ⟨hs, by rw [(hf s o).2 ho]; rfl⟩
  · show vs.filterMap f = _
    induction vs with
    | nil => rfl
    | cons s vs ih =>
      match h : f s with
      | none => rw [List.filterMap_cons_none h, List.filter_cons_of_neg (by simp [h]), ih]
      | some o =>
        rw [List.filterMap_cons_some h, List.filter_cons_of_pos (by simp [h]), List.map_cons, ih, ((hf s o).1 h).1]; rfl

theorem satisfy_nil (t : Thold) : Thold.satisfy t [] = false := by
  cases t with
  | num m => simp [Thold.satisfy, Verif.Thold.satisfyNum]; omega
  | wtd cs => simp [Thold.satisfy, Verif.Thold.satisfyWtd]

theorem val_complete {env : Env} {n : Node} {k : Kever} {e : Event} {ss ws : List Sig} {keys : List Id} {kt : Thold}
    {toad : Nat} {wits : List Id} {couple : Option Couple} {eager isLocal : Bool}
    (hd : delegator k e = .ok none) (hs : Thold.size kt ≤ keys.length) (he : Enough env keys kt e ss)
    (hn : e.ilk = .rot ∨ e.ilk = .drt → EnoughNext env k.ndigs k.nt keys e ss) (hok : ∀ w, w ∈ wits → env.okKey w = true)
    (ht : ToadFits toad wits) (hw : Witnessed env n k.pre wits toad e ws) (ha : Admissible n k.pre isLocal k.wits wits) :
    ∃ v, n.valSigsWigsDel env k e ss ws keys kt toad wits couple eager isLocal = (n.db, .ok v) := by
  have hgood := good_verifySigs env e ss keys
  have hsat := he _ hgood
  have hne : verifySigs env e ss keys ≠ [] := by
    intro h0; rw [h0] at hsat; simp [satisfy_nil] at hsat
  have hpart : HostPart n k.pre wits → wits ≠ [] → (n.owned k.pre || n.membered k.pre || n.witnessed k wits) = true := by
    intro hp hne
    simp only [Node.owned, Node.membered, Node.witnessed, if_neg hne, Bool.or_eq_true, Bool.and_eq_true, Bool.not_eq_true',
      decide_eq_true_eq, decide_eq_false_iff_not, List.any_eq_true]
    rcases hp with h | h | h
    · by_cases hg : k.pre ∈ n.groups
      · exact .inl (.inr hg)
      · exact .inl (.inl ⟨h, hg⟩)
    · exact .inl (.inr h)
    · exact .inr h
  have hcs : n.checkSigs env k e ss keys kt isLocal = .ok (verifySigs env e ss keys) := by
    unfold Node.checkSigs
    rw [if_neg (by omega)]
    have hz : (if !isLocal && n.membered k.pre then n.contributed k.pre keys else .ok []) = .ok [] := by
      rcases ha with ha | ⟨ha, _⟩
      · simp [ha]
      · have : n.membered k.pre = false := by
          simp only [Node.membered, decide_eq_false_iff_not]; exact fun h => ha (.inr (.inl h))
        simp [this]
    rw [hz]
    have hfil : ss.filter (fun s => !decide (s.index ∈ ([] : List Nat))) = ss := by simp
    simp only [hfil]
    rw [if_neg hne]
  unfold Node.valSigsWigsDel
  simp only [hcs, hd]
  have hmis : (!isLocal && (n.owned k.pre || n.witnessed k wits || n.delegated none)) = false := by
    rcases ha with ha | ⟨ha1, ha2⟩
    · simp [ha]
    · have h1 : n.owned k.pre = false := by
        simp only [Node.owned, Bool.and_eq_false_iff, decide_eq_false_iff_not]; exact .inl fun h => ha1 (.inl h)
      have h2 : n.witnessed k wits = false := by
        unfold Node.witnessed
        rw [List.any_eq_false]
        intro w hw
        simp only [decide_eq_true_eq]
        intro hp
        split at hw
        · exact ha1 (.inr (.inr ⟨w, hw, hp⟩))
        · exact ha2 (.inr (.inr ⟨w, hw, hp⟩))
      simp [h1, h2, Node.delegated]
  rw [hmis]
  have hall : (!wits.all env.okKey) = false := by
    simp only [Bool.not_eq_false', List.all_eq_true]; exact hok
  rw [hall]
  have hsat' : (!Thold.satisfy kt ((verifySigs env e ss keys).map Sig.index)) = false := by rw [hsat]; rfl
  have hnext : ¬ ((e.ilk = .rot ∨ e.ilk = .drt) ∧ (!Thold.satisfy k.nt (exposeds env k.ndigs keys (verifySigs env e ss keys))) = true) := by
    rintro ⟨hi, hx⟩
    obtain ⟨xs, hx1, hx2, hx3⟩ := exposeds_eq env k.ndigs keys (verifySigs env e ss keys)
    have := hn hi _ xs hgood hx1 hx2
    rw [hx3, this] at hx
    exact absurd hx (by simp)
  simp only [hsat', Bool.false_eq_true, if_false]
  rw [if_neg hnext]
  unfold Node.checkWitDel
  simp only
  rw [if_neg (by rintro ⟨h1, h2⟩; exact h2 (ht.1 h1))]
  rw [if_neg (by
    rintro ⟨h1, _, h2⟩
    have := ht.2 h1
    simp at h2; omega)]
  rw [if_neg (by
    rintro ⟨h1, h2, h3⟩
    rcases hw with hw | hw
    · rw [hpart hw h1] at h2; exact absurd h2 (by simp)
    · have := hw _ (good_verifySigs env e ws wits)
      simp at h3; omega)]
  rw [if_neg (by rintro ⟨_, h2, _⟩; exact absurd h2 (by simp [Node.delegated]))]
  exact ⟨_, rfl⟩

/-- The event was logged, and is the tip of the new key state. -/
def Logged (n : Node) (o : Out) (e : Event) : Prop :=
  o.2 = .ok () ∧ o.1.db.fels e.pre = n.db.fels e.pre ++ [e.said] ∧ e.said ∈ o.1.db.kels e.pre e.sn ∧
  ∃ k, o.1.kevers e.pre = some k ∧ k.sn = e.sn ∧ k.serder = e

theorem logged_acc (n : Node) (k k1 : Kever) (e : Event) (v : Verified) (wits : List Id) (couple : Option Couple)
    (isLocal : Bool) (hs : k1.sn = e.sn) (hse : k1.serder = e) :
    Logged n ({ n with db := (n.logEvent k e v.sigs v.wigs wits true couple isLocal).pinState k1,
                       kevers := upd n.kevers e.pre (some k1) }, .ok ()) e := by
  have g := acc_log n k k1 e v wits couple isLocal
  refine ⟨rfl, ?_, ?_, k1, by simp [upd], hs, hse⟩
  · show ((n.logEvent k e v.sigs v.wigs wits true couple isLocal).pinState k1).fels e.pre = _
    rw [g.fels]; simp [upd]
  · show _ ∈ ((n.logEvent k e v.sigs v.wigs wits true couple isLocal).pinState k1).kels e.pre e.sn
    rw [g.kels]; simp [upd2, mem_ioAdd]

/-- **C51, inception.** -/
theorem c51_inception (env : Env) (n : Node) (e : Event) (ss ws : List Sig) (couple : Option Couple) (eager isLocal : Bool)
    (hp : env.okPre e.pre = true) (hnew : n.kevers e.pre = none) (hi : e.ilk = .icp) (hsn : e.sn = 0)
    (hk : ∀ x, x ∈ e.keys → env.okKey x = true) (hsz : Thold.size e.kt ≤ e.keys.length)
    (hnt : env.transferable e.pre = true ∨ (e.ndigs = [] ∧ e.wits = [] ∧ e.anchors = false))
    (hw : e.wits.Nodup) (hwk : ∀ w, w ∈ e.wits → env.okKey w = true) (ht : ToadFits e.toad e.wits)
    (hs : Enough env e.keys e.kt e ss) (hwit : Witnessed env n e.pre e.wits e.toad e ws)
    (ha : Admissible n e.pre isLocal e.wits e.wits) :
    Logged n (n.processEvent env e ss ws couple eager isLocal) e := by
  have hss : ss ≠ [] := by
    rintro rfl
    have := hs [] ⟨by simp, by simp⟩
    simp [satisfy_nil] at this
  have hinc : ∃ k, incept env e = .ok k ∧ k.pre = e.pre ∧ k.wits = e.wits ∧ k.sn = e.sn ∧ k.serder = e := by
    unfold incept
    rw [if_neg (by simpa using hsn), if_neg (by simpa using hk), if_neg (by omega),
      if_neg (by rcases hnt with h | ⟨h, _⟩ <;> simp [h]), if_neg (by rcases hnt with h | ⟨_, h, _⟩ <;> simp [h]),
      if_neg (by rw [oset_of_nodup _ hw]; simp), if_neg, if_neg (by rcases hnt with h | ⟨_, _, h⟩ <;> simp [h])]
    · exact ⟨_, rfl, rfl, rfl, rfl, rfl⟩
    · unfold toadOk
      split
      · rename_i h; simpa using ht.1 h
      · rename_i h; have := ht.2 h; simp; omega
  obtain ⟨k, hk1, hk2, hk3, hk4, hk5⟩ := hinc
  obtain ⟨v, hv⟩ := val_complete (env := env) (n := n) (k := k) (e := e) (ss := ss) (ws := ws) (couple := couple)
    (eager := eager) (isLocal := isLocal) (by simp [delegator, hi]) hsz hs
    (by rw [hi]; rintro (h | h) <;> exact absurd h (by simp)) hwk ht (by rw [hk2]; exact hwit) (by rw [hk2, hk3]; exact ha)
  unfold Node.processEvent
  rw [if_neg (by simp [hp]), hnew]
  simp only [hi, true_or, if_true]
  unfold Node.inception
  rw [if_neg hss]
  simp only [hk1, hv]
  exact logged_acc n k _ e v e.wits v.couple isLocal hk4 hk5

/-- **C51, interaction.** -/
theorem c51_interaction {env : Env} {U : Event → Prop} (hnc : NoColl U) {n : Node} (h : Reached env U n) (e : Event)
    (ss ws : List Sig) (couple : Option Couple) (eager isLocal : Bool) (k : Kever)
    (hp : env.okPre e.pre = true) (hk : n.kevers e.pre = some k) (hi : e.ilk = .ixn) (hsn : e.sn = k.sn + 1)
    (hpr : e.prior = k.serder.said) (htr : env.transferable e.pre = true) (hnd : k.ndigs ≠ []) (heo : k.estOnly = false)
    (hwk : ∀ w, w ∈ k.wits → env.okKey w = true)
    (hs : Enough env k.keys k.kt e ss) (hwit : Witnessed env n e.pre k.wits k.toad e ws)
    (ha : Admissible n e.pre isLocal k.wits k.wits) :
    Logged n (n.processEvent env e ss ws couple eager isLocal) e := by
  have hK := h.keys hnc _ _ hk
  obtain ⟨v, hv⟩ := val_complete (env := env) (n := n) (k := k) (e := e) (ss := ss) (ws := ws) (couple := none)
    (eager := eager) (isLocal := isLocal) (by simp [delegator, hi]) hK.size hs
    (by rw [hi]; rintro (h | h) <;> exact absurd h (by simp)) hwk (c22_nodup hnc h _ _ hk).2
    (by rw [hK.pre]; exact hwit) (by rw [hK.pre]; exact ha)
  unfold Node.processEvent
  rw [if_neg (by simp [hp]), hk]
  simp only
  rw [if_neg (by rw [hi]; simp), if_neg (by omega), if_pos (.inl hsn)]
  unfold Node.update
  rw [if_neg (by simp [Kever.transferable, hK.pre, htr, hnd]), if_neg (by rw [hK.pre]; simp)]
  simp only [hi]
  unfold Node.updateIxn
  rw [if_neg (by simp [heo]), if_neg (by simpa using hsn), if_neg (by simpa using hpr.symm)]
  simp only [hv]
  exact logged_acc n k _ e v [] none true rfl rfl

/-- Where a rotation may attach: on top of the log, or, as a recovery, on an event after the last establishment event while
the tip is an interaction. -/
def RotPlace (n : Node) (k : Kever) (e : Event) : Prop :=
  (e.sn = k.sn + 1 ∧ e.prior = k.serder.said) ∨
  (k.lastS < e.sn ∧ e.sn ≤ k.sn ∧ k.ilk = .ixn ∧ (n.db.kels e.pre (e.sn - 1)).getLast? = some e.prior)

/-- The witnesses after a rotation: changed by cuts, which have the order of the witnesses, and adds; a recovery ignores both. -/
def RotWits (k : Kever) (e : Event) (wits : List Id) : Prop :=
  (e.sn = k.sn + 1 ∧ wits = k.wits.filter (fun x => decide (x ∉ e.cuts)) ++ e.adds ∧ e.cuts.Nodup ∧ e.adds.Nodup ∧
    e.cuts.Sublist k.wits ∧ ∀ x, x ∈ k.wits → x ∉ e.adds) ∨
  (e.sn ≤ k.sn ∧ wits = k.wits)

theorem filter_not_mem_length {α} [DecidableEq α] (l cs : List α) (hl : l.Nodup) (hc : cs.Nodup) (h : ∀ x, x ∈ cs → x ∈ l) :
    (l.filter (fun x => !decide (x ∈ cs))).length + cs.length = l.length := by
  have h1 : (l.filter (fun x => decide (x ∈ cs))).length = cs.length := by
    apply List.Perm.length_eq
    rw [List.perm_ext_iff_of_nodup (hl.filter _) hc]
    intro a; rw [List.mem_filter]; simp; exact h a
  have h2 : ∀ l : List α, (l.filter (fun x => !decide (x ∈ cs))).length + (l.filter (fun x => decide (x ∈ cs))).length = l.length := by
    intro l
    induction l with
    | nil => rfl
    | cons a l ih =>
      by_cases ha : a ∈ cs
      · rw [List.filter_cons_of_neg (by simp [ha]), List.filter_cons_of_pos (by simp [ha])]; simp only [List.length_cons]; omega
      · rw [List.filter_cons_of_pos (by simp [ha]), List.filter_cons_of_neg (by simp [ha])]; simp only [List.length_cons]; omega
  have := h2 l
  omega

/-- **C51, rotation.** Missing, as false: rotations whose cuts are not in the order of the witnesses (`c51_cuts_in_order`). -/
theorem c51_rotation_partial {env : Env} {U : Event → Prop} (hnc : NoColl U) {n : Node} (h : Reached env U n) (e : Event)
    (ss ws : List Sig) (couple : Option Couple) (eager isLocal : Bool) (k : Kever) (wits : List Id)
    (hp : env.okPre e.pre = true) (hk : n.kevers e.pre = some k) (hi : e.ilk = .rot) (hpl : RotPlace n k e)
    (hdel : k.delpre = none) (htr : env.transferable e.pre = true) (hnd : k.ndigs ≠ [])
    (hkeys : ∀ x, x ∈ e.keys → env.okKey x = true) (hsz : Thold.size e.kt ≤ e.keys.length)
    (hwits : RotWits k e wits) (hwk : ∀ w, w ∈ wits → env.okKey w = true) (ht : ToadFits e.toad wits)
    (hs : Enough env e.keys e.kt e ss) (hn : EnoughNext env k.ndigs k.nt e.keys e ss)
    (hwit : Witnessed env n e.pre wits e.toad e ws) (ha : Admissible n e.pre isLocal k.wits wits) :
    Logged n (n.processEvent env e ss ws couple eager isLocal) e := by
  have hK := h.keys hnc _ _ hk
  obtain ⟨v, hv⟩ := val_complete (env := env) (n := n) (k := k) (e := e) (ss := ss) (ws := ws) (couple := couple)
    (eager := eager) (isLocal := isLocal) (by simp [delegator, hi]) hsz hs
    (fun _ => hn) hwk ht (by rw [hK.pre]; exact hwit) (by rw [hK.pre]; exact ha)
  have hseq : e.sn = k.sn + 1 ∨ (e.ilk = .rot ∧ k.lastS < e.sn ∧ e.sn ≤ k.sn + 1) ∨
      (e.ilk = .drt ∧ k.lastS ≤ e.sn ∧ e.sn ≤ k.sn + 1) := by
    rcases hpl with hpl | hpl
    · exact .inl hpl.1
    · exact .inr (.inl ⟨hi, hpl.1, by have := hpl.2.1; omega⟩)
  have hle : e.sn ≤ k.sn + 1 := by rcases hpl with hpl | hpl <;> omega
  have hprior : rotatePrior n.db k e = .ok () := by
    unfold rotatePrior
    rw [if_neg (by omega)]
    rcases hpl with hpl | hpl
    · rw [if_neg (by omega), if_neg (by simpa using hpl.2.symm)]
    · rw [if_pos hpl.2.1, if_neg (by rw [hi]; simp; omega), if_neg (by simp [hpl.2.2.1]), if_neg (by omega)]
      rw [hpl.2.2.2]
      have hm := ((h.inv hnc).mem _ _ _).1 (List.mem_of_getLast? hpl.2.2.2)
      obtain ⟨x, hx⟩ := (h.inv hnc).stored _ _ hm.1
      simp only [hx]
      rw [if_neg (by simpa using (h.evtU.ok _ _ _ hx).2)]
  have hback : ∃ cuts adds, deriveBacks k e = .ok (wits, cuts, adds) := by
    unfold deriveBacks
    rcases hwits with ⟨w1, w2, w3, w4, w5, w6⟩ | ⟨w1, w2⟩
    · rw [if_neg (by rw [hi]; simp; omega), if_neg (by rw [oset_of_nodup _ w3]; simp), if_neg (by simpa using (cutsOk_iff hK.wits w3).2 w5),
        if_neg (by rw [oset_of_nodup _ w4]; simp), if_neg, if_neg]
      · have hnd' : (k.wits.filter (fun w => !decide (w ∈ e.cuts)) ++ e.adds).Nodup := by
          rw [List.nodup_append]
          refine ⟨hK.wits.filter _, w4, ?_⟩
          intro x hx y hy hxy
          subst hxy
          exact w6 x (List.mem_filter.1 hx).1 hy
        simp only [oset_of_nodup _ hK.wits]
        rw [ioPut_append _ _ hnd', if_neg]
        · refine ⟨e.cuts, e.adds, ?_⟩
          rw [w2]; simp
        · have := filter_not_mem_length k.wits e.cuts hK.wits w3 (fun x hx => w5.subset hx)
          rw [List.length_append]
          omega
      · simpa using w6
      · simp only [List.any_eq_true, decide_eq_true_eq, not_exists, not_and]
        exact fun x hx => w6 x (w5.subset hx)
    · rw [if_pos (.inr (by omega)), w2]; exact ⟨_, _, rfl⟩
  obtain ⟨cuts, adds, hback⟩ := hback
  have hrot : rotate env n.db k e = .ok (wits, cuts, adds) := by
    unfold rotate
    simp only [hprior]
    rw [if_neg hnd, if_neg (by omega)]
    simp only [hback]
    rw [if_neg, if_neg (by simpa using hkeys)]
    unfold toadOk
    split
    · rename_i h; simpa using ht.1 h
    · rename_i h; have := ht.2 h; simp; omega
  unfold Node.processEvent
  rw [if_neg (by simp [hp]), hk]
  simp only
  rw [if_neg (by rw [hi]; simp), if_neg (by omega), if_pos hseq]
  unfold Node.update
  rw [if_neg (by simp [Kever.transferable, hK.pre, htr, hnd]), if_neg (by rw [hK.pre]; simp)]
  simp only [hi]
  unfold Node.updateRot
  rw [if_neg (by simp [hdel])]
  simp only [hrot, hv]
  exact logged_acc n k _ e v wits v.couple isLocal rfl rfl

/-- **C24, direct updates.** Applying an event to a key state directly (`Kever.update`, for any state of the database): a rotation
that does not extend the log is refused unless it comes after the last establishment event and the tip is an interaction; an
event two or more beyond the tip is refused. -/
theorem c24_update (env : Env) (n : Node) (k : Kever) (e : Event) (ss ws : List Sig) (c : Option Couple) (eager isLocal : Bool)
    (h : (n.update env k e ss ws c eager isLocal).2 = .ok ()) :
    e.pre = k.pre ∧ e.sn ≤ k.sn + 1 ∧ (e.ilk = .rot → e.sn ≤ k.sn → k.lastS < e.sn ∧ k.ilk = .ixn) ∧
    (e.ilk = .drt → e.sn ≤ k.sn → k.lastS ≤ e.sn) ∧ (e.ilk ≠ .rot → e.ilk ≠ .drt → e.ilk = .ixn ∧ e.sn = k.sn + 1) := by
  have hrot : (n.updateRot env k e ss ws c eager isLocal).2 = .ok () → ∃ x, rotate env n.db k e = .ok x := by
    intro h
    unfold Node.updateRot at h
    split at h
    · exact absurd h (by simp)
    · split at h
      · exact absurd h (by simp)
      · rename_i hx; exact ⟨_, hx⟩
  have hpr : (∃ x, rotate env n.db k e = .ok x) → rotatePrior n.db k e = .ok () := by
    rintro ⟨⟨w, c, a⟩, hx⟩; exact (rotate_ok hx).1
  unfold Node.update at h
  split at h
  · exact absurd h (by simp)
  · split at h
    · exact absurd h (by simp)
    · rename_i hpre
      refine ⟨by simpa using hpre, ?_⟩
      have hrp : rotatePrior n.db k e = .ok () → e.sn ≤ k.sn + 1 ∧ (e.ilk = .rot → e.sn ≤ k.sn → k.lastS < e.sn ∧ k.ilk = .ixn) ∧
          (e.ilk = .drt → e.sn ≤ k.sn → k.lastS ≤ e.sn) := by
        intro hp
        unfold rotatePrior at hp
        split at hp
        · exact absurd hp (by simp)
        · rename_i h1
          split at hp
          · split at hp
            · exact absurd hp (by simp)
            · rename_i h2
              split at hp
              · exact absurd hp (by simp)
              · rename_i h3
                refine ⟨by omega, ?_, ?_⟩
                · intro hi _
                  refine ⟨Decidable.byContradiction fun hc => h2 (.inl ⟨hi, by omega⟩), ?_⟩
                  exact Decidable.byContradiction fun hc => h3 ⟨hi, hc⟩
                · intro hi _
                  exact Decidable.byContradiction fun hc => h2 (.inr ⟨hi, by omega⟩)
          · rename_i h2
            exact ⟨by omega, fun _ h => absurd h h2, fun _ h => absurd h h2⟩
      split at h
      · rename_i hi
        obtain ⟨a, b, c⟩ := hrp (hpr (hrot h))
        exact ⟨a, b, c, fun hn => absurd hi hn⟩
      · rename_i hi
        obtain ⟨a, b, c⟩ := hrp (hpr (hrot h))
        exact ⟨a, b, c, fun _ hn => absurd hi hn⟩
      · rename_i hi
        unfold Node.updateIxn at h
        split at h
        · exact absurd h (by simp)
        · split at h
          · exact absurd h (by simp)
          · rename_i hs
            have hs : e.sn = k.sn + 1 := by simpa using hs
            exact ⟨by omega, fun hr => absurd (hi.symm.trans hr) (by simp), fun hr => absurd (hi.symm.trans hr) (by simp),
              fun _ _ => ⟨hi, hs⟩⟩
      · exact absurd h (by simp)

namespace Demo

theorem enough_one {keys : List Id} {e : Event} {ss : List Sig} (s : Sig) (hs : s ∈ ss) (hv : SignedBy env keys e s) :
    Enough env keys (.num 1) e ss := by
  intro vs hg
  have : s ∈ vs := (hg.iff s).2 ⟨hs, hv⟩
  have := List.length_pos_of_mem this
  simp [Thold.satisfy, Verif.Thold.satisfyNum]; omega

theorem enough_next {keys : List Id} {ndigs : List Dig} {e : Event} {ss : List Sig} (s : Sig) (o : Nat) (hs : s ∈ ss)
    (hv : SignedBy env keys e s) (ho : ExposedBy env ndigs keys s o) : EnoughNext env ndigs (.num 1) keys e ss := by
  intro vs xs hg _ hx
  have h1 : s ∈ vs := (hg.iff s).2 ⟨hs, hv⟩
  have := List.length_pos_of_mem ((hx s h1).2 ⟨o, ho⟩)
  simp [Thold.satisfy, Verif.Thold.satisfyNum]; omega

/-- The hypotheses of the three parts of C51 are met: an inception at the empty node, then an interaction, then a recovery
rotation at the position of the interaction. -/
example : Logged node (node.processEvent env icp [sig icp 101 0] [] none false false) icp :=
  c51_inception env node icp [sig icp 101 0] [] none false false rfl rfl rfl rfl (by decide) (by decide) (.inl rfl) (by decide)
    (by decide) ⟨fun _ => rfl, fun h => absurd rfl h⟩ (enough_one (sig icp 101 0) (by simp) ⟨101, rfl, by decide⟩)
    (.inr fun _ _ => Nat.zero_le _) (.inr ⟨by simp [HostPart, node, Node.start, icp], by simp [HostPart, node, Node.start, icp]⟩)

/-- After the inception and one interaction. -/
def n1 : Node := node.run env [recv icp 101, recv ixn1 101]

theorem n1_reached : Reached env U n1 := by
  refine ⟨[], [], fun _ => none, [recv icp 101, recv ixn1 101], ?_, rfl⟩
  intro i hi e he
  simp only [recv, List.mem_cons, List.not_mem_nil, or_false] at hi
  rcases hi with rfl | rfl <;> simp [Inp.delivers] at he <;> subst he <;> simp [U]

theorem n1_state : ∃ k, n1.kevers 1 = some k ∧ k.sn = 1 ∧ k.serder = ixn1 ∧ k.keys = [101] ∧ k.kt = .num 1 ∧ k.ndigs = [602] ∧
    k.nt = .num 1 ∧ k.wits = [] ∧ k.toad = 0 ∧ k.estOnly = false ∧ k.delpre = none ∧ k.lastS = 0 ∧ k.ilk = .ixn ∧
    (n1.db.kels 1 0).getLast? = some 10 := by
  have h : (n1.kevers 1).map (fun k => (k.sn, k.serder, k.keys)) = some (1, ixn1, [101]) ∧
      (n1.kevers 1).map (fun k => (k.kt, k.ndigs, k.nt)) = some (.num 1, [602], .num 1) ∧
      (n1.kevers 1).map (fun k => (k.wits, k.toad, k.estOnly)) = some ([], 0, false) ∧
      (n1.kevers 1).map (fun k => (k.delpre, k.lastS, k.ilk)) = some (none, 0, .ixn) ∧
      (n1.db.kels 1 0).getLast? = some 10 := by
    refine ⟨?_, ?_, ?_, ?_, ?_⟩ <;> decide +kernel
  obtain ⟨h, i, j, g, h'⟩ := h
  obtain ⟨k, hk, h⟩ := Option.map_eq_some_iff.1 h
  rw [hk] at g i j
  simp only [Option.map_some, Option.some.injEq, Prod.mk.injEq] at h g i j
  obtain ⟨h1, h2, h3⟩ := h
  obtain ⟨h4, h5, h6⟩ := i
  obtain ⟨h7, h8, h9⟩ := j
  obtain ⟨h10, h11, h12⟩ := g
  exact ⟨k, hk, h1, h2, h3, h4, h5, h6, h7, h8, h9, h10, h11, h12, h'⟩

example : Logged n1 (n1.processEvent env ixn2 [sig ixn2 101 0] [] none false true) ixn2 := by
  obtain ⟨k, hk, h1, h2, h3, h4, h5, h6, h7, h8, h9, h10, h11, h12, h13⟩ := n1_state
  exact c51_interaction noColl n1_reached ixn2 _ [] none false true k rfl hk rfl (by rw [h1]; rfl) (by rw [h2]; rfl) rfl
    (by rw [h5]; simp) h9 (by rw [h7]; simp) (by rw [h3, h4]; exact enough_one (sig ixn2 101 0) (by simp) ⟨101, rfl, by decide⟩)
    (.inr fun _ _ => by rw [h8]; exact Nat.zero_le _) (.inl rfl)

example : Logged n1 (n1.processEvent env rot1 [sig rot1 102 0] [] none false true) rot1 := by
  obtain ⟨k, hk, h1, h2, h3, h4, h5, h6, h7, h8, h9, h10, h11, h12, h13⟩ := n1_state
  have hs : SignedBy env rot1.keys rot1 (sig rot1 102 0) := ⟨102, rfl, by decide⟩
  exact c51_rotation_partial noColl n1_reached rot1 [sig rot1 102 0] [] none false true k [] rfl hk rfl
    (.inr ⟨by rw [h11]; decide, by rw [h1]; decide, h12, h13⟩) h10 rfl (by rw [h5]; simp) (by decide) (by decide)
    (.inr ⟨by rw [h1]; decide, h7.symm⟩) (by simp) ⟨fun _ => rfl, fun h => absurd rfl h⟩
    (enough_one _ (by simp) hs) (by rw [h5, h6]; exact enough_next _ 0 (by simp) hs ⟨rfl, 102, 602, rfl, rfl, by decide⟩)
    (.inr fun _ _ => Nat.zero_le _) (.inl rfl)

/-- The hypothesis of `c24_update` is met by the recovery rotation. -/
example : ∃ k, n1.kevers 1 = some k ∧ (n1.update env k rot1 [sig rot1 102 0] [] none false true).2 = .ok () := by
  have h : (match n1.kevers 1 with
    | none => false
    | some k => match (n1.update env k rot1 [sig rot1 102 0] [] none false true).2 with
      | .ok () => true
      | .error _ => false) = true := by decide +kernel
  obtain ⟨k, hk, _⟩ := n1_state
  rw [hk] at h
  refine ⟨k, hk, ?_⟩
  simp only at h
  split at h
  · rename_i h'; exact h'
  · exact absurd h (by simp)

end Demo

end Verif.Kel
