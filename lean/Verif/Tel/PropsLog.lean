import Verif.Tel.Inv

/-! # Transaction event logs: sealing, permanence, numbering (C55–C58) -/

namespace Verif.Tel

open Verif.Kel (Id Dig Sig Couple Event Node Inp upd upd2 ioPut oset escAdd Accepted NoColl EvtU)

variable {env : TEnv} {U : Event → Prop} {V : TEvt → Prop}

/-! ## C55: what is in a log is sealed by the registry's issuer -/

/-- **C55.** Every entry of a log is a stored event with that number, of that identifier, delivered at some time; the registry it names
has a stored inception event, sealed by the issuer that event names, and the same issuer sealed the entry in its key event log. -/
theorem c55_entries_sealed (hnc : NoColl U) (hnt : NoCollT V) {t : TNode} (h : TReached env U V t) {p : Id} {on : Nat} {d : Dig}
    (hd : (on, d) ∈ t.reg.tels p) :
    ∃ e k v, InLog t.reg p on e ∧ e.said = d ∧ e.pre = p ∧ e.sn = on ∧ V e ∧ e.regk = some k ∧ Registered env t.node t.reg k v ∧
      Sealed env t.node v.issuer e := by
  have hi := h.inv hnc hnt
  obtain ⟨e, k, v, h1, h2, h3, h4, h5, _⟩ := hi.ent p on d hd
  obtain ⟨g1, g2, g3⟩ := hi.tvt p d e h1
  exact ⟨e, k, v, ⟨by rw [g2]; exact hd, by rw [g2]; exact h1⟩, g2, g1, h2, g3, h3, h4, h5⟩

/-- **C55, one issuer.** A registry has one inception event, hence one issuer, when its identifier is the digest of that event. -/
theorem c55_one_issuer (hnc : NoColl U) (hnt : NoCollT V) (hsa : SelfAddressing V) {t : TNode} (h : TReached env U V t) {k : Id} {v w : TEvt}
    (hv : Registered env t.node t.reg k v) (hw : Registered env t.node t.reg k w) : v = w := by
  have hi := h.inv hnc hnt
  have h1 := (hi.tvt _ _ _ hv.stored).2.2
  have h2 := (hi.tvt _ _ _ hw.stored).2.2
  exact hnt v w h1 h2 (by rw [← hsa v h1 hv.ilk, ← hsa w h2 hw.ilk, hv.pre, hw.pre])

/-- **C55, unsealed events.** An event not sealed by the issuer of the registry it names is in no log. -/
theorem c55_unsealed_refused (hnc : NoColl U) (hnt : NoCollT V) (hsa : SelfAddressing V) {t : TNode} (h : TReached env U V t) {e v : TEvt} {k : Id}
    (he : V e) (hk : e.regk = some k) (hv : Registered env t.node t.reg k v) (hs : ¬ Sealed env t.node v.issuer e) (p : Id) (on : Nat) :
    (on, e.said) ∉ t.reg.tels p := by
  intro hd
  obtain ⟨e', k', v', h1, h2, h3, h4, h5, h6, h7, h8⟩ := c55_entries_sealed hnc hnt h hd
  have := hnt e' e h5 he h2
  subst this
  rw [hk] at h6; injection h6 with h6; subst h6
  rw [c55_one_issuer hnc hnt hsa h h7 hv] at h8
  exact hs h8

/-- **C55, registries.** A registry known in memory or read from the database belongs to the issuer its sealed inception event names, has
the backer trait of that event, and its last event is stored and sealed by that issuer. -/
theorem c55_registries (hnc : NoColl U) (hnt : NoCollT V) {t : TNode} (h : TReached env U V t) {k : Id} {tv : Tever}
    (hf : (t.reg.fetch k).2 = some tv) :
    ∃ v, Registered env t.node t.reg k v ∧ tv.regk = k ∧ tv.pre = v.issuer ∧ tv.noBackers = v.noBackers ∧
      t.reg.tvts k tv.serder.said = some tv.serder ∧ tv.serder.sn = tv.sn ∧ Sealed env t.node v.issuer tv.serder := by
  have hi := h.inv hnc hnt
  have h2 := (hi.fetch k).tev k tv (fetch_some hf)
  obtain ⟨v, g1, g2, g3, _⟩ := h2.inc
  have hr := fetch_rest t.reg k
  have hT : (t.reg.fetch k).1.tvts = t.reg.tvts := by rw [hr]
  exact ⟨v, ⟨g1.ilk, g1.pre, by rw [← hT]; exact g1.stored, g1.sealed⟩, h2.regk, g2, g3, by rw [← hT]; exact h2.stored, h2.sn, by rw [← g2]; exact h2.sealed⟩

/-! ## C56: nothing is taken back -/

/-- What a step keeps: logs are only extended, stored events and source seals stay. -/
structure Kept (r r' : Reger) : Prop where
  tels : ∀ p, r.tels p <+: r'.tels p
  tvts : ∀ p d x, r.tvts p d = some x → r'.tvts p d = some x
  ancs : ∀ p d x, r.ancs p d = some x → r'.ancs p d = some x

theorem Kept.rfl' {r : Reger} : Kept r r := ⟨fun _ => List.prefix_refl _, fun _ _ _ h => h, fun _ _ _ h => h⟩

theorem Kept.trans {a b c : Reger} (h : Kept a b) (g : Kept b c) : Kept a c :=
  ⟨fun p => (h.tels p).trans (g.tels p), fun _ _ _ hx => g.tvts _ _ _ (h.tvts _ _ _ hx), fun _ _ _ hx => g.ancs _ _ _ (h.ancs _ _ _ hx)⟩

theorem Kept.of_eq {r r' : Reger} (h1 : r'.tels = r.tels) (h2 : r'.tvts = r.tvts) (h3 : r'.ancs = r.ancs) : Kept r r' :=
  ⟨by rw [h1]; exact fun _ => List.prefix_refl _, by rw [h2]; exact fun _ _ _ h => h, by rw [h3]; exact fun _ _ _ h => h⟩

theorem kept_fetch (r : Reger) (k : Id) : Kept r (r.fetch k).1 := by
  rw [fetch_rest]; exact .of_eq rfl rfl rfl

theorem kept_logged {n : Node} {r r' : Reger} {e : TEvt} (hi : TInv env U V n r) (hsn : e.sn ≤ (r.tels e.pre).length) (g : Logged e r r') : Kept r r' := by
  refine ⟨?_, g.tmono, g.amono⟩
  intro p
  rw [g.tels]
  simp only [upd]
  split
  · rename_i hp; subst hp
    rcases telPut_cases (d := e.said) (hi.ord e.pre) hsn with ⟨h1, _⟩ | ⟨h1, _⟩ <;> rw [h1]
    · exact List.prefix_refl _
    · exact List.prefix_append _ _
  · exact List.prefix_refl _

/-- The number of an accepted event is at most the length of its log. -/
theorem Acc.sn_le {n : Node} {r0 : Reger} {isLocal : Bool} {e : TEvt} {c : Option Couple} {bigers : List Sig} {k : Id} {r' : Reger}
    (hi : TInv env U V n r0) (hk : e.regk = some k) (hn : e.ilk.inceptive = true ↔ e.sn = 0)
    (h : Acc env n (r0.fetch k).1 isLocal e c bigers (r0.fetch k).2 r') :
    e.sn ≤ ((r0.fetch k).1.tels e.pre).length ∧ Logged e (r0.fetch k).1 r' := by
  generalize ho : (r0.fetch k).2 = o at h
  cases h with
  | vcp c' bs _ hil hd ht hc hl hm hs =>
    have : e.sn = 0 := hn.1 (by simp [hil, TIlk.inceptive])
    exact ⟨by omega, hl⟩
  | vrt t baks c' bs _ hil hnb hrot hc hl hm hs =>
    have htok := (hi.fetch k).tev k t (fetch_some ho)
    have hke : k = e.pre := by simp [TEvt.regk, hil] at hk; exact hk.symm
    subst hke
    have hsn : e.sn = t.sn + 1 := by
      unfold Tever.rotate at hrot
      split at hrot
      · simp at hrot
      · split at hrot
        · simp at hrot
        · rename_i h2; simpa using h2
    have := htok.len
    exact ⟨by omega, hl⟩
  | simple t c' _ hil hnb hcc hc hsn hp hl hm hs => exact ⟨Nat.le_of_eq hsn, hl⟩
  | backed t toad baks c' bs _ hil hnb hb hc hsn hp hl hm hs => exact ⟨Nat.le_of_eq hsn, hl⟩

theorem kept_process {n : Node} {r : Reger} (hi : TInv env U V n r) (lax isLocal : Bool) (e : TEvt) (c : Option Couple) (bs : List Sig) :
    Kept r (r.processEvent env n lax isLocal e c bs).1 := by
  rcases processEvent_cases env n r lax isLocal e c bs with ⟨h1, _⟩ | ⟨k, ha, h1⟩
  · rw [h1]; exact .rfl'
  · rcases h1 with ⟨_, h1⟩ | ⟨_, h1⟩
    · exact (kept_fetch r k).trans ⟨by rw [h1.tels]; exact fun _ => List.prefix_refl _, h1.tmono, h1.amono⟩
    · obtain ⟨h2, h3⟩ := h1.sn_le hi ha.regk ha.num
      exact (kept_fetch r k).trans (kept_logged (hi.fetch k) h2 h3)

theorem kept_stepO {n : Node} {r : Reger} (hi : TInv env U V n r) (lax isLocal : Bool) (x : Id × Nat × Dig) : Kept r (r.stepO env n lax isLocal x) := by
  unfold Reger.stepO
  dsimp only
  split
  · rename_i e c he hc
    have := kept_process hi lax isLocal e (some c) (r.tibs x.1 x.2.2)
    split
    · rename_i r' hr; rw [hr] at this; exact this
    · rename_i r' o _ hr; rw [hr] at this; exact this.trans (.of_eq rfl rfl rfl)
  · exact .of_eq rfl rfl rfl

theorem kept_stepA {n : Node} {r : Reger} (hi : TInv env U V n r) (lax isLocal : Bool) (x : Id × Nat × Dig) : Kept r (r.stepA env n lax isLocal x) := by
  unfold Reger.stepA
  dsimp only
  split
  · exact .of_eq rfl rfl rfl
  · exact .rfl'
  · rename_i e c he hc
    have := kept_process hi lax isLocal e (some c) (r.tibs x.1 x.2.2)
    split
    · rename_i r' hr; rw [hr] at this; exact this
    · rename_i r' o _ hr; rw [hr] at this; exact this.trans (.of_eq rfl rfl rfl)

theorem kept_step (hnt : NoCollT V) {t : TNode} (h : TInv env U V t.node t.reg)
    (i : TInp) (hv : ∀ e, i.tevent = some e → V e) : Kept t.reg (t.step env i).reg := by
  cases i with
  | kel i => exact .rfl'
  | tel lax l e c bs => exact kept_process h lax l e c bs
  | passO lax l =>
    exact (pass_induction (P := fun r => TInv env U V t.node r ∧ Kept t.reg r)
      (fun r x hr => ⟨hr.1.stepO hnt lax l x, hr.2.trans (kept_stepO hr.1 lax l x)⟩) _ _ ⟨h, .rfl'⟩).2
  | passA lax l =>
    exact (pass_induction (P := fun r => TInv env U V t.node r ∧ Kept t.reg r)
      (fun r x hr => ⟨hr.1.stepA hnt lax l x, hr.2.trans (kept_stepA hr.1 lax l x)⟩) _ _ ⟨h, .rfl'⟩).2
  | own l => exact .of_eq rfl rfl rfl
  | restart => exact .of_eq rfl rfl rfl

theorem kept_run (hnc : NoColl U) (hnt : NoCollT V) : ∀ (h : List TInp) (t : TNode), TInv env U V t.node t.reg → TDelivers U V h →
    Kept t.reg (t.run env h).reg := by
  intro h
  induction h with
  | nil => intro t _ _; exact .rfl'
  | cons i h ih =>
    intro t ht hd
    exact (kept_step hnt ht i (hd.2 i (by simp))).trans
      (ih _ (ht.step hnc hnt i (hd.1 i (by simp)) (hd.2 i (by simp))) ⟨fun j hj => hd.1 j (by simp [hj]), fun j hj => hd.2 j (by simp [hj])⟩)

/-- **C56, logs.** Whatever is delivered later, through passes and restarts too, logs are only extended at their end and the stored
events and source seals of their entries stay as they are. -/
theorem c56_append_only (hnc : NoColl U) (hnt : NoCollT V) {t : TNode} (h : TReached env U V t) (more : List TInp) (hd : TDelivers U V more) :
    (∀ p, t.reg.tels p <+: (t.run env more).reg.tels p) ∧
    (∀ p d x, t.reg.tvts p d = some x → (t.run env more).reg.tvts p d = some x) ∧
    (∀ p d x, t.reg.ancs p d = some x → (t.run env more).reg.ancs p d = some x) :=
  have hk := kept_run hnc hnt more t (h.inv hnc hnt) hd
  ⟨hk.tels, hk.tvts, hk.ancs⟩

theorem TReached.run {t : TNode} (h : TReached env U V t) (more : List TInp) (hd : TDelivers U V more) : TReached env U V (t.run env more) := by
  obtain ⟨p, g, m, h, h1, rfl⟩ := h
  refine ⟨p, g, m, h ++ more, ⟨?_, ?_⟩, by simp [TNode.run, List.foldl_append]⟩
  · intro i hi
    rcases List.mem_append.1 hi with hi | hi
    · exact h1.1 i hi
    · exact hd.1 i hi
  · intro i hi
    rcases List.mem_append.1 hi with hi | hi
    · exact h1.2 i hi
    · exact hd.2 i hi

/-- Entries are numbered by their position. -/
theorem TInv.at {n : Node} {r : Reger} (h : TInv env U V n r) {p : Id} {i on : Nat} {d : Dig} (hi : (r.tels p)[i]? = some (on, d)) : on = i := by
  have := from_get (r.tels p) 0 i (h.ord p)
  rw [hi] at this
  split at this
  · simpa using this
  · simp at this

theorem TInv.pos {n : Node} {r : Reger} (h : TInv env U V n r) {p : Id} {on : Nat} {d : Dig} (hi : (on, d) ∈ r.tels p) : (r.tels p)[on]? = some (on, d) := by
  obtain ⟨i, hl, hi⟩ := List.mem_iff_getElem.1 hi
  have h2 : (r.tels p)[i]? = some (on, d) := by rw [List.getElem?_eq_getElem hl, hi]
  have := h.at h2
  rw [this]; rw [this] at h2; exact h2

/-- With a revocation in its log, a credential is reported as revoked or not at all. -/
theorem revoked_status {n : Node} {r : Reger} (hi : TInv env U V n r) {p : Id} {on : Nat} {e : TEvt} (he : InLog r p on e)
    (hr : e.ilk.revoked = true) (tv : Tever) :
    r.vcState tv p ≠ .ok none ∧ ∀ s, r.vcState tv p = .ok (some s) → s.ilk.revoked = true ∧ 1 ≤ s.sn := by
  have hon : 1 ≤ on := by
    obtain ⟨e', k, v, h1, h2, _, _, _, _, h7, _⟩ := hi.ent p on e.said he.entry
    rw [he.stored] at h1; injection h1 with h1; subst h1
    rcases Nat.eq_zero_or_pos on with h0 | h0
    · have := h7.2 h0
      revert this hr
      cases e.ilk <;> simp [TIlk.revoked, TIlk.inceptive]
    · exact h0
  have hlen : 2 ≤ (r.tels p).length := by
    have := (from_mem _ 0 _ (hi.ord p) he.entry).2
    simp at this; omega
  constructor
  · unfold Reger.vcState
    split
    · rename_i hn
      rw [List.getLast?_eq_none_iff] at hn
      rw [hn] at hlen; simp at hlen
    · split
      · simp
      · split
        · simp
        · split <;> simp
  · intro s hs
    unfold Reger.vcState at hs
    split at hs
    · simp at hs
    · split at hs
      · simp at hs
      · split at hs
        · simp at hs
        · split at hs
          · simp at hs
          · simp only [Except.ok.injEq, Option.some.injEq] at hs
            subst hs
            have h1 : decide ((r.tels p).length = 1) = false := by simp; omega
            simp only [h1, TIlk.revoked]
            refine ⟨?_, by omega⟩
            cases tv.noBackers <;> simp

/-- **C56.** Once a revocation is in the log of a credential, every registry reports the credential as revoked or fails to report, now
and after any further history; in particular it is never reported as issued or unknown. -/
theorem c56_revoked_forever (hnc : NoColl U) (hnt : NoCollT V) {t : TNode} (h : TReached env U V t) {p : Id} {on : Nat} {e : TEvt}
    (he : InLog t.reg p on e) (hr : e.ilk.revoked = true) (more : List TInp) (hd : TDelivers U V more) (tv : Tever) :
    InLog (t.run env more).reg p on e ∧ (t.run env more).reg.vcState tv p ≠ .ok none ∧
    ∀ s, (t.run env more).reg.vcState tv p = .ok (some s) → s.ilk.revoked = true ∧ 1 ≤ s.sn := by
  obtain ⟨k1, k2, k3⟩ := c56_append_only hnc hnt h more hd
  have he' : InLog (t.run env more).reg p on e := ⟨(k1 p).subset he.entry, k2 _ _ _ he.stored⟩
  exact ⟨he', revoked_status ((h.run more hd).inv hnc hnt) he' hr tv⟩

/-- **C56, reports.** The status a registry reports for an identifier that is no registry comes from the last entry of its log: number,
digest and source seal are those of that event, and the reported type is a revocation exactly when that event is one. -/
theorem c56_reported (hnc : NoColl U) (hnt : NoCollT V) {t : TNode} (h : TReached env U V t) {p : Id} {tv : Tever} {s : VcSt}
    (hv : ∀ e, V e → e.pre = p → e.ilk ≠ .vcp ∧ e.ilk ≠ .vrt) (hs : t.reg.vcState tv p = .ok (some s)) :
    ∃ e, InLog t.reg p s.sn e ∧ s.said = e.said ∧ s.regk = tv.regk ∧ (t.reg.tels p).getLast? = some (s.sn, e.said) ∧
      t.reg.ancs p e.said = some s.anchor ∧ (s.ilk.revoked = true ↔ e.ilk.revoked = true) := by
  have hi := h.inv hnc hnt
  unfold Reger.vcState at hs
  split at hs
  · simp at hs
  · rename_i on d hl
    split at hs
    · simp at hs
    · rename_i e he
      split at hs
      · simp at hs
      · split at hs
        · simp at hs
        · rename_i c hc
          simp only [Except.ok.injEq, Option.some.injEq] at hs
          have hmem := List.mem_of_getLast? hl
          have hon : on = (t.reg.tels p).length - 1 := by
            rw [List.getLast?_eq_getElem?] at hl
            exact hi.at hl
          obtain ⟨g1, g2, g3⟩ := hi.tvt _ _ _ he
          obtain ⟨e', k, v, h1, h2, h3, _, _, _, h7, _⟩ := hi.ent p on d hmem
          rw [he] at h1; injection h1 with h1; subst h1
          subst hs
          have hkind := hv e g3 g1
          refine ⟨e, ⟨by rw [g2, ← hon]; exact hmem, by rw [g2]; exact he⟩, g2.symm, rfl, by rw [g2, ← hon]; exact hl, by rw [g2]; exact hc, ?_⟩
          have hlen : 0 < (t.reg.tels p).length := List.length_pos_of_mem hmem
          have hz : on = 0 ↔ e.ilk = .iss ∨ e.ilk = .bis := by
            rw [← h7]
            revert hkind
            cases e.ilk <;> simp [TIlk.inceptive]
          have hnr : e.ilk ≠ .other := by
            intro ho; rw [TEvt.regk, ho] at h3; simp at h3
          have hrev : e.ilk.revoked = true ↔ ¬ on = 0 := by
            rw [hz]; revert hkind hnr
            cases e.ilk <;> simp [TIlk.revoked]
          rw [hrev]
          by_cases h1 : (t.reg.tels p).length = 1
          · have : on = 0 := by omega
            simp only [h1, this]
            cases tv.noBackers <;> simp [TIlk.revoked]
          · have : on ≠ 0 := by omega
            simp only [h1, this]
            cases tv.noBackers <;> simp [TIlk.revoked]

/-! ## C58: numbering and links -/

/-- **C58.** A log has no gaps: entry `i` has number `i`, so every number has at most one entry, and the stored event carries that number;
exactly the first entry is an inception or issuance; a revocation names the digest of the entry before it. -/
theorem c58_gapless (hnc : NoColl U) (hnt : NoCollT V) {t : TNode} (h : TReached env U V t) {p : Id} {i on : Nat} {d : Dig}
    (hd : (t.reg.tels p)[i]? = some (on, d)) :
    on = i ∧ ∃ e, t.reg.tvts p d = some e ∧ e.pre = p ∧ e.said = d ∧ e.sn = i ∧
      (i = 0 ↔ e.ilk = .vcp ∨ e.ilk = .iss ∨ e.ilk = .bis) ∧
      (e.ilk = .rev ∨ e.ilk = .brv → (t.reg.tels p)[i - 1]? = some (i - 1, e.prior) ∧ 1 ≤ i) := by
  have hi := h.inv hnc hnt
  have hon := hi.at hd
  subst hon
  obtain ⟨e, k, v, h1, h2, h3, _, _, _, h7, _, _, h10⟩ := hi.ent p on d (List.mem_of_getElem? hd)
  obtain ⟨g1, g2, g3⟩ := hi.tvt _ _ _ h1
  refine ⟨rfl, e, h1, g1, g2, h2, ?_, ?_⟩
  · rw [← h7]; cases e.ilk <;> simp [TIlk.inceptive]
  · intro hr
    refine ⟨hi.pos (h10 (by rcases hr with hr | hr <;> simp [hr, TIlk.revoked])), ?_⟩
    rcases Nat.eq_zero_or_pos on with h0 | h0
    · have := h7.2 h0
      rcases hr with hr | hr <;> rw [hr] at this <;> simp [TIlk.inceptive] at this
    · exact h0

/-- **C58, kinds.** Simple credential events are only in logs for registries without backers, the others only for registries with. -/
theorem c58_kinds (hnc : NoColl U) (hnt : NoCollT V) {t : TNode} (h : TReached env U V t) {p : Id} {on : Nat} {e : TEvt}
    (he : InLog t.reg p on e) : ∃ k v, e.regk = some k ∧ Registered env t.node t.reg k v ∧
      (e.ilk = .iss ∨ e.ilk = .rev → v.noBackers = true) ∧ (e.ilk = .bis ∨ e.ilk = .brv ∨ e.ilk = .vrt → v.noBackers = false) := by
  have hi := h.inv hnc hnt
  obtain ⟨e', k, v, h1, h2, h3, h4, _, _, h7, h8, h9, h10⟩ := hi.ent p on e.said he.entry
  rw [he.stored] at h1; injection h1 with h1; subst h1
  exact ⟨k, v, h3, h4, h8, h9⟩

/-! ## C57: who can write the log of a credential -/

/-- **C57, partly.** If every event delivered for credential `p` names registry `k`, all entries of its log are sealed by one and the same
identifier, the issuer named by the inception event of `k`. Missing: events of other registries for the same credential are entered too,
see `c57_foreign_revocation`. -/
theorem c57_one_issuer_partial (hnc : NoColl U) (hnt : NoCollT V) (hsa : SelfAddressing V) {t : TNode} (h : TReached env U V t) {p k : Id}
    (hone : ∀ e, V e → e.pre = p → e.regk = some k) (hne : t.reg.tels p ≠ []) :
    ∃ v, Registered env t.node t.reg k v ∧ ∀ on d, (on, d) ∈ t.reg.tels p → ∃ e, InLog t.reg p on e ∧ e.said = d ∧ Sealed env t.node v.issuer e := by
  obtain ⟨⟨on, d⟩, hx⟩ := List.exists_mem_of_ne_nil _ hne
  obtain ⟨e, k', v, h1, h2, h3, h4, h5, h6, h7, h8⟩ := c55_entries_sealed hnc hnt h hx
  have := hone e h5 h3
  rw [h6] at this; injection this with this; subst this
  refine ⟨v, h7, ?_⟩
  intro on' d' hd'
  obtain ⟨e', k2, v', g1, g2, g3, g4, g5, g6, g7, g8⟩ := c55_entries_sealed hnc hnt h hd'
  have := hone e' g5 g3
  rw [g6] at this; injection this with this; subst this
  rw [c55_one_issuer hnc hnt hsa h g7 h7] at g8
  exact ⟨e', g1, g2, g8⟩

end Verif.Tel
