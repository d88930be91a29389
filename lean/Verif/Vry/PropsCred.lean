import Verif.Vry.Inv

/-!
# C63–C66, C68, C69: which credentials are accepted, and what is known of them
-/

namespace Verif.Vry

open Verif.Kel (Id Dig Event NoColl)
open Verif.Tel (TNode TEvt Reger Tever VcSt TIlk NoCollT SelfAddressing Registered Sealed InLog)

variable {env : VEnv} {U : Event → Prop} {V : TEvt → Prop} {W : Cred → Anchor → Prop}

/-! ## C63: what is accepted -/

/-- **C63.** A credential is accepted exactly when its registry is known, the log of the credential is not empty and current, its schema is known and
fits, and each of its edges is fulfilled. -/
theorem c63_accepted_iff (hnk : NoColl U) (hnt : NoCollT V) (hnc : NoCollC W) {v : VNode} (h : VReached env U V W v) (late : Dig → Bool) (c : Cred)
    (a : Anchor) : (v.process env late c a).2 = .ok () ↔ Acceptable env late v.t.reg v.s c :=
  (process_out env late c a v).iff (h.inv hnk hnt hnc).store.wf

/-- **C63, effect.** An accepted credential is saved; one not accepted is not saved by that, and no other credential is saved or forgotten. -/
theorem c63_effect (hnk : NoColl U) (hnt : NoCollT V) (hnc : NoCollC W) {v : VNode} (h : VReached env U V W v) (late : Dig → Bool) {c : Cred}
    {a : Anchor} (hc : W c a) (x : Cred) :
    Saved (v.process env late c a).1.s x ↔ Saved v.s x ∨ (x = c ∧ (v.process env late c a).2 = .ok ()) := by
  have hi := (h.inv hnk hnt hnc).store
  have ho := process_out env late c a v
  generalize v.process env late c a = o at ho
  obtain ⟨v', r⟩ := o
  cases r with
  | ok =>
    rw [show v'.s = v.s.save c a from ho.ok rfl, saved_save hnc hi hc]
    simp
  | error e =>
    have hS : ∀ s' : Store, s'.saved = v.s.saved → s'.creds = (v.s.logCred c a).creds → (Saved s' x ↔ Saved v.s x) := by
      intro s' h1 h2
      rw [← saved_logCred hi c a x]
      exact ⟨fun g => ⟨by rw [← h1]; exact g.listed, by rw [← h2]; exact g.stored⟩, fun g => ⟨by rw [h1]; exact g.1, by rw [h2]; exact g.2⟩⟩
    simp only [reduceCtorEq, and_false, or_false]
    rcases ho.err e rfl with k | k | k | k
    · rw [k.1]
    all_goals (rw [k.1]; exact hS _ rfl rfl)

/-- **C63, saved credentials.** Of every saved credential: a sealed inception of its registry is stored, its log is not empty, its schema is known
and fits, and every edge leads to a saved credential with the operators and the schema of the edge respected. -/
theorem c63_saved (hnk : NoColl U) (hnt : NoCollT V) (hnc : NoCollC W) {v : VNode} (h : VReached env U V W v) {c : Cred} (hc : Saved v.s c) :
    (∃ w, Registered env.tel v.t.node v.t.reg c.regid w) ∧ v.t.reg.tels c.said ≠ [] ∧ c.schema ∈ v.s.schemas ∧ env.fits c.schema c = true ∧
    ∃ es, c.edges = some es ∧ ∀ e ∈ es, ∃ far, e.n = some far.said ∧ Saved v.s far ∧ Allowed c far e.ops ∧
      ∀ k, e.schema = some k → k = far.schema ∨ (k ∈ v.s.schemas ∧ env.fits k far = true) := by
  have hi := h.inv hnk hnt hnc
  obtain ⟨l, l', hl⟩ := List.append_of_mem hc.listed
  obtain ⟨x, h1, h2⟩ := hi.based l c.said l' hl
  rw [hc.stored] at h1; injection h1 with h1; subst h1
  obtain ⟨es, h3, h4⟩ := h2.edges
  refine ⟨h2.reg, h2.log, h2.known, h2.fits, es, h3, fun e he => ?_⟩
  obtain ⟨far, g1, g2, g3, g4, g5⟩ := h4 e he
  exact ⟨far, g1, ⟨by rw [hl]; exact List.mem_append_left _ g2, g3⟩, g4, g5⟩

/-- **C63, for good.** What is saved stays saved. -/
theorem c63_kept (hnk : NoColl U) (hnt : NoCollT V) (hnc : NoCollC W) {v : VNode} (h : VReached env U V W v) (more : List VInp)
    (hd : VDelivers U V W more) {c : Cred} (hc : Saved v.s c) : Saved (v.run env more).s c := by
  have := (VInv.run hnk hnt hnc more (h.inv hnk hnt hnc) hd).2
  exact ⟨this.saved.subset hc.listed, this.creds _ _ hc.stored⟩

/-! ## C64: chains -/

/-- `near` is saved and has an edge to `far`. -/
def Points (s : Store) (far near : Cred) : Prop := Saved s near ∧ Saved s far ∧ ∃ es e, near.edges = some es ∧ e ∈ es ∧ e.n = some far.said

theorem idxOf_lt {l l' : List Dig} {d n : Dig} (hn : n ∈ l) : (l ++ d :: l').idxOf n < l.length := by
  rw [List.idxOf_append, if_pos hn]; exact List.idxOf_lt_length_of_mem hn

/-- **C64.** Saved credentials have a rank that falls along every edge. -/
theorem c64_ranked (hnk : NoColl U) (hnt : NoCollT V) (hnc : NoCollC W) {v : VNode} (h : VReached env U V W v) :
    ∃ rank : Cred → Nat, ∀ far near, Points v.s far near → rank far < rank near := by
  have hi := h.inv hnk hnt hnc
  refine ⟨fun c => v.s.saved.idxOf c.said, ?_⟩
  rintro far near ⟨h1, _, es, e, h2, h3, h4⟩
  obtain ⟨l, l', hl⟩ := List.append_of_mem h1.listed
  obtain ⟨x, k1, k2⟩ := hi.based l near.said l' hl
  rw [h1.stored] at k1; injection k1 with k1; subst k1
  obtain ⟨es', k3, k4⟩ := k2.edges
  rw [h2] at k3; injection k3 with k3; subst k3
  obtain ⟨far', g1, g2, _⟩ := k4 e h3
  rw [h4] at g1; injection g1 with g1
  rw [← g1] at g2
  have hnd := hi.store.nodup
  rw [hl] at hnd
  have hout : near.said ∉ l := fun hm => by
    rw [List.nodup_append] at hnd
    exact hnd.2.2 near.said hm near.said (by simp) rfl
  show v.s.saved.idxOf far.said < v.s.saved.idxOf near.said
  rw [hl]
  have hb : (l ++ near.said :: l').idxOf near.said = l.length := by
    rw [List.idxOf_append, if_neg hout]; simp
  rw [hb]
  exact idxOf_lt g2

/-- **C64, grounded.** Following edges from a saved credential meets saved credentials only and comes to an end: there are no cycles. -/
theorem c64_wellFounded (hnk : NoColl U) (hnt : NoCollT V) (hnc : NoCollC W) {v : VNode} (h : VReached env U V W v) : WellFounded (Points v.s) := by
  obtain ⟨rank, hr⟩ := c64_ranked hnk hnt hnc h
  exact Subrelation.wf (fun {a b} hab => hr a b hab) (InvImage.wf rank Nat.lt_wfRel.wf)

/-! ## C65: who issued -/

/-- **C65, partly.** If the issuer a credential names is the one its registry belongs to, and all transaction events delivered for the credential
name that registry, then a saved credential was issued by its issuer: the first event of its log is sealed in the issuer's key event log. Missing:
neither condition is checked, see `c65_foreign_registry` and `c65_foreign_event`. -/
theorem c65_issued_partial (hnk : NoColl U) (hnt : NoCollT V) (hnc : NoCollC W) (hsa : SelfAddressing V) {v : VNode} (h : VReached env U V W v)
    {c : Cred} (hc : Saved v.s c) {w : TEvt} (hw : Registered env.tel v.t.node v.t.reg c.regid w) (hiss : w.issuer = c.issuer)
    (hone : ∀ e, V e → e.pre = c.said → e.regk = some c.regid) :
    (∃ on d, (on, d) ∈ v.t.reg.tels c.said) ∧
    ∀ on d, (on, d) ∈ v.t.reg.tels c.said → ∃ e, InLog v.t.reg c.said on e ∧ e.said = d ∧ Sealed env.tel v.t.node c.issuer e := by
  have hi := h.inv hnk hnt hnc
  obtain ⟨_, hl, _⟩ := c63_saved hnk hnt hnc h hc
  constructor
  · obtain ⟨⟨on, d⟩, hx⟩ := List.exists_mem_of_ne_nil _ hl
    exact ⟨on, d, hx⟩
  · intro on d hd
    obtain ⟨e, k, w', h1, h2, h3, h4, h5, _⟩ := hi.tel.ent c.said on d hd
    obtain ⟨g1, g2, g3⟩ := hi.tel.tvt c.said d e h1
    have := hone e g3 g1
    rw [h3] at this; injection this with this; subst this
    have q1 := (hi.tel.tvt _ _ _ hw.stored).2.2
    have q2 := (hi.tel.tvt _ _ _ h4.stored).2.2
    have := hnt w w' q1 q2 (by rw [← hsa w q1 hw.ilk, ← hsa w' q2 h4.ilk, hw.pre, h4.pre])
    subst this
    rw [hiss] at h5
    exact ⟨e, ⟨by rw [g2]; exact hd, by rw [g2]; exact h1⟩, g2, h5⟩

/-- **C65, what is known.** The log of a saved credential is sealed event by event by the issuers of the registries the events name. -/
theorem c65_sealed (hnk : NoColl U) (hnt : NoCollT V) (hnc : NoCollC W) {v : VNode} (h : VReached env U V W v) {c : Cred} {on : Nat} {d : Dig}
    (hd : (on, d) ∈ v.t.reg.tels c.said) :
    ∃ e k w, InLog v.t.reg c.said on e ∧ e.said = d ∧ e.regk = some k ∧ Registered env.tel v.t.node v.t.reg k w ∧ Sealed env.tel v.t.node w.issuer e := by
  have hi := h.inv hnk hnt hnc
  obtain ⟨e, k, w, h1, h2, h3, h4, h5, _⟩ := hi.tel.ent c.said on d hd
  obtain ⟨g1, g2, g3⟩ := hi.tel.tvt c.said d e h1
  exact ⟨e, k, w, ⟨by rw [g2]; exact hd, by rw [g2]; exact h1⟩, g2, h3, h4, h5⟩

/-! ## C66: revoked credentials -/

theorem inLog_kept {r r' : Reger} (h : Tel.Kept r r') {p : Id} {on : Nat} {e : TEvt} (he : InLog r p on e) : InLog r' p on e :=
  ⟨(h.tels p).subset he.entry, h.tvts _ _ _ he.stored⟩

theorem not_fulfilled {v : VNode} (hi : VInv env U V W v) {far near : Cred} {e : Edge} {x : TEvt} {on : Nat} (hf : v.s.creds far.said = some far)
    (he : e.n = some far.said) (hx : InLog v.t.reg far.said on x) (hr : x.ilk.revoked = true) (late : Dig → Bool) :
    ¬ Fulfilled env late v.t.reg v.s near e := by
  rintro ⟨far', h1, h2, _, _, tv, st, _, h4, _, h5⟩
  rw [he] at h1; injection h1 with h1
  have := h2.stored
  rw [← h1, hf] at this; injection this with this; subst this
  have := (Tel.revoked_status hi.tel hx hr tv).2 st h4
  rw [this.1] at h5; simp at h5

/-- A credential that could only be accepted with a bad edge stays out. -/
theorem stays_out (hnk : NoColl U) (hnt : NoCollT V) (hnc : NoCollC W) {far near : Cred} {es : List Edge} {e : Edge} {x : TEvt} {on : Nat}
    (hes : near.edges = some es) (hin : e ∈ es) (he : e.n = some far.said) (hr : x.ilk.revoked = true) (hW : ∃ a, W near a) :
    ∀ (more : List VInp) {v : VNode}, VInv env U V W v → v.s.creds far.said = some far → InLog v.t.reg far.said on x → near.said ∉ v.s.saved →
      VDelivers U V W more → near.said ∉ (v.run env more).s.saved := by
  have hproc : ∀ (late : Dig → Bool) (c : Cred) (a : Anchor) (v : VNode), VInv env U V W v → v.s.creds far.said = some far →
      InLog v.t.reg far.said on x → near.said ∉ v.s.saved → W c a → near.said ∉ (v.process env late c a).1.s.saved := by
    intro late c a v hv hf hx hn hc hm
    have ho := process_out env late c a v
    generalize v.process env late c a = o at ho hm
    obtain ⟨v', r⟩ := o
    cases r with
    | error y => rcases ho.err y rfl with k | k | k | k <;> (rw [k.1] at hm; exact hn hm)
    | ok =>
      rw [show v'.s = v.s.save c a from ho.ok rfl] at hm
      rcases mem_addDig.1 hm with hm | hm
      · exact hn hm
      · obtain ⟨b, hb⟩ := hW
        have := hnc near c b a hb hc hm
        subst this
        obtain ⟨es', h1, h2⟩ := ((ho.iff hv.store.wf).1 rfl).edges
        rw [hes] at h1; injection h1 with h1; subst h1
        exact not_fulfilled hv hf he hx hr late (h2 e hin)
  have hfold : ∀ (late timeout : Dig → Bool) (k : Esc) (l : List Dig) (v : VNode), VInv env U V W v → v.s.creds far.said = some far →
      InLog v.t.reg far.said on x → near.said ∉ v.s.saved → near.said ∉ (l.foldl (fun v d => v.stepE env late timeout k d) v).s.saved := by
    intro late timeout k l
    induction l with
    | nil => intro v _ _ _ h; exact h
    | cons d l ih =>
      intro v hv hf hx hn
      have hs := stepE_inv hnc late timeout k hv d
      refine ih _ hs.1 (hs.2.creds _ _ hf) (inLog_kept hs.2.reg hx) ?_
      show near.said ∉ (v.stepE env late timeout k d).s.saved
      rcases stepE_cases (env := env) late timeout k v d with ⟨h1, _⟩ | ⟨_, h1⟩ | ⟨c, a, h1, h2, _, h3⟩
      · rw [h1]; exact hn
      · rw [h1]; show near.said ∉ (v.s.drop k d).saved; rw [(drop_same v.s k d).2.2.1]; exact hn
      · have hc : W c a := by
          obtain ⟨_, b, h4, h5⟩ := hv.store.creds d c h1
          rw [h2] at h4; injection h4 with h4; subst h4; exact h5
        have := hproc late c a v hv hf hx hn hc
        rcases h3 with ⟨_, h3⟩ | ⟨_, h3⟩
        · rw [h3]; exact this
        · rw [h3]; show near.said ∉ ((v.process env late c a).1.s.drop k d).saved; rw [(drop_same _ k d).2.2.1]; exact this
  intro more
  induction more with
  | nil => intro v _ _ _ h _; exact h
  | cons i more ih =>
    intro v hv hf hx hn hd
    obtain ⟨⟨h1, h2⟩, h3⟩ := hd.cons
    have hs := hv.step hnk hnt hnc i h1 h2
    refine ih hs.1 (hs.2.creds _ _ hf) (inLog_kept hs.2.reg hx) ?_ h3
    cases i with
    | tel j => exact hn
    | schema k => exact hn
    | cred late c a => exact hproc late c a v hv hf hx hn (h2 c a rfl)
    | pass late timeout =>
      have p1 := fold_inv hnc late timeout .mce (v.s.esc .mce) hv
      have p2 := fold_inv hnc late timeout .mse ((v.passE env late timeout .mce).s.esc .mse) p1.1
      have q1 := hfold late timeout .mce (v.s.esc .mce) v hv hf hx hn
      have q2 := hfold late timeout .mse ((v.passE env late timeout .mce).s.esc .mse) _ p1.1 (p1.2.creds _ _ hf) (inLog_kept p1.2.reg hx) q1
      exact hfold late timeout .mre (((v.passE env late timeout .mce).passE env late timeout .mse).s.esc .mre) _ p2.1
        ((p1.2.trans p2.2).creds _ _ hf) (inLog_kept (p1.2.trans p2.2).reg hx) q2

/-- **C66, partly.** Once a stored credential is revoked, no credential with an edge to it is accepted any more, whatever arrives and
however often waiting credentials are tried. Missing: the revoked credential itself is still accepted, see `c66_revoked_accepted`, and a credential
accepted before stays saved. -/
theorem c66_revoked_edge_partial (hnk : NoColl U) (hnt : NoCollT V) (hnc : NoCollC W) {v : VNode} (h : VReached env U V W v) {far near : Cred}
    {es : List Edge} {e : Edge} (hes : near.edges = some es) (hin : e ∈ es) (he : e.n = some far.said) (hW : ∃ a, W near a)
    (hf : v.s.creds far.said = some far) {x : TEvt} {on : Nat} (hx : InLog v.t.reg far.said on x) (hr : x.ilk.revoked = true)
    (hn : ¬ Saved v.s near) (more : List VInp) (hd : VDelivers U V W more) : ¬ Saved (v.run env more).s near := by
  have hi := h.inv hnk hnt hnc
  intro hs
  refine stays_out hnk hnt hnc hes hin he hr hW more hi hf hx ?_ hd hs.listed
  intro hm
  obtain ⟨y, hy⟩ := hi.store.list _ hm
  obtain ⟨a, ha⟩ := hW
  obtain ⟨h1, b, _, h2⟩ := hi.store.creds _ _ hy
  have := hnc y near b a h2 ha h1
  subst this
  exact hn ⟨hm, hy⟩

/-! ## C68: indices -/

/-- **C68.** The lists by issuer, by issuee and by schema hold the digests of exactly the saved credentials with that issuer, issuee or schema, each
once. -/
theorem c68_indices (hnk : NoColl U) (hnt : NoCollT V) (hnc : NoCollC W) {v : VNode} (h : VReached env U V W v) (x : Id) (d : Dig) :
    (d ∈ v.s.issus x ↔ ∃ c, Saved v.s c ∧ c.said = d ∧ c.issuer = x) ∧ (d ∈ v.s.schms x ↔ ∃ c, Saved v.s c ∧ c.said = d ∧ c.schema = x) ∧
    (d ∈ v.s.subjs x ↔ ∃ c, Saved v.s c ∧ c.said = d ∧ c.issuee = some x) ∧
    (v.s.issus x).Nodup ∧ (v.s.schms x).Nodup ∧ (v.s.subjs x).Nodup := by
  have hi := (h.inv hnk hnt hnc).store
  refine ⟨?_, ?_, hi.subjs x d, hi.once x⟩
  · have := hi.issus x d; simpa using this
  · have := hi.schms x d; simpa using this

/-! ## C69: anchors -/

/-- **C69, partly.** The anchor stored for a stored credential is one delivered together with that very credential. Missing: it is not compared
with anything, and later deliveries replace it, see `c69_anchor_replaced`. -/
theorem c69_anchor_delivered_partial (hnk : NoColl U) (hnt : NoCollT V) (hnc : NoCollC W) {v : VNode} (h : VReached env U V W v) {d : Dig} {c : Cred}
    (hc : v.s.creds d = some c) : c.said = d ∧ ∃ a, v.s.cancs d = some a ∧ W c a :=
  (h.inv hnk hnt hnc).store.creds d c hc

end Verif.Vry
