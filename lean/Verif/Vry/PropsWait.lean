import Verif.Vry.Inv

/-! # C67: waiting credentials -/

namespace Verif.Vry

open Verif.Kel (Id Dig Event NoColl)
open Verif.Tel (TNode TEvt Reger Tever VcSt TIlk NoCollT)

variable {env : VEnv} {U : Event → Prop} {V : TEvt → Prop} {W : Cred → Anchor → Prop}

/-! ## What a pass leaves alone -/

/-- What steps of a pass keep. -/
structure Calm (v v' : VNode) : Prop where
  quiet : Quiet v.t.reg v'.t.reg
  creds : v'.s.creds = v.s.creds
  saved : ∀ d ∈ v.s.saved, d ∈ v'.s.saved
  schemas : v'.s.schemas = v.s.schemas

theorem Calm.rfl' {v : VNode} : Calm v v := ⟨.rfl', rfl, fun _ h => h, rfl⟩

theorem Calm.trans {a b c : VNode} (h : Calm a b) (g : Calm b c) : Calm a c :=
  ⟨h.quiet.trans g.quiet, g.creds.trans h.creds, fun d hd => g.saved d (h.saved d hd), g.schemas.trans h.schemas⟩

theorem logCred_same {s : Store} {c : Cred} (h : s.creds c.said = some c) (a : Anchor) : (s.logCred c a).creds = s.creds := by
  unfold Store.logCred
  simp only [h]

theorem process_calm {v : VNode} {c : Cred} (h : v.s.creds c.said = some c) (late : Dig → Bool) (a : Anchor) : Calm v (v.process env late c a).1 := by
  have ho := process_out env late c a v
  have hg := process_grows (env := env) late c a v
  generalize v.process env late c a = o at ho hg
  obtain ⟨v', x⟩ := o
  have hl := logCred_same h a
  refine ⟨ho.quiet, ?_, fun d hd => hg.saved.subset hd, ?_⟩
  · cases x with
    | ok => rw [show v'.s = v.s.save c a from ho.ok rfl]; exact hl
    | error x =>
      rcases ho.err x rfl with h | h | h | h
      · rw [h.1]
      all_goals (rw [h.1]; exact hl)
  · cases x with
    | ok => rw [show v'.s = v.s.save c a from ho.ok rfl]; rfl
    | error x => rcases ho.err x rfl with h | h | h | h <;> (rw [h.1]; try rfl)

theorem drop_calm (v : VNode) (k : Esc) (d : Dig) : Calm v { v with s := v.s.drop k d } := by
  obtain ⟨h1, _, h3, _, _, _, h7⟩ := drop_same v.s k d
  exact ⟨.rfl', h1, by show ∀ _ ∈ _, _ ∈ (v.s.drop k d).saved; rw [h3]; exact fun _ h => h, h7⟩

theorem stepE_calm {v : VNode} (hv : VInv env U V W v) (late timeout : Dig → Bool) (k : Esc) (d : Dig) : Calm v (v.stepE env late timeout k d) := by
  rcases stepE_cases (env := env) late timeout k v d with ⟨h1, _⟩ | ⟨_, h1⟩ | ⟨c, a, h1, h2, _, h3⟩
  · rw [h1]; exact .rfl'
  · rw [h1]; exact drop_calm v k d
  · have hs := (hv.store.creds d c h1).1
    have := process_calm (env := env) (v := v) (c := c) (by rw [hs]; exact h1) late a
    rcases h3 with ⟨_, h3⟩ | ⟨_, h3⟩
    · rw [h3]; exact this
    · rw [h3]; exact this.trans (drop_calm _ k d)

theorem fold_calm (hnc : NoCollC W) (late timeout : Dig → Bool) (k : Esc) : ∀ (l : List Dig) {v : VNode}, VInv env U V W v →
    Calm v (l.foldl (fun v d => v.stepE env late timeout k d) v) := by
  intro l
  induction l with
  | nil => intro v _; exact .rfl'
  | cons d l ih =>
    intro v h
    exact (stepE_calm h late timeout k d).trans (ih (stepE_inv hnc late timeout k h d).1)

theorem Acceptable.calm {late : Dig → Bool} {v v' : VNode} {c : Cred} (h : Acceptable env late v.t.reg v.s c) (g : Calm v v') :
    Acceptable env late v'.t.reg v'.s c := by
  obtain ⟨es, h1, h2⟩ := h.edges
  refine ⟨g.quiet.current.2 h.status, by rw [g.schemas]; exact h.known, h.fits, es, h1, fun e he => ?_⟩
  obtain ⟨far, k1, k2, k3, k4, k5⟩ := h2 e he
  exact ⟨far, k1, ⟨g.saved _ k2.listed, by rw [g.creds]; exact k2.stored⟩, k3, by rw [g.schemas]; exact k4, g.quiet.current.2 k5⟩

/-! ## Entries stay until their turn -/

theorem process_esc (late : Dig → Bool) (c : Cred) (a : Anchor) (v : VNode) (k : Esc) {d : Dig} (h : d ∈ v.s.esc k) :
    d ∈ (v.process env late c a).1.s.esc k := by
  have ho := process_out env late c a v
  generalize v.process env late c a = o at ho
  obtain ⟨v', x⟩ := o
  cases x with
  | ok => rw [show v'.s = v.s.save c a from ho.ok rfl]; cases k <;> exact h
  | error x =>
    rcases ho.err x rfl with g | g | g | g
    · rw [g.1]; exact h
    · rw [g.1]; cases k
      · exact h
      · exact h
      · exact mem_addDig.2 (.inl h)
    · rw [g.1]; cases k
      · exact mem_addDig.2 (.inl h)
      · exact h
      · exact h
    · rw [g.1]; cases k
      · exact h
      · exact mem_addDig.2 (.inl h)
      · exact h

theorem drop_esc {s : Store} {k k' : Esc} {d d' : Dig} (h : d ∈ s.esc k) (hne : k' ≠ k ∨ d' ≠ d) : d ∈ (s.drop k' d').esc k := by
  cases k <;> cases k' <;> simp only [Store.esc, Store.drop, List.mem_filter] at h ⊢
  all_goals first
    | exact h
    | (refine ⟨h, ?_⟩
       rcases hne with hne | hne
       · exact absurd rfl hne
       · simp [Ne.symm hne])

theorem stepE_esc (late timeout : Dig → Bool) (k k' : Esc) (v : VNode) {d d' : Dig} (h : d ∈ v.s.esc k) (hne : k' ≠ k ∨ d' ≠ d) :
    d ∈ (v.stepE env late timeout k' d').s.esc k := by
  rcases stepE_cases (env := env) late timeout k' v d' with ⟨h1, _⟩ | ⟨_, h1⟩ | ⟨c, a, _, _, _, h3⟩
  · rw [h1]; exact h
  · rw [h1]; exact drop_esc h hne
  · rcases h3 with ⟨_, h3⟩ | ⟨_, h3⟩
    · rw [h3]; exact process_esc late c a v k h
    · rw [h3]; exact drop_esc (process_esc late c a v k h) hne

theorem fold_esc (late timeout : Dig → Bool) (k k' : Esc) (hne : k' ≠ k) : ∀ (l : List Dig) (v : VNode) {d : Dig}, d ∈ v.s.esc k →
    d ∈ (l.foldl (fun v d => v.stepE env late timeout k' d) v).s.esc k := by
  intro l
  induction l with
  | nil => intro v d h; exact h
  | cons x l ih => intro v d h; exact ih _ (stepE_esc late timeout k k' v h (.inl hne))

/-! ## Acceptance -/

/-- An acceptable entry is saved at its turn. -/
theorem fold_saves (hnc : NoCollC W) (late timeout : Dig → Bool) (k : Esc) : ∀ (l : List Dig) {v : VNode} {d : Dig} {c : Cred}, VInv env U V W v → d ∈ l →
    v.s.creds d = some c → Acceptable env late v.t.reg v.s c → timeout d = false →
    d ∈ (l.foldl (fun v d => v.stepE env late timeout k d) v).s.saved := by
  intro l
  induction l with
  | nil => intro v d c _ h; simp at h
  | cons x l ih =>
    intro v d c hv hd hc ha ht
    have h1 := stepE_inv hnc late timeout k hv x
    have h2 := stepE_calm hv late timeout k x
    by_cases hx : x = d
    · subst hx
      refine (fold_inv hnc late timeout k l h1.1).2.saved.subset ?_
      rcases stepE_cases (env := env) late timeout k v x with ⟨_, g | g⟩ | ⟨g, _⟩ | ⟨c', a, g1, g2, _, g3⟩
      · rw [hc] at g; simp at g
      · obtain ⟨_, a, ha', _⟩ := hv.store.creds x c hc
        rw [ha'] at g; simp at g
      · rw [ht] at g; simp at g
      · rw [hc] at g1; injection g1 with g1; subst g1
        have hs := (hv.store.creds x c hc).1
        have ho := process_out env late c a v
        have hok := (ho.iff hv.store.wf).2 ha
        have hsv : x ∈ (v.process env late c a).1.s.saved := by
          rw [ho.ok hok]; exact mem_addDig.2 (.inr hs.symm)
        rcases g3 with ⟨g3, _⟩ | ⟨_, g3⟩
        · rw [hok] at g3; simp at g3
        · rw [g3]; show x ∈ ((v.process env late c a).1.s.drop k x).saved
          rw [(drop_same _ k x).2.2.1]; exact hsv
    · refine ih h1.1 (by simpa [Ne.symm hx] using hd) (by rw [h2.creds]; exact hc) (ha.calm h2) ht

/-- **C67.** A waiting credential that meets the conditions of acceptance is saved by the next pass, unless it has waited too long. -/
theorem c67_saved (hnk : NoColl U) (hnt : NoCollT V) (hnc : NoCollC W) {v : VNode} (h : VReached env U V W v) {late timeout : Dig → Bool} {c : Cred}
    (hw : Waiting v.s c.said) (hc : v.s.creds c.said = some c) (ha : Acceptable env late v.t.reg v.s c) (ht : timeout c.said = false) :
    Saved (v.step env (.pass late timeout)).s c := by
  have hv := h.inv hnk hnt hnc
  have g1 := fold_inv hnc late timeout .mce (v.s.esc .mce) hv
  have c1 := fold_calm hnc late timeout .mce (v.s.esc .mce) hv
  have g2 := fold_inv hnc late timeout .mse ((v.passE env late timeout .mce).s.esc .mse) g1.1
  have c2 := fold_calm hnc late timeout .mse ((v.passE env late timeout .mce).s.esc .mse) g1.1
  have g3 := fold_inv hnc late timeout .mre (((v.passE env late timeout .mce).passE env late timeout .mse).s.esc .mre) g2.1
  have hgr : Grows v (v.step env (.pass late timeout)) := g1.2.trans (g2.2.trans g3.2)
  refine ⟨?_, hgr.creds _ _ hc⟩
  rcases hw with hw | hw | hw
  · have e1 := fold_esc (env := env) late timeout .mre .mce (by simp) (v.s.esc .mce) v (d := c.said) hw
    have e2 := fold_esc (env := env) late timeout .mre .mse (by simp) ((v.passE env late timeout .mce).s.esc .mse) _ e1
    exact fold_saves hnc late timeout .mre _ g2.1 e2 ((congrFun (c1.trans c2).creds c.said).trans hc) (ha.calm (c1.trans c2)) ht
  · have := fold_saves hnc late timeout .mce (v.s.esc .mce) hv hw hc ha ht
    exact g3.2.saved.subset (g2.2.saved.subset this)
  · have e1 := fold_esc (env := env) late timeout .mse .mce (by simp) (v.s.esc .mce) v (d := c.said) hw
    exact g3.2.saved.subset (fold_saves hnc late timeout .mse _ g1.1 e1 ((congrFun c1.creds c.said).trans hc) (ha.calm c1) ht)

/-! ## Nothing is lost -/

/-- The look-up of a status does not fail, and if it finds one it satisfies `P`. -/
def Readable (r : Reger) (k : Id) (d : Dig) (P : VcSt → Prop) : Prop :=
  ∀ tv, (r.fetch k).2 = some tv → r.vcState tv d = .ok none ∨ ∃ st, r.vcState tv d = .ok (some st) ∧ P st

/-- Nothing about the credential is wrong for good: it fits its schema, its edges are well formed with supported operators, and no credential
at the end of an edge is known to be revoked. -/
structure Hopeful (env : VEnv) (r : Reger) (s : Store) (c : Cred) : Prop where
  fits : env.fits c.schema c = true
  status : Readable r c.regid c.said (fun _ => True)
  edges : ∃ es, c.edges = some es ∧ ∀ e ∈ es, ∃ d, e.n = some d ∧ .not ∉ e.ops ∧ lastDelegative e.ops ≠ some .di2i ∧
    ∀ far, s.creds d = some far → Readable r far.regid d (fun st => st.ilk.revoked = false)

theorem Quiet.readable {r r' : Reger} (h : Quiet r r') {k : Id} {d : Dig} {P : VcSt → Prop} (g : Readable r k d P) : Readable r' k d P := by
  intro tv ht
  rw [h.same] at ht
  rw [h.vcState]
  exact g tv ht

theorem Hopeful.calm {v v' : VNode} {c : Cred} (h : Hopeful env v.t.reg v.s c) (g : Calm v v') : Hopeful env v'.t.reg v'.s c := by
  obtain ⟨es, h1, h2⟩ := h.edges
  refine ⟨h.fits, g.quiet.readable h.status, es, h1, fun e he => ?_⟩
  obtain ⟨d, k1, k2, k3, k4⟩ := h2 e he
  exact ⟨d, k1, k2, k3, fun far hf => g.quiet.readable (k4 far (by rw [← g.creds]; exact hf))⟩

theorem status_readable {r : Reger} {k : Id} {d : Dig} {P : VcSt → Prop} (h : Readable r k d P) :
    (status r k d).2 = .ok none ∨ ∃ st, (status r k d).2 = .ok (some st) ∧ P st := by
  have hq := quiet_fetch r k
  unfold status
  split
  · exact .inl rfl
  · rename_i r' t hf
    rw [hf] at hq
    have hv := hq.vcState t d
    dsimp only at hv
    rw [hv]
    rcases h t (by rw [hf]) with h1 | ⟨st, h1, h2⟩
    · rw [h1]; exact .inl rfl
    · rw [h1]; exact .inr ⟨st, rfl, h2⟩

theorem verifyChain_readable {r : Reger} {s : Store} (hw : Wf s) {d : Dig} {ops : List Op} (h1 : .not ∉ ops) (h2 : lastDelegative ops ≠ some .di2i)
    (h3 : ∀ far, s.creds d = some far → Readable r far.regid d (fun st => st.ilk.revoked = false)) (i : Id) (y : Option Id) :
    (verifyChain r s d ops i y).2 = .ok none ∨ ∃ st, (verifyChain r s d ops i y).2 = .ok (some st) ∧ st.ilk.revoked = false := by
  unfold verifyChain
  split
  · exact .inl rfl
  · rename_i hd
    obtain ⟨far, hf⟩ := hw.listed d (Classical.not_not.1 hd)
    rw [hf]
    dsimp only
    have hdi : effective far ops ≠ some .di2i := by
      rcases effective_cases far ops with ⟨hu, he⟩ | ⟨hu, he⟩
      · rw [he]; split <;> simp
      · rw [he]; exact h2
    rw [if_neg hdi]
    have := status_readable (h3 far hf)
    split
    · exact .inl rfl
    · split
      · exact .inl rfl
      · split
        · exact .inl rfl
        · split
          · exact .inl rfl
          · exact this
      · exact this

/-- The three ways of waiting. -/
def VExn.waits (x : VExn) : Prop := x = .missingRegistry ∨ x = .missingChain ∨ x = .missingSchema

theorem edges_hopeful (late : Dig → Bool) (c : Cred) (a : Anchor) : ∀ (es : List Edge) (v : VNode), Wf v.s →
    (∀ e ∈ es, ∃ d, e.n = some d ∧ .not ∉ e.ops ∧ lastDelegative e.ops ≠ some .di2i ∧
      ∀ far, v.s.creds d = some far → Readable v.t.reg far.regid d (fun st => st.ilk.revoked = false)) →
    ∀ x, (edges env late c a v es).2 = .error x → x.waits := by
  intro es
  induction es with
  | nil => intro v _ _ x hx; simp [edges] at hx
  | cons e es ih =>
    intro v hw h x hx
    obtain ⟨d, hn, h1, h2, h3⟩ := h e (by simp)
    have hr := verifyChain_readable hw h1 h2 h3 c.issuer c.issuee
    have hq := verifyChain_quiet v.t.reg v.s d e.ops c.issuer c.issuee
    have hk := fun st => verifyChain_some (r := v.t.reg) hw (d := d) (ops := e.ops) (near := c) (st := st)
    unfold edges at hx
    simp only [hn] at hx
    generalize verifyChain v.t.reg v.s d e.ops c.issuer c.issuee = o at hr hq hx hk
    match o, hr, hq, hk, hx with
    | (r, .error y), hr, _, _, _ => rcases hr with hr | ⟨_, hr, _⟩ <;> simp at hr
    | (r, .ok none), _, _, _, hx => injection hx with hx; subst hx; exact .inr (.inl rfl)
    | (r, .ok (some st)), hr, hq, hk, hx =>
      have hrev : st.ilk.revoked = false := by
        rcases hr with hr | ⟨st', hr, g⟩
        · simp at hr
        · simp at hr; subst hr; exact g
      have hgo : ∀ x, (if late st.said then (({ t := { v.t with reg := r }, s := v.s.escrowMCE c a }, .error .missingChain) : VOut)
             else if VcSt.revoked st then ({ v with t := { v.t with reg := r } }, .error .revokedChain)
             else edges env late c a { v with t := { v.t with reg := r } } es).2 = .error x → x.waits := by
        intro x hx
        split at hx
        · injection hx with hx; subst hx; exact .inr (.inl rfl)
        · rw [revoked_eq, hrev, if_neg (by simp)] at hx
          refine ih { v with t := { v.t with reg := r } } hw (fun e' he' => ?_) x hx
          obtain ⟨d', k1, k2, k3, k4⟩ := h e' (by simp [he'])
          exact ⟨d', k1, k2, k3, fun far hf => hq.readable (k4 far hf)⟩
      dsimp only at hx
      cases hsc : e.schema with
      | none => rw [hsc] at hx; exact hgo x hx
      | some sc =>
        obtain ⟨far, tv, g1, g2, _⟩ := (hk st).1 rfl
        rw [hsc, show v.s.creds d = some far from by rw [g1]; exact g2.stored] at hx
        simp only at hx
        split at hx
        · exact hgo x hx
        · split at hx
          · injection hx with hx; subst hx; exact .inr (.inr rfl)
          · split at hx
            · injection hx with hx; subst hx; exact .inr (.inl rfl)
            · exact hgo x hx

theorem process_hopeful {late : Dig → Bool} {c : Cred} {a : Anchor} {v : VNode} (hw : Wf v.s) (h : Hopeful env v.t.reg v.s c) {x : VExn}
    (hx : (v.process env late c a).2 = .error x) : x.waits := by
  obtain ⟨es, h1, h2⟩ := h.edges
  have hr := status_readable h.status
  have hq := status_quiet v.t.reg c.regid c.said
  unfold VNode.process at hx
  generalize status v.t.reg c.regid c.said = o at hr hq hx
  match o, hr, hq, hx with
  | (r, .error y), hr, _, _ => rcases hr with hr | ⟨_, hr, _⟩ <;> simp at hr
  | (r, .ok none), _, _, hx => injection hx with hx; subst hx; exact .inl rfl
  | (r, .ok (some st)), _, hq, hx =>
    dsimp only at hx
    split at hx
    · injection hx with hx; subst hx; exact .inl rfl
    · split at hx
      · injection hx with hx; subst hx; exact .inr (.inr rfl)
      · rw [h.fits, if_neg (by simp)] at hx
        simp only [h1] at hx
        have := edges_hopeful (env := env) late c a es { v with t := { v.t with reg := r } } hw (fun e he => by
          obtain ⟨d, k1, k2, k3, k4⟩ := h2 e he
          exact ⟨d, k1, k2, k3, fun far hf => hq.readable (k4 far hf)⟩)
        generalize edges env late c a { v with t := { v.t with reg := r } } es = o' at this hx
        match o', this, hx with
        | (_, .error y), this, hx => injection hx with hx; subst hx; exact this y rfl
        | (_, .ok ()), _, hx => simp at hx

theorem waiting_esc {s : Store} {d : Dig} : Waiting s d ↔ ∃ k, d ∈ s.esc k := by
  constructor
  · rintro (h | h | h)
    · exact ⟨.mre, h⟩
    · exact ⟨.mce, h⟩
    · exact ⟨.mse, h⟩
  · rintro ⟨k, h⟩
    cases k
    · exact .inr (.inl h)
    · exact .inr (.inr h)
    · exact .inl h

theorem etype_cases {x : VExn} (h : x.waits) : ∃ k : Esc, x = k.etype := by
  rcases h with rfl | rfl | rfl
  · exact ⟨.mre, rfl⟩
  · exact ⟨.mce, rfl⟩
  · exact ⟨.mse, rfl⟩

/-- After an error that means waiting, the credential is in the escrow for it. -/
theorem process_waits {late : Dig → Bool} {c : Cred} {a : Anchor} {v : VNode} {k : Esc} (hx : (v.process env late c a).2 = .error k.etype) :
    c.said ∈ (v.process env late c a).1.s.esc k := by
  have ho := process_out env late c a v
  rcases ho.err _ hx with g | g | g | g
  · cases k <;> simp [Esc.etype] at g
  · cases k <;> simp [Esc.etype] at g ⊢
    rw [g]; exact mem_addDig.2 (.inr rfl)
  · cases k <;> simp [Esc.etype] at g ⊢
    rw [g]; exact mem_addDig.2 (.inr rfl)
  · cases k <;> simp [Esc.etype] at g ⊢
    rw [g]; exact mem_addDig.2 (.inr rfl)

theorem stepE_keeps {v : VNode} (hv : VInv env U V W v) (late : Dig → Bool) {timeout : Dig → Bool} (k : Esc) {d x : Dig} {c : Cred}
    (hc : v.s.creds d = some c) (hh : Hopeful env v.t.reg v.s c) (ht : timeout d = false) (h : d ∈ v.s.saved ∨ Waiting v.s d) :
    d ∈ (v.stepE env late timeout k x).s.saved ∨ Waiting (v.stepE env late timeout k x).s d := by
  rcases h with h | h
  · exact .inl ((stepE_calm hv late timeout k x).saved d h)
  · by_cases hx : x = d
    · subst hx
      have hs := (hv.store.creds x c hc).1
      rcases stepE_cases (env := env) late timeout k v x with ⟨h1, _⟩ | ⟨g, _⟩ | ⟨c', a, g1, g2, _, g3⟩
      · rw [h1]; exact .inr h
      · rw [ht] at g; simp at g
      · rw [hc] at g1; injection g1 with g1; subst g1
        have ho := process_out env late c a v
        rcases g3 with ⟨g3, g4⟩ | ⟨g3, g4⟩
        · rw [g4]
          exact .inr (waiting_esc.2 ⟨k, by have := process_waits g3; rw [hs] at this; exact this⟩)
        · rw [g4]
          cases hr : (v.process env late c a).2 with
          | ok =>
            left
            show x ∈ ((v.process env late c a).1.s.drop k x).saved
            rw [(drop_same _ k x).2.2.1, ho.ok hr]; exact mem_addDig.2 (.inr hs.symm)
          | error y =>
            obtain ⟨k', rfl⟩ := etype_cases (process_hopeful hv.store.wf hh hr)
            have hk : k ≠ k' := by rintro rfl; exact g3 hr
            have := process_waits hr
            rw [hs] at this
            exact .inr (waiting_esc.2 ⟨k', drop_esc this (.inl hk)⟩)
    · obtain ⟨k', hk⟩ := waiting_esc.1 h
      exact .inr (waiting_esc.2 ⟨k', stepE_esc late timeout k' k v hk (.inr hx)⟩)

theorem fold_keeps (hnc : NoCollC W) (late : Dig → Bool) {timeout : Dig → Bool} (k : Esc) {d : Dig} {c : Cred} (ht : timeout d = false) :
    ∀ (l : List Dig) {v : VNode}, VInv env U V W v → v.s.creds d = some c → Hopeful env v.t.reg v.s c → (d ∈ v.s.saved ∨ Waiting v.s d) →
    d ∈ (l.foldl (fun v d => v.stepE env late timeout k d) v).s.saved ∨ Waiting (l.foldl (fun v d => v.stepE env late timeout k d) v).s d := by
  intro l
  induction l with
  | nil => intro v _ _ _ h; exact h
  | cons x l ih =>
    intro v hv hc hh h
    have h2 := stepE_calm hv late timeout k x
    exact ih (stepE_inv hnc late timeout k hv x).1 (by rw [h2.creds]; exact hc) (hh.calm h2) (stepE_keeps hv late k hc hh ht h)

/-- **C67, nothing is lost.** A waiting credential that has not waited too long and about which nothing is wrong for good is saved or
still waiting after a pass. -/
theorem c67_not_lost (hnk : NoColl U) (hnt : NoCollT V) (hnc : NoCollC W) {v : VNode} (h : VReached env U V W v) {late timeout : Dig → Bool} {c : Cred}
    (hw : Waiting v.s c.said) (hc : v.s.creds c.said = some c) (hh : Hopeful env v.t.reg v.s c) (ht : timeout c.said = false) :
    Saved (v.step env (.pass late timeout)).s c ∨ Waiting (v.step env (.pass late timeout)).s c.said := by
  have hv := h.inv hnk hnt hnc
  have g1 := fold_inv hnc late timeout .mce (v.s.esc .mce) hv
  have c1 := fold_calm hnc late timeout .mce (v.s.esc .mce) hv
  have k1 := fold_keeps hnc late .mce ht (v.s.esc .mce) hv hc hh (.inr hw)
  have g2 := fold_inv hnc late timeout .mse ((v.passE env late timeout .mce).s.esc .mse) g1.1
  have c2 := fold_calm hnc late timeout .mse ((v.passE env late timeout .mce).s.esc .mse) g1.1
  have k2 := fold_keeps hnc late .mse ht ((v.passE env late timeout .mce).s.esc .mse) g1.1 ((congrFun c1.creds c.said).trans hc) (hh.calm c1) k1
  have g3 := fold_inv hnc late timeout .mre (((v.passE env late timeout .mce).passE env late timeout .mse).s.esc .mre) g2.1
  have k3 := fold_keeps hnc late .mre ht (((v.passE env late timeout .mce).passE env late timeout .mse).s.esc .mre) g2.1
    ((congrFun (c1.trans c2).creds c.said).trans hc) (hh.calm (c1.trans c2)) k2
  have hgr : Grows v (v.step env (.pass late timeout)) := g1.2.trans (g2.2.trans g3.2)
  rcases k3 with k3 | k3
  · exact .inl ⟨k3, hgr.creds _ _ hc⟩
  · exact .inr k3

/-- **C67, on arrival.** A credential about which nothing is wrong for good is saved or waits when it arrives. -/
theorem c67_arrival (hnk : NoColl U) (hnt : NoCollT V) (hnc : NoCollC W) {v : VNode} (h : VReached env U V W v) (late : Dig → Bool) {c : Cred} {a : Anchor}
    (hc : W c a) (hh : Hopeful env v.t.reg v.s c) :
    Saved (v.step env (.cred late c a)).s c ∨ (Waiting (v.step env (.cred late c a)).s c.said ∧ (v.step env (.cred late c a)).s.creds c.said = some c) := by
  have hv := h.inv hnk hnt hnc
  have ho := process_out env late c a v
  show Saved (v.process env late c a).1.s c ∨ (Waiting (v.process env late c a).1.s c.said ∧ (v.process env late c a).1.s.creds c.said = some c)
  cases hr : (v.process env late c a).2 with
  | ok => rw [ho.ok hr]; exact .inl ((saved_save hnc hv.store hc c).2 (.inr rfl))
  | error y =>
    obtain ⟨k', rfl⟩ := etype_cases (process_hopeful hv.store.wf hh hr)
    refine .inr ⟨waiting_esc.2 ⟨k', process_waits hr⟩, ?_⟩
    rcases ho.err _ hr with g | g | g | g
    · cases k' <;> simp [Esc.etype] at g
    all_goals (rw [g.1]; exact logCred_new hnc hv.store hc)

end Verif.Vry
