import Verif.Vry.Spec
import Verif.Tel.PropsLog

/-! # What processing a credential does -/

namespace Verif.Vry

open Verif.Kel (Id Dig upd)
open Verif.Tel (TNode Reger Tever VcSt TIlk fetch_rest)

/-! ## Look-ups of registries -/

/-- `r'` differs from `r` by registries read into memory only. -/
structure Quiet (r r' : Reger) : Prop where
  rest : r' = { r with tevers := r'.tevers }
  same : ∀ k, (r'.fetch k).2 = (r.fetch k).2
  closed : ∀ P : Reger → Prop, (∀ r k, P r → P (r.fetch k).1) → P r → P r'

theorem Quiet.rfl' {r : Reger} : Quiet r r := ⟨rfl, fun _ => rfl, fun _ _ h => h⟩

theorem Quiet.trans {a b c : Reger} (h : Quiet a b) (g : Quiet b c) : Quiet a c :=
  ⟨by rw [g.rest, h.rest], fun k => (g.same k).trans (h.same k), fun P hP hr => g.closed P hP (h.closed P hP hr)⟩

theorem fetch_cases (r : Reger) (j : Id) : (r.fetch j).1 = r ∨ ∃ s t, r.tevers j = none ∧ r.states j = some s ∧ s.reload r = some t ∧
    (r.fetch j).1 = { r with tevers := upd r.tevers j (some t) } := by
  unfold Reger.fetch
  split
  · exact .inl rfl
  · rename_i h1
    split
    · exact .inl rfl
    · rename_i s h2
      split
      · exact .inl rfl
      · rename_i t h3
        exact .inr ⟨s, t, h1, h2, h3, rfl⟩

theorem quiet_fetch (r : Reger) (j : Id) : Quiet r (r.fetch j).1 := by
  refine ⟨fetch_rest r j, ?_, fun P hP hr => hP r j hr⟩
  intro k
  rcases fetch_cases r j with h | ⟨s, t, hj, hs, ht, h⟩
  · rw [h]
  · rw [h]
    unfold Reger.fetch
    by_cases hk : k = j
    · subst hk
      simp [upd, hj, hs, ht]
    · simp only [upd, if_neg hk]
      cases r.tevers k with
      | some _ => rfl
      | none =>
        dsimp only
        cases r.states k with
        | none => rfl
        | some s' =>
          dsimp only
          have : s'.reload { r with tevers := upd r.tevers j (some t) } = s'.reload r := rfl
          rw [this]
          cases s'.reload r <;> rfl

theorem Quiet.vcState {r r' : Reger} (h : Quiet r r') (t : Tever) (d : Dig) : r'.vcState t d = r.vcState t d := by
  rw [h.rest]; rfl

theorem Quiet.current {r r' : Reger} (h : Quiet r r') {late : Dig → Bool} {k : Id} {d : Dig} {P : VcSt → Prop} :
    Current late r' k d P ↔ Current late r k d P := by
  unfold Current
  constructor
  · rintro ⟨tv, st, h1, h2, h3⟩; exact ⟨tv, st, by rw [← h.same]; exact h1, by rw [← h.vcState]; exact h2, h3⟩
  · rintro ⟨tv, st, h1, h2, h3⟩; exact ⟨tv, st, by rw [h.same]; exact h1, by rw [h.vcState]; exact h2, h3⟩

theorem Quiet.fulfilled {env : VEnv} {r r' : Reger} (h : Quiet r r') {late : Dig → Bool} {s : Store} {c : Cred} {e : Edge} :
    Fulfilled env late r' s c e ↔ Fulfilled env late r s c e := by
  unfold Fulfilled
  simp only [h.current]

theorem status_quiet (r : Reger) (k : Id) (d : Dig) : Quiet r (status r k d).1 := by
  have := quiet_fetch r k
  unfold status
  split
  · rename_i h; rw [h] at this; exact this
  · rename_i h; rw [h] at this
    split <;> exact this

theorem status_some {r : Reger} {k : Id} {d : Dig} {st : VcSt} :
    (status r k d).2 = .ok (some st) ↔ ∃ tv, (r.fetch k).2 = some tv ∧ r.vcState tv d = .ok (some st) := by
  have hq := quiet_fetch r k
  unfold status
  split
  · rename_i r' h; rw [h]; simp
  · rename_i r' t h
    rw [h] at hq ⊢
    have hv := hq.vcState t d
    dsimp only at hv ⊢
    rw [hv]
    constructor
    · intro hx
      split at hx
      · simp at hx
      · rename_i o ho; simp at hx; subst hx; exact ⟨t, rfl, ho⟩
    · rintro ⟨tv, h1, h2⟩
      injection h1 with h1; subst h1
      rw [h2]

/-! ## Operators -/

theorem lastDelegative_eq (ops : List Op) : (ops.filter Op.known).reverse.find? Op.delegative = lastDelegative ops := by
  unfold lastDelegative
  rw [← List.head?_filter, List.filter_reverse, List.head?_reverse, List.filter_filter]
  congr 1
  apply List.filter_congr
  intro o _
  cases o <;> rfl

theorem effective_cases (far : Cred) (ops : List Op) :
    ((∀ o ∈ ops, o = .unknown) ∧ effective far ops = (if far.issuee.isSome then some .i2i else some .ni2i)) ∨
    ((∃ o ∈ ops, o ≠ .unknown) ∧ effective far ops = lastDelegative ops) := by
  unfold effective
  dsimp only
  by_cases h : ops.filter Op.known = []
  · rw [if_pos h]
    left
    refine ⟨fun o ho => ?_, rfl⟩
    have := List.filter_eq_nil_iff.1 h o ho
    cases o <;> simp [Op.known] at this ⊢
  · rw [if_neg h, lastDelegative_eq]
    right
    refine ⟨?_, rfl⟩
    obtain ⟨o, ho⟩ := List.exists_mem_of_ne_nil _ h
    have := List.mem_filter.1 ho
    exact ⟨o, this.1, by rintro rfl; exact absurd this.2 (by simp [Op.known])⟩

theorem lastDelegative_unknown {ops : List Op} (h : ∀ o ∈ ops, o = .unknown) : lastDelegative ops = none := by
  unfold lastDelegative
  have : ops.filter (fun o => decide (o = .i2i ∨ o = .ni2i ∨ o = .di2i)) = [] := by
    rw [List.filter_eq_nil_iff]
    intro o ho
    rw [h o ho]; simp
  rw [this]; rfl

theorem lastDelegative_mem {ops : List Op} {o : Op} (h : lastDelegative ops = some o) : o ∈ ops ∧ (o = .i2i ∨ o = .ni2i ∨ o = .di2i) := by
  have := List.mem_filter.1 (List.mem_of_getLast? h)
  exact ⟨this.1, of_decide_eq_true this.2⟩

/-! ## Edges -/

/-- What `verifyChain` answers. -/
theorem verifyChain_quiet (r : Reger) (s : Store) (d : Dig) (ops : List Op) (i : Id) (x : Option Id) : Quiet r (verifyChain r s d ops i x).1 := by
  unfold verifyChain
  split
  · exact .rfl'
  · split
    · exact .rfl'
    · dsimp only
      split
      · exact .rfl'
      · split
        · exact .rfl'
        · split
          · exact .rfl'
          · split
            · exact .rfl'
            · split
              · exact .rfl'
              · split
                · exact .rfl'
                · exact status_quiet _ _ _
            · exact status_quiet _ _ _

/-- What holds between stored credentials and the index of subjects. -/
structure Wf (s : Store) : Prop where
  said : ∀ d c, s.creds d = some c → c.said = d
  listed : ∀ d ∈ s.saved, ∃ c, s.creds d = some c
  subj : ∀ c x, Saved s c → c.issuee = some x → c.said ∈ s.subjs x

theorem verifyChain_some {r : Reger} {s : Store} (hw : Wf s) {d : Dig} {ops : List Op} {near : Cred} {st : VcSt} :
    (verifyChain r s d ops near.issuer near.issuee).2 = .ok (some st) ↔
      ∃ far tv, d = far.said ∧ Saved s far ∧ Allowed near far ops ∧ (r.fetch far.regid).2 = some tv ∧ r.vcState tv d = .ok (some st) := by
  constructor
  · intro h
    unfold verifyChain at h
    split at h
    · simp at h
    · rename_i hd
      have hd : d ∈ s.saved := Classical.not_not.1 hd
      split at h
      · simp at h
      · rename_i far hf
        have hs := hw.said _ _ hf
        dsimp only at h
        split at h
        · simp at h
        · rename_i hnot
          split at h
          · simp at h
          · rename_i hdi
            split at h
            · simp at h
            · rename_i he1
              have key : (status r far.regid d).2 = .ok (some st) ∧ (effective far ops = some .i2i → far.issuee = some near.issuer) := by
                split at h
                · simp at h
                · rename_i op oi x hop hoi
                  split at h
                  · simp at h
                  · split at h
                    · simp at h
                    · rename_i hne
                      have hne : near.issuer = x := Classical.not_not.1 hne
                      exact ⟨h, fun _ => by rw [hoi, hne]⟩
                · rename_i h1 h2
                  refine ⟨h, fun hop => ?_⟩
                  exfalso
                  cases ho : far.issuee with
                  | none => exact h1 hop ho
                  | some x => exact h2 x hop ho
              obtain ⟨tv, k1, k2⟩ := status_some.1 key.1
              refine ⟨far, tv, hs.symm, ⟨by rw [hs]; exact hd, by rw [hs]; exact hf⟩, ?_, k1, k2⟩
              rcases effective_cases far ops with ⟨hu, he⟩ | ⟨hu, he⟩
              · rw [he] at key hdi
                have hl := lastDelegative_unknown hu
                refine ⟨hnot, by rw [hl]; simp, by rw [hl]; simp, ?_, fun h1 => absurd (hu _ h1) (by simp)⟩
                intro _ x hx
                have := key.2 (by rw [hx]; rfl)
                rw [hx] at this; injection this
              · rw [he] at key hdi
                refine ⟨hnot, hdi, key.2, fun h1 => ?_, ?_⟩
                · obtain ⟨o, ho, hn⟩ := hu; exact absurd (h1 o ho) hn
                · intro h1
                  cases hx : far.issuee with
                  | none => exact absurd ⟨h1, .inl hx⟩ he1
                  | some x =>
                    refine ⟨x, ?_, rfl⟩
                    apply Classical.byContradiction
                    intro hne
                    exact he1 ⟨h1, .inr (.inr (by rw [hx]; exact hne))⟩
  · rintro ⟨far, tv, rfl, hs, ha, h1, h2⟩
    have hst := (status_some (r := r) (k := far.regid) (d := far.said)).2 ⟨tv, h1, h2⟩
    unfold verifyChain
    rw [if_neg (fun h => h hs.listed), hs.stored]
    dsimp only
    rw [if_neg ha.noNot]
    have hdi : effective far ops ≠ some .di2i := by
      rcases effective_cases far ops with ⟨hu, he⟩ | ⟨hu, he⟩
      · rw [he]; split <;> simp
      · rw [he]; exact ha.noDi2i
    rw [if_neg hdi]
    have he1 : ¬ (.e1e ∈ ops ∧ (far.issuee = none ∨ near.issuee = none ∨ near.issuee ≠ far.issuee)) := by
      rintro ⟨h1, h2⟩
      obtain ⟨x, g1, g2⟩ := ha.e1e h1
      rw [g1, g2] at h2; simp at h2
    rw [if_neg he1]
    have hi2i : effective far ops = some .i2i → far.issuee = some near.issuer := by
      intro he'
      rcases effective_cases far ops with ⟨hu, he⟩ | ⟨hu, he⟩
      · rw [he] at he'
        cases hx : far.issuee with
        | none => rw [hx] at he'; simp at he'
        | some x => rw [ha.dflt hu x hx]
      · exact ha.i2i (by rw [← he]; exact he')
    split
    · rename_i ho hn; rw [hi2i ho] at hn; simp at hn
    · rename_i x ho hx
      rw [hi2i ho] at hx; injection hx with hx
      have := hw.subj far x hs (by rw [hi2i ho, hx])
      rw [if_neg (List.ne_nil_of_mem this), if_neg (by simp [hx])]
      exact hst
    · exact hst

/-- Outcome of the loop over edges. -/
structure EdgesOut (env : VEnv) (late : Dig → Bool) (c : Cred) (a : Anchor) (v : VNode) (es : List Edge) (o : VOut) : Prop where
  node : o.1.t.node = v.t.node
  quiet : Quiet v.t.reg o.1.t.reg
  ok : o.2 = .ok () → o.1.s = v.s
  err : ∀ x, o.2 = .error x → o.1.s = v.s ∧ x ≠ .missingChain ∧ x ≠ .missingSchema ∧ x ≠ .missingRegistry ∨
    o.1.s = v.s.escrowMCE c a ∧ x = .missingChain ∨ o.1.s = v.s.escrowMSE c a ∧ x = .missingSchema
  iff : Wf v.s → (o.2 = .ok () ↔ ∀ e ∈ es, Fulfilled env late v.t.reg v.s c e)

theorem revoked_eq (st : VcSt) : VcSt.revoked st = st.ilk.revoked := rfl

theorem verifyChain_err {r : Reger} {s : Store} {d : Dig} {ops : List Op} {i : Id} {y : Option Id} {x : VExn}
    (h : (verifyChain r s d ops i y).2 = .error x) : x ≠ .missingChain ∧ x ≠ .missingSchema ∧ x ≠ .missingRegistry := by
  have hst : ∀ k, (status r k d).2 = .error x → x ≠ .missingChain ∧ x ≠ .missingSchema ∧ x ≠ .missingRegistry := by
    intro k h
    unfold status at h
    split at h
    · simp at h
    · split at h
      · injection h with h; subst h; simp
      · simp at h
  unfold verifyChain at h
  split at h
  · simp at h
  · split at h
    · injection h with h; subst h; simp
    · dsimp only at h
      split at h
      · injection h with h; subst h; simp
      · split at h
        · injection h with h; subst h; simp
        · split at h
          · simp at h
          · split at h
            · simp at h
            · split at h
              · simp at h
              · split at h
                · simp at h
                · exact hst _ h
            · exact hst _ h

theorem edges_out (env : VEnv) (late : Dig → Bool) (c : Cred) (a : Anchor) : ∀ (es : List Edge) (v : VNode),
    EdgesOut env late c a v es (edges env late c a v es) := by
  intro es
  induction es with
  | nil =>
    intro v
    exact ⟨rfl, .rfl', fun _ => rfl, fun x h => by simp [edges] at h, fun _ => by simp [edges]⟩
  | cons e es ih =>
    intro v
    unfold edges
    split
    · rename_i hn
      refine ⟨rfl, .rfl', by simp, fun x h => ?_, fun _ => ?_⟩
      · injection h with h; subst h; simp
      · simp only [reduceCtorEq, false_iff]
        intro h
        obtain ⟨far, h1, _⟩ := h e (by simp)
        rw [hn] at h1; simp at h1
    · rename_i d hn
      have hq := verifyChain_quiet v.t.reg v.s d e.ops c.issuer c.issuee
      have hsome := fun hw st => verifyChain_some (r := v.t.reg) (s := v.s) hw (d := d) (ops := e.ops) (near := c) (st := st)
      have herr := fun x => verifyChain_err (r := v.t.reg) (s := v.s) (d := d) (ops := e.ops) (i := c.issuer) (y := c.issuee) (x := x)
      -- An edge that is fulfilled has an answer.
      have hans : Wf v.s → (∀ x ∈ e :: es, Fulfilled env late v.t.reg v.s c x) →
          ∃ far st, d = far.said ∧ Saved v.s far ∧ (verifyChain v.t.reg v.s d e.ops c.issuer c.issuee).2 = .ok (some st) ∧ late st.said = false ∧
            st.ilk.revoked = false ∧ ∀ k, e.schema = some k → k = far.schema ∨ (k ∈ v.s.schemas ∧ env.fits k far = true) := by
        intro hw h
        obtain ⟨far, h1, h2, h3, h4, tv, st, h5, h6, h7, h8⟩ := h e (by simp)
        rw [hn] at h1; injection h1 with h1; subst h1
        exact ⟨far, st, rfl, h2, (hsome hw st).2 ⟨far, tv, rfl, h2, h3, h5, h6⟩, h7, h8, h4⟩
      generalize verifyChain v.t.reg v.s d e.ops c.issuer c.issuee = o at hq hsome herr hans
      match o, hq, hsome, herr, hans with
      | (r, .error x), hq, hsome, herr, hans =>
        refine ⟨rfl, hq, by simp, fun y hy => .inl ?_, fun hw => ?_⟩
        · injection hy with hy; subst hy
          exact ⟨rfl, herr _ rfl⟩
        · simp only [reduceCtorEq, false_iff]
          intro h
          obtain ⟨_, st, _, _, h3, _⟩ := hans hw h
          simp at h3
      | (r, .ok none), hq, hsome, herr, hans =>
        refine ⟨rfl, hq, by simp, fun y hy => .inr (.inl ?_), fun hw => ?_⟩
        · injection hy with hy; subst hy; exact ⟨rfl, rfl⟩
        · simp only [reduceCtorEq, false_iff]
          intro h
          obtain ⟨_, st, _, _, h3, _⟩ := hans hw h
          simp at h3
      | (r, .ok (some st)), hq, hsome, herr, hans =>
        have ih' := ih { v with t := { v.t with reg := r } }
        have hans' : Wf v.s → (∀ x ∈ e :: es, Fulfilled env late v.t.reg v.s c x) →
            ∃ far, d = far.said ∧ Saved v.s far ∧ late st.said = false ∧ st.ilk.revoked = false ∧
              ∀ k, e.schema = some k → k = far.schema ∨ (k ∈ v.s.schemas ∧ env.fits k far = true) := by
          intro hw h
          obtain ⟨far, st', h1, h2, h3, h4, h5, h6⟩ := hans hw h
          simp at h3; subst h3
          exact ⟨far, h1, h2, h4, h5, h6⟩
        -- The rest of the loop once the schema of the edge is fine.
        have hgo : (Wf v.s → ∃ far, d = far.said ∧ Saved v.s far ∧ ∀ k, e.schema = some k → k = far.schema ∨ (k ∈ v.s.schemas ∧ env.fits k far = true)) →
            EdgesOut env late c a v (e :: es)
            (if late st.said then ({ t := { v.t with reg := r }, s := v.s.escrowMCE c a }, .error .missingChain)
             else if VcSt.revoked st then ({ v with t := { v.t with reg := r } }, .error .revokedChain)
             else edges env late c a { v with t := { v.t with reg := r } } es) := by
          intro hsch
          split
          · rename_i hl
            refine ⟨rfl, hq, by simp, fun y hy => .inr (.inl ?_), fun hw => ?_⟩
            · injection hy with hy; subst hy; exact ⟨rfl, rfl⟩
            · simp only [reduceCtorEq, false_iff]
              intro h
              obtain ⟨_, _, _, h3, _⟩ := hans' hw h
              rw [hl] at h3; simp at h3
          · rename_i hl
            have hl : late st.said = false := by simpa using hl
            split
            · rename_i hr
              rw [revoked_eq] at hr
              refine ⟨rfl, hq, by simp, fun y hy => .inl ?_, fun hw => ?_⟩
              · injection hy with hy; subst hy; simp
              · simp only [reduceCtorEq, false_iff]
                intro h
                obtain ⟨_, _, _, _, h3, _⟩ := hans' hw h
                rw [hr] at h3; simp at h3
            · rename_i hr
              rw [revoked_eq] at hr
              refine ⟨ih'.node, hq.trans ih'.quiet, ih'.ok, ih'.err, fun hw => ?_⟩
              rw [ih'.iff hw]
              simp only [List.forall_mem_cons, hq.fulfilled]
              constructor
              · intro h
                refine ⟨?_, h⟩
                obtain ⟨far, tv, h1, h2, h3, h4, h5⟩ := (hsome hw st).1 rfl
                obtain ⟨far', g1, g2, g3⟩ := hsch hw
                have : far' = far := by
                  have := g2.stored; rw [← g1, h1, h2.stored] at this; injection this with this; exact this.symm
                subst this
                refine ⟨far', by rw [hn, h1], h2, h3, g3, tv, st, h4, by rw [← h1]; exact h5, hl, by simpa using hr⟩
              · exact fun h => h.2
        dsimp only
        cases hsc : e.schema with
        | none =>
          simp only
          refine hgo (fun hw => ?_)
          obtain ⟨far, tv, h1, h2, _⟩ := (hsome hw st).1 rfl
          exact ⟨far, h1, h2, by simp [hsc]⟩
        | some sc =>
          cases hcd : v.s.creds d with
          | none =>
            simp only
            refine ⟨rfl, hq, by simp, fun y hy => .inl ?_, fun hw => ?_⟩
            · injection hy with hy; subst hy; simp
            · simp only [reduceCtorEq, false_iff]
              intro h
              obtain ⟨far, h1, h2, _⟩ := hans' hw h
              rw [h1, h2.stored] at hcd; simp at hcd
          | some far =>
            simp only
            by_cases h1 : far.schema = sc
            · rw [if_pos h1]
              refine hgo (fun hw => ?_)
              obtain ⟨far', tv, g1, g2, _⟩ := (hsome hw st).1 rfl
              rw [g1, g2.stored] at hcd; injection hcd with hcd; subst hcd
              exact ⟨far', g1, g2, fun k hk => .inl (by rw [hsc] at hk; injection hk with hk; rw [← hk, h1])⟩
            · rw [if_neg h1]
              by_cases h2 : sc ∈ v.s.schemas
              · rw [if_neg (fun h => h h2)]
                by_cases h3 : env.fits sc far = true
                · rw [h3, if_neg (by simp)]
                  refine hgo (fun hw => ?_)
                  obtain ⟨far', tv, g1, g2, _⟩ := (hsome hw st).1 rfl
                  rw [g1, g2.stored] at hcd; injection hcd with hcd; subst hcd
                  exact ⟨far', g1, g2, fun k hk => .inr (by rw [hsc] at hk; injection hk with hk; rw [← hk]; exact ⟨h2, h3⟩)⟩
                · have h3' : env.fits sc far = false := by simpa using h3
                  rw [h3', if_pos (by simp)]
                  refine ⟨rfl, hq, by simp, fun y hy => .inr (.inl ?_), fun hw => ?_⟩
                  · injection hy with hy; subst hy; exact ⟨rfl, rfl⟩
                  · simp only [reduceCtorEq, false_iff]
                    intro h
                    obtain ⟨far', g1, g2, _, _, g5⟩ := hans' hw h
                    rw [g1, g2.stored] at hcd; injection hcd with hcd; subst hcd
                    rcases g5 sc hsc with g | ⟨_, g⟩
                    · exact h1 g.symm
                    · exact h3 g
              · rw [if_pos h2]
                refine ⟨rfl, hq, by simp, fun y hy => .inr (.inr ?_), fun hw => ?_⟩
                · injection hy with hy; subst hy; exact ⟨rfl, rfl⟩
                · simp only [reduceCtorEq, false_iff]
                  intro h
                  obtain ⟨far', g1, g2, _, _, g5⟩ := hans' hw h
                  rw [g1, g2.stored] at hcd; injection hcd with hcd; subst hcd
                  rcases g5 sc hsc with g | ⟨g, _⟩
                  · exact h1 g.symm
                  · exact h2 g

/-! ## Processing -/

/-- Outcome of `processCredential`. -/
structure ProcOut (env : VEnv) (late : Dig → Bool) (c : Cred) (a : Anchor) (v : VNode) (o : VOut) : Prop where
  node : o.1.t.node = v.t.node
  quiet : Quiet v.t.reg o.1.t.reg
  ok : o.2 = .ok () → o.1.s = v.s.save c a
  err : ∀ x, o.2 = .error x → o.1.s = v.s ∧ x ≠ .missingChain ∧ x ≠ .missingSchema ∧ x ≠ .missingRegistry ∨
    o.1.s = v.s.escrowMRE c a ∧ x = .missingRegistry ∨ o.1.s = v.s.escrowMCE c a ∧ x = .missingChain ∨
    o.1.s = v.s.escrowMSE c a ∧ x = .missingSchema
  iff : Wf v.s → (o.2 = .ok () ↔ Acceptable env late v.t.reg v.s c)

theorem status_err {r : Reger} {k : Id} {d : Dig} {x : VExn} (h : (status r k d).2 = .error x) : ∃ y, x = .tel y := by
  unfold status at h
  split at h
  · simp at h
  · split at h
    · injection h with h; exact ⟨_, h.symm⟩
    · simp at h

theorem process_out (env : VEnv) (late : Dig → Bool) (c : Cred) (a : Anchor) (v : VNode) :
    ProcOut env late c a v (v.process env late c a) := by
  unfold VNode.process
  have hq := status_quiet v.t.reg c.regid c.said
  have hsome := fun st => status_some (r := v.t.reg) (k := c.regid) (d := c.said) (st := st)
  have herr := fun x => status_err (r := v.t.reg) (k := c.regid) (d := c.said) (x := x)
  generalize status v.t.reg c.regid c.said = o at hq hsome herr
  match o, hq, hsome, herr with
  | (r, .error x), hq, hsome, herr =>
    obtain ⟨y, rfl⟩ := herr x rfl
    refine ⟨rfl, hq, by simp, fun z hz => .inl ?_, fun hw => ?_⟩
    · injection hz with hz; subst hz; simp
    · simp only [reduceCtorEq, false_iff]
      intro h
      obtain ⟨tv, st, h1, h2, _⟩ := h.status
      have := (hsome st).2 ⟨tv, h1, h2⟩
      simp at this
  | (r, .ok none), hq, hsome, herr =>
    refine ⟨rfl, hq, by simp, fun z hz => .inr (.inl ?_), fun hw => ?_⟩
    · injection hz with hz; subst hz; exact ⟨rfl, rfl⟩
    · simp only [reduceCtorEq, false_iff]
      intro h
      obtain ⟨tv, st, h1, h2, _⟩ := h.status
      have := (hsome st).2 ⟨tv, h1, h2⟩
      simp at this
  | (r, .ok (some st)), hq, hsome, herr =>
    obtain ⟨tv, g1, g2⟩ := (hsome st).1 rfl
    have hst : Current late v.t.reg c.regid c.said (fun _ => True) ↔ late st.said = false := by
      constructor
      · rintro ⟨tv', st', h1, h2, h3, _⟩
        rw [g1] at h1; injection h1 with h1; subst h1
        rw [g2] at h2; injection h2 with h2; injection h2 with h2; subst h2
        exact h3
      · intro h; exact ⟨tv, st, g1, g2, h, trivial⟩
    dsimp only
    split
    · rename_i hl
      refine ⟨rfl, hq, by simp, fun z hz => .inr (.inl ?_), fun hw => ?_⟩
      · injection hz with hz; subst hz; exact ⟨rfl, rfl⟩
      · simp only [reduceCtorEq, false_iff]
        intro h
        have := hst.1 h.status
        rw [hl] at this; simp at this
    · rename_i hl
      have hl : late st.said = false := by simpa using hl
      by_cases hk : c.schema ∈ v.s.schemas
      · rw [if_neg (fun h => h hk)]
        by_cases hf : env.fits c.schema c = true
        · rw [hf, if_neg (by simp)]
          split
          · rename_i he
            refine ⟨rfl, hq, by simp, fun z hz => .inl ?_, fun hw => ?_⟩
            · injection hz with hz; subst hz; simp
            · simp only [reduceCtorEq, false_iff]
              intro h
              obtain ⟨es, h1, _⟩ := h.edges
              rw [he] at h1; simp at h1
          · rename_i es he
            have hE := edges_out env late c a es { v with t := { v.t with reg := r } }
            generalize edges env late c a { v with t := { v.t with reg := r } } es = o' at hE
            match o', hE with
            | (v', .error x), hE =>
              refine ⟨hE.node, hq.trans hE.quiet, by simp, fun z hz => ?_, fun hw => ?_⟩
              · injection hz with hz; subst hz
                rcases hE.err x rfl with h | h | h
                · exact .inl h
                · exact .inr (.inr (.inl h))
                · exact .inr (.inr (.inr h))
              · simp only [reduceCtorEq, false_iff]
                intro h
                obtain ⟨es', h1, h2⟩ := h.edges
                rw [he] at h1; injection h1 with h1; subst h1
                have := (hE.iff hw).2 (fun e he => hq.fulfilled.2 (h2 e he))
                simp at this
            | (v', .ok ()), hE =>
              refine ⟨hE.node, hq.trans hE.quiet, fun _ => ?_, by simp, fun hw => ?_⟩
              · show v'.s.save c a = _
                rw [hE.ok rfl]
              · simp only [true_iff]
                refine ⟨hst.2 hl, hk, hf, es, he, fun e h => hq.fulfilled.1 ((hE.iff hw).1 rfl e h)⟩
        · have hf' : env.fits c.schema c = false := by simpa using hf
          rw [hf', if_pos (by simp)]
          refine ⟨rfl, hq, by simp, fun z hz => .inl ?_, fun hw => ?_⟩
          · injection hz with hz; subst hz; simp
          · simp only [reduceCtorEq, false_iff]
            intro h; exact hf h.fits
      · rw [if_pos hk]
        refine ⟨rfl, hq, by simp, fun z hz => .inr (.inr (.inr ?_)), fun hw => ?_⟩
        · injection hz with hz; subst hz; exact ⟨rfl, rfl⟩
        · simp only [reduceCtorEq, false_iff]
          intro h; exact hk h.known

end Verif.Vry
