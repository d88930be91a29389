import Verif.Vry.Lemmas

/-! # What holds of the stores of credentials in all reached states -/

namespace Verif.Vry

open Verif.Kel (Id Dig Event upd Node Accepted NoColl)
open Verif.Tel (TNode TEvt Reger Tever VcSt TInv Registered Kept NoCollT TDelivers TInp)

variable {env : VEnv} {U : Event → Prop} {V : TEvt → Prop} {W : Cred → Anchor → Prop}

/-- What stays true of a credential accepted when the credentials `l` had been. -/
structure Based (env : VEnv) (v : VNode) (l : List Dig) (c : Cred) : Prop where
  reg : ∃ w, Registered env.tel v.t.node v.t.reg c.regid w
  log : v.t.reg.tels c.said ≠ []
  known : c.schema ∈ v.s.schemas
  fits : env.fits c.schema c = true
  edges : ∃ es, c.edges = some es ∧ ∀ e ∈ es, ∃ far, e.n = some far.said ∧ far.said ∈ l ∧ v.s.creds far.said = some far ∧ Allowed c far e.ops ∧
    ∀ k, e.schema = some k → k = far.schema ∨ (k ∈ v.s.schemas ∧ env.fits k far = true)

/-- An index lists the saved credentials with some property. -/
def Index (s : Store) (ix : Id → List Dig) (f : Cred → Option Id) : Prop :=
  ∀ x d, d ∈ ix x ↔ ∃ c, Saved s c ∧ c.said = d ∧ f c = some x

/-- The invariant of the stores. -/
structure SInv (W : Cred → Anchor → Prop) (s : Store) : Prop where
  creds : ∀ d c, s.creds d = some c → c.said = d ∧ ∃ a, s.cancs d = some a ∧ W c a
  esc : ∀ d, Waiting s d → ∃ c, s.creds d = some c
  list : ∀ d ∈ s.saved, ∃ c, s.creds d = some c
  nodup : s.saved.Nodup
  issus : Index s s.issus (fun c => some c.issuer)
  schms : Index s s.schms (fun c => some c.schema)
  subjs : Index s s.subjs (fun c => c.issuee)
  once : ∀ x, (s.issus x).Nodup ∧ (s.schms x).Nodup ∧ (s.subjs x).Nodup

/-- The invariant. -/
structure VInv (env : VEnv) (U : Event → Prop) (V : TEvt → Prop) (W : Cred → Anchor → Prop) (v : VNode) : Prop where
  tel : TInv env.tel U V v.t.node v.t.reg
  store : SInv W v.s
  based : ∀ l d l', v.s.saved = l ++ d :: l' → ∃ c, v.s.creds d = some c ∧ Based env v l c

theorem SInv.wf {s : Store} (h : SInv W s) : Wf s :=
  ⟨fun d c hc => (h.creds d c hc).1, h.list, fun c x hc hx => (h.subjs x c.said).2 ⟨c, hc, rfl, hx⟩⟩

/-! ## Growth -/

/-- What every input keeps. -/
structure Grows (v v' : VNode) : Prop where
  acc : ∀ p x, Accepted v.t.node.db p x → Accepted v'.t.node.db p x
  reg : Kept v.t.reg v'.t.reg
  creds : ∀ d c, v.s.creds d = some c → v'.s.creds d = some c
  saved : v.s.saved <+: v'.s.saved
  schemas : ∀ k ∈ v.s.schemas, k ∈ v'.s.schemas

theorem Grows.rfl' {v : VNode} : Grows v v := ⟨fun _ _ h => h, .rfl', fun _ _ h => h, List.prefix_refl _, fun _ h => h⟩

theorem Grows.trans {a b c : VNode} (h : Grows a b) (g : Grows b c) : Grows a c :=
  ⟨fun p x hx => g.acc p x (h.acc p x hx), h.reg.trans g.reg, fun d c hc => g.creds d c (h.creds d c hc), h.saved.trans g.saved,
    fun k hk => g.schemas k (h.schemas k hk)⟩

theorem Based.mono {v v' : VNode} {l : List Dig} {c : Cred} (h : Based env v l c) (g : Grows v v') : Based env v' l c := by
  obtain ⟨w, hw⟩ := h.reg
  obtain ⟨es, h1, h2⟩ := h.edges
  refine ⟨⟨w, hw.mono g.acc g.reg.tvts⟩, ?_, g.schemas _ h.known, h.fits, es, h1, ?_⟩
  · intro hn
    have := g.reg.tels c.said
    rw [hn] at this
    exact h.log (List.prefix_nil.1 this)
  · intro e he
    obtain ⟨far, k1, k2, k3, k4, k5⟩ := h2 e he
    refine ⟨far, k1, k2, g.creds _ _ k3, k4, fun k hk => ?_⟩
    rcases k5 k hk with k6 | ⟨k6, k7⟩
    · exact .inl k6
    · exact .inr ⟨g.schemas _ k6, k7⟩

/-! ## Changes of the stores -/

theorem mem_addDig {l : List Dig} {d x : Dig} : x ∈ addDig l d ↔ x ∈ l ∨ x = d := by
  unfold addDig
  split
  · rename_i h; constructor
    · exact .inl
    · rintro (h' | rfl) <;> first | exact h' | exact h
  · simp

theorem nodup_addDig {l : List Dig} (h : l.Nodup) (d : Dig) : (addDig l d).Nodup := by
  unfold addDig
  split
  · exact h
  · rename_i hd
    rw [List.nodup_append]
    exact ⟨h, by simp, by intro a ha b hb; simp at hb; subst hb; rintro rfl; exact hd ha⟩

theorem logCred_creds (s : Store) (c : Cred) (a : Anchor) {d : Dig} {x : Cred} (h : s.creds d = some x) : (s.logCred c a).creds d = some x := by
  unfold Store.logCred
  dsimp only
  cases hn : s.creds c.said with
  | none =>
    simp only [upd]
    split
    · rename_i hd; subst hd; rw [h] at hn; simp at hn
    · exact h
  | some _ => exact h

theorem logCred_new (hnc : NoCollC W) {s : Store} (h : SInv W s) {c : Cred} {a : Anchor} (hc : W c a) : (s.logCred c a).creds c.said = some c := by
  unfold Store.logCred
  dsimp only
  cases hx : s.creds c.said with
  | none => simp [upd]
  | some x =>
    simp only
    obtain ⟨h1, b, _, h2⟩ := h.creds _ _ hx
    rw [hx, hnc x c b a h2 hc h1]

theorem logCred_inv (hnc : NoCollC W) {s : Store} (h : SInv W s) {c : Cred} {a : Anchor} (hc : W c a) {d : Dig} {x : Cred}
    (hx : (s.logCred c a).creds d = some x) : x.said = d ∧ ∃ b, (s.logCred c a).cancs d = some b ∧ W x b := by
  by_cases hd : d = c.said
  · subst hd
    rw [logCred_new hnc h hc] at hx; injection hx with hx; subst hx
    exact ⟨rfl, a, by simp [Store.logCred, upd], hc⟩
  · have hx' : s.creds d = some x := by
      unfold Store.logCred at hx
      dsimp only at hx
      cases hn : s.creds c.said with
      | none => rw [hn] at hx; simpa only [upd, if_neg hd] using hx
      | some _ => rw [hn] at hx; exact hx
    obtain ⟨h1, b, h2, h3⟩ := h.creds d x hx'
    exact ⟨h1, b, by simp [Store.logCred, upd, hd, h2], h3⟩

/-- Saved credentials are the same after storing one. -/
theorem saved_logCred {s : Store} (h : SInv W s) (c : Cred) (a : Anchor) (x : Cred) :
    (x.said ∈ s.saved ∧ (s.logCred c a).creds x.said = some x) ↔ Saved s x := by
  constructor
  · rintro ⟨h1, h2⟩
    obtain ⟨y, hy⟩ := h.list _ h1
    have := logCred_creds s c a hy
    rw [h2] at this; injection this with this; subst this
    exact ⟨h1, hy⟩
  · exact fun hs => ⟨hs.listed, logCred_creds s c a hs.stored⟩

/-- Storing a credential and noting it in escrows. -/
theorem SInv.escrow (hnc : NoCollC W) {s s' : Store} (h : SInv W s) {c : Cred} {a : Anchor} (hc : W c a) (h1 : s'.creds = (s.logCred c a).creds)
    (h2 : s'.cancs = (s.logCred c a).cancs) (h3 : s'.saved = s.saved) (h4 : s'.issus = s.issus) (h5 : s'.subjs = s.subjs) (h6 : s'.schms = s.schms)
    (h7 : ∀ d, Waiting s' d → Waiting s d ∨ d = c.said) : SInv W s' := by
  have hS : ∀ x, Saved s' x ↔ Saved s x := by
    intro x
    rw [← saved_logCred h c a x]
    exact ⟨fun g => ⟨by rw [← h3]; exact g.listed, by rw [← h1]; exact g.stored⟩, fun g => ⟨by rw [h3]; exact g.1, by rw [h1]; exact g.2⟩⟩
  refine ⟨?_, ?_, ?_, by rw [h3]; exact h.nodup, ?_, ?_, ?_, by rw [h4, h5, h6]; exact h.once⟩
  · intro d x hx; rw [h1] at hx; rw [h2]; exact logCred_inv hnc h hc hx
  · intro d hd
    rw [h1]
    rcases h7 d hd with hd | rfl
    · obtain ⟨x, hx⟩ := h.esc d hd; exact ⟨x, logCred_creds s c a hx⟩
    · exact ⟨c, logCred_new hnc h hc⟩
  · intro d hd
    rw [h3] at hd
    obtain ⟨x, hx⟩ := h.list d hd
    exact ⟨x, by rw [h1]; exact logCred_creds s c a hx⟩
  · unfold Index; simp only [hS]; rw [h4]; exact h.issus
  · unfold Index; simp only [hS]; rw [h6]; exact h.schms
  · unfold Index; simp only [hS]; rw [h5]; exact h.subjs

theorem SInv.mre (hnc : NoCollC W) {s : Store} (h : SInv W s) {c : Cred} {a : Anchor} (hc : W c a) : SInv W (s.escrowMRE c a) :=
  h.escrow hnc hc rfl rfl rfl rfl rfl rfl (fun d hd => by
    rcases hd with hd | hd | hd
    · rcases mem_addDig.1 hd with hd | hd <;> first | exact .inl (.inl hd) | exact .inr hd
    · exact .inl (.inr (.inl hd))
    · exact .inl (.inr (.inr hd)))

theorem SInv.mce (hnc : NoCollC W) {s : Store} (h : SInv W s) {c : Cred} {a : Anchor} (hc : W c a) : SInv W (s.escrowMCE c a) :=
  h.escrow hnc hc rfl rfl rfl rfl rfl rfl (fun d hd => by
    rcases hd with hd | hd | hd
    · exact .inl (.inl hd)
    · rcases mem_addDig.1 hd with hd | hd <;> first | exact .inl (.inr (.inl hd)) | exact .inr hd
    · exact .inl (.inr (.inr hd)))

theorem SInv.mse (hnc : NoCollC W) {s : Store} (h : SInv W s) {c : Cred} {a : Anchor} (hc : W c a) : SInv W (s.escrowMSE c a) :=
  h.escrow hnc hc rfl rfl rfl rfl rfl rfl (fun d hd => by
    rcases hd with hd | hd | hd
    · exact .inl (.inl hd)
    · exact .inl (.inr (.inl hd))
    · rcases mem_addDig.1 hd with hd | hd <;> first | exact .inl (.inr (.inr hd)) | exact .inr hd)

/-- An index after adding a credential under `f c`. -/
theorem index_save {s s' : Store} {ix ix' : Id → List Dig} {f : Cred → Option Id} {c : Cred} (h : Index s ix f)
    (hS : ∀ x, Saved s' x ↔ Saved s x ∨ x = c) (hix : ∀ x d, d ∈ ix' x ↔ d ∈ ix x ∨ (d = c.said ∧ f c = some x)) : Index s' ix' f := by
  intro x d
  rw [hix, h x d]
  constructor
  · rintro (⟨y, h1, h2⟩ | ⟨rfl, h2⟩)
    · exact ⟨y, (hS y).2 (.inl h1), h2⟩
    · exact ⟨c, (hS c).2 (.inr rfl), rfl, h2⟩
  · rintro ⟨y, h1, h2, h3⟩
    rcases (hS y).1 h1 with h1 | rfl
    · exact .inl ⟨y, h1, h2, h3⟩
    · exact .inr ⟨h2.symm, h3⟩

theorem saved_save (hnc : NoCollC W) {s : Store} (h : SInv W s) {c : Cred} {a : Anchor} (hc : W c a) (x : Cred) :
    Saved (s.save c a) x ↔ Saved s x ∨ x = c := by
  have hst : (s.save c a).creds = (s.logCred c a).creds := rfl
  have hsv : (s.save c a).saved = addDig s.saved c.said := rfl
  constructor
  · rintro ⟨h1, h2⟩
    rw [hst] at h2; rw [hsv] at h1
    rcases mem_addDig.1 h1 with h1 | h1
    · exact .inl ((saved_logCred h c a x).1 ⟨h1, h2⟩)
    · rw [h1, logCred_new hnc h hc] at h2; injection h2 with h2; exact .inr h2.symm
  · rintro (h1 | rfl)
    · have := (saved_logCred h c a x).2 h1
      exact ⟨mem_addDig.2 (.inl this.1), this.2⟩
    · exact ⟨mem_addDig.2 (.inr rfl), logCred_new hnc h hc⟩

theorem mem_upd_add (ix : Id → List Dig) (k : Id) (c : Dig) (x : Id) (d : Dig) :
    d ∈ upd ix k (addDig (ix k) c) x ↔ d ∈ ix x ∨ (d = c ∧ k = x) := by
  simp only [upd]
  split
  · rename_i h; subst h; rw [mem_addDig]; simp
  · rename_i h; constructor
    · exact .inl
    · rintro (h' | ⟨_, h'⟩) <;> first | exact h' | exact absurd h'.symm h

theorem nodup_upd_add {ix : Id → List Dig} (h : ∀ x, (ix x).Nodup) (k : Id) (c : Dig) (x : Id) : (upd ix k (addDig (ix k) c) x).Nodup := by
  simp only [upd]
  split
  · exact nodup_addDig (h k) c
  · exact h x

theorem SInv.save (hnc : NoCollC W) {s : Store} (h : SInv W s) {c : Cred} {a : Anchor} (hc : W c a) : SInv W (s.save c a) := by
  have hS := saved_save hnc h hc
  have hst : (s.save c a).creds = (s.logCred c a).creds := rfl
  refine ⟨?_, ?_, ?_, nodup_addDig h.nodup _, ?_, ?_, ?_, ?_⟩
  · intro d x hx; exact logCred_inv hnc h hc hx
  · intro d hd
    obtain ⟨x, hx⟩ := h.esc d hd; exact ⟨x, logCred_creds s c a hx⟩
  · intro d hd
    rcases mem_addDig.1 hd with hd | rfl
    · obtain ⟨x, hx⟩ := h.list d hd; exact ⟨x, logCred_creds s c a hx⟩
    · exact ⟨c, logCred_new hnc h hc⟩
  · refine index_save h.issus hS (fun x d => ?_)
    have := mem_upd_add s.issus c.issuer c.said x d
    simp only [Option.some.injEq]
    exact this
  · refine index_save h.schms hS (fun x d => ?_)
    have := mem_upd_add s.schms c.schema c.said x d
    simp only [Option.some.injEq]
    exact this
  · refine index_save h.subjs hS (fun x d => ?_)
    show d ∈ (match c.issuee with
      | none => s.subjs
      | some y => upd s.subjs y (addDig (s.subjs y) c.said)) x ↔ _
    cases c.issuee with
    | none => simp
    | some y =>
      have := mem_upd_add s.subjs y c.said x d
      simpa using this
  · intro x
    refine ⟨nodup_upd_add (fun x => (h.once x).1) _ _ x, nodup_upd_add (fun x => (h.once x).2.1) _ _ x, ?_⟩
    show ((match c.issuee with
      | none => s.subjs
      | some y => upd s.subjs y (addDig (s.subjs y) c.said)) x).Nodup
    cases c.issuee with
    | none => exact (h.once x).2.2
    | some y => exact nodup_upd_add (fun x => (h.once x).2.2) _ _ x

/-! ## Processing -/

theorem Quiet.kept {r r' : Reger} (h : Quiet r r') : Kept r r' := by
  rw [h.rest]; exact .of_eq rfl rfl rfl

theorem Quiet.tinv {n : Node} {r r' : Reger} (h : Quiet r r') (hi : TInv env.tel U V n r) : TInv env.tel U V n r' :=
  h.closed (TInv env.tel U V n) (fun _ k hr => hr.fetch k) hi

theorem prefix_addDig (l : List Dig) (d : Dig) : l <+: addDig l d := by
  unfold addDig
  split
  · exact List.prefix_refl _
  · exact List.prefix_append _ _

/-- Processing keeps what there is. -/
theorem process_grows (late : Dig → Bool) (c : Cred) (a : Anchor) (v : VNode) : Grows v (v.process env late c a).1 := by
  have ho := process_out env late c a v
  generalize v.process env late c a = o at ho
  obtain ⟨v', x⟩ := o
  have hs : ∀ d y, v.s.creds d = some y → v'.s.creds d = some y := by
    intro d y hy
    cases x with
    | ok => rw [show v'.s = v.s.save c a from ho.ok rfl]; exact logCred_creds v.s c a hy
    | error x =>
      rcases ho.err x rfl with h | h | h | h
      · rw [h.1]; exact hy
      all_goals (rw [h.1]; exact logCred_creds v.s c a hy)
  have h2 : v.s.saved <+: v'.s.saved ∧ v'.s.schemas = v.s.schemas := by
    cases x with
    | ok => rw [show v'.s = v.s.save c a from ho.ok rfl]; exact ⟨prefix_addDig _ _, rfl⟩
    | error x =>
      rcases ho.err x rfl with h | h | h | h <;> (rw [h.1]; exact ⟨List.prefix_refl _, rfl⟩)
  exact ⟨by rw [ho.node]; exact fun _ _ h => h, ho.quiet.kept, hs, h2.1, by rw [h2.2]; exact fun _ h => h⟩

theorem split_append {α : Type} {l l' m : List α} {d x : α} (h : l ++ d :: l' = m ++ [x]) : (∃ k, m = l ++ d :: k) ∨ (l = m ∧ d = x) := by
  rcases List.eq_nil_or_concat l' with rfl | ⟨k, y, rfl⟩
  · right
    have := List.append_inj' h rfl
    exact ⟨this.1, by simpa using this.2⟩
  · left
    refine ⟨k, ?_⟩
    have : (l ++ d :: k) ++ [y] = m ++ [x] := by rw [← h]; simp [List.concat_eq_append]
    exact (List.append_inj' this rfl).1.symm

/-- Any change that keeps the list of saved credentials. -/
theorem VInv.of_grows {v v' : VNode} (h : VInv env U V W v) (g : Grows v v') (ht : TInv env.tel U V v'.t.node v'.t.reg) (hs : SInv W v'.s)
    (hl : v'.s.saved = v.s.saved) : VInv env U V W v' := by
  refine ⟨ht, hs, ?_⟩
  intro l d l' hd
  rw [hl] at hd
  obtain ⟨c, h1, h2⟩ := h.based l d l' hd
  exact ⟨c, g.creds d c h1, h2.mono g⟩

theorem acceptable_based {late : Dig → Bool} {v : VNode} (hi : TInv env.tel U V v.t.node v.t.reg) {c : Cred} (h : Acceptable env late v.t.reg v.s c) :
    Based env v v.s.saved c := by
  obtain ⟨tv, st, h1, h2, _⟩ := h.status
  refine ⟨?_, ?_, h.known, h.fits, ?_⟩
  · have h3 := (hi.fetch c.regid).tev c.regid tv (Tel.fetch_some h1)
    obtain ⟨w, hw, _⟩ := h3.inc
    have hT : (v.t.reg.fetch c.regid).1.tvts = v.t.reg.tvts := by rw [Tel.fetch_rest]
    exact ⟨w, hw.ilk, hw.pre, by rw [← hT]; exact hw.stored, hw.sealed⟩
  · intro hn
    unfold Reger.vcState at h2
    rw [hn] at h2
    simp at h2
  · obtain ⟨es, h3, h4⟩ := h.edges
    refine ⟨es, h3, fun e he => ?_⟩
    obtain ⟨far, g1, g2, g3, g4, _⟩ := h4 e he
    exact ⟨far, g1, g2.listed, g2.stored, g3, g4⟩

theorem VInv.process (hnc : NoCollC W) {v : VNode} (h : VInv env U V W v) (late : Dig → Bool) {c : Cred} {a : Anchor} (hc : W c a) :
    VInv env U V W (v.process env late c a).1 := by
  have hg := process_grows (env := env) late c a v
  have ho := process_out env late c a v
  generalize v.process env late c a = o at ho hg
  obtain ⟨v', x⟩ := o
  have ht : TInv env.tel U V v'.t.node v'.t.reg := by
    rw [ho.node]; exact ho.quiet.tinv h.tel
  cases x with
  | error x =>
    rcases ho.err x rfl with k | k | k | k
    · exact h.of_grows hg ht (by rw [k.1]; exact h.store) (by rw [k.1])
    · exact h.of_grows hg ht (by rw [k.1]; exact h.store.mre hnc hc) (by rw [k.1]; rfl)
    · exact h.of_grows hg ht (by rw [k.1]; exact h.store.mce hnc hc) (by rw [k.1]; rfl)
    · exact h.of_grows hg ht (by rw [k.1]; exact h.store.mse hnc hc) (by rw [k.1]; rfl)
  | ok =>
    have hs : v'.s = v.s.save c a := ho.ok rfl
    have hacc := (ho.iff h.store.wf).1 rfl
    refine ⟨ht, by rw [hs]; exact h.store.save hnc hc, ?_⟩
    intro l d l' hd
    rw [hs] at hd
    change addDig v.s.saved c.said = _ at hd
    unfold addDig at hd
    split at hd
    · obtain ⟨x, h1, h2⟩ := h.based l d l' hd
      exact ⟨x, hg.creds d x h1, h2.mono hg⟩
    · rcases split_append hd.symm with ⟨k, hk⟩ | ⟨rfl, rfl⟩
      · obtain ⟨x, h1, h2⟩ := h.based l d k hk
        exact ⟨x, hg.creds d x h1, h2.mono hg⟩
      · refine ⟨c, ?_, (acceptable_based h.tel hacc).mono hg⟩
        rw [hs]; exact logCred_new hnc h.store hc

theorem drop_waiting {s : Store} {k : Esc} {d x : Dig} (h : Waiting (s.drop k d) x) : Waiting s x := by
  unfold Waiting at *
  cases k <;> simp only [Store.drop, List.mem_filter] at h
  · rcases h with h | h | h <;> first | exact .inl h | exact .inr (.inl h.1) | exact .inr (.inr h)
  · rcases h with h | h | h <;> first | exact .inl h | exact .inr (.inl h) | exact .inr (.inr h.1)
  · rcases h with h | h | h <;> first | exact .inl h.1 | exact .inr (.inl h) | exact .inr (.inr h)

theorem drop_same (s : Store) (k : Esc) (d : Dig) :
    (s.drop k d).creds = s.creds ∧ (s.drop k d).cancs = s.cancs ∧ (s.drop k d).saved = s.saved ∧ (s.drop k d).issus = s.issus ∧
    (s.drop k d).subjs = s.subjs ∧ (s.drop k d).schms = s.schms ∧ (s.drop k d).schemas = s.schemas := by
  cases k <;> exact ⟨rfl, rfl, rfl, rfl, rfl, rfl, rfl⟩

theorem drop_grows (v : VNode) (k : Esc) (d : Dig) : Grows v { v with s := v.s.drop k d } := by
  obtain ⟨h1, _, h3, _, _, _, h7⟩ := drop_same v.s k d
  exact ⟨fun _ _ h => h, .rfl', by show ∀ d' c, _ → (v.s.drop k d).creds d' = _; rw [h1]; exact fun _ _ h => h,
    by show _ <+: (v.s.drop k d).saved; rw [h3]; exact List.prefix_refl _,
    by show ∀ _ ∈ _, _ ∈ (v.s.drop k d).schemas; rw [h7]; exact fun _ h => h⟩

theorem SInv.drop {s : Store} (h : SInv W s) (k : Esc) (d : Dig) : SInv W (s.drop k d) := by
  obtain ⟨h1, h2, h3, h4, h5, h6, h7⟩ := drop_same s k d
  have hS : ∀ x, Saved (s.drop k d) x ↔ Saved s x := fun x =>
    ⟨fun g => ⟨by rw [← h3]; exact g.listed, by rw [← h1]; exact g.stored⟩, fun g => ⟨by rw [h3]; exact g.listed, by rw [h1]; exact g.stored⟩⟩
  refine ⟨by rw [h1, h2]; exact h.creds, ?_, by rw [h1, h3]; exact h.list, by rw [h3]; exact h.nodup, ?_, ?_, ?_, by rw [h4, h5, h6]; exact h.once⟩
  · intro x hx; rw [h1]; exact h.esc x (drop_waiting hx)
  · unfold Index; simp only [hS]; rw [h4]; exact h.issus
  · unfold Index; simp only [hS]; rw [h6]; exact h.schms
  · unfold Index; simp only [hS]; rw [h5]; exact h.subjs

theorem VInv.drop {v : VNode} (h : VInv env U V W v) (k : Esc) (d : Dig) : VInv env U V W { v with s := v.s.drop k d } :=
  h.of_grows (drop_grows v k d) h.tel (h.store.drop k d) (drop_same v.s k d).2.2.1

/-- An entry of a pass: nothing is processed, or the stored credential with its stored anchor is. -/
theorem stepE_cases (late timeout : Dig → Bool) (k : Esc) (v : VNode) (d : Dig) :
    (v.stepE env late timeout k d = v ∧ (v.s.creds d = none ∨ v.s.cancs d = none)) ∨
    (timeout d = true ∧ v.stepE env late timeout k d = { v with s := v.s.drop k d }) ∨
    ∃ c a, v.s.creds d = some c ∧ v.s.cancs d = some a ∧ timeout d = false ∧
      (((v.process env late c a).2 = .error k.etype ∧ v.stepE env late timeout k d = (v.process env late c a).1) ∨
       ((v.process env late c a).2 ≠ .error k.etype ∧
          v.stepE env late timeout k d = { (v.process env late c a).1 with s := (v.process env late c a).1.s.drop k d })) := by
  unfold VNode.stepE
  cases hc : v.s.creds d with
  | none => exact .inl ⟨rfl, .inl rfl⟩
  | some c =>
    cases ha : v.s.cancs d with
    | none => exact .inl ⟨rfl, .inr rfl⟩
    | some a =>
      simp only
      cases ht : timeout d with
      | true => exact .inr (.inl ⟨rfl, by simp⟩)
      | false =>
        refine .inr (.inr ⟨c, a, rfl, rfl, rfl, ?_⟩)
        simp only [Bool.false_eq_true, if_false]
        generalize v.process env late c a = o
        match o with
        | (v', .ok ()) => exact .inr ⟨by simp, rfl⟩
        | (v', .error x) =>
          by_cases hx : x = k.etype
          · subst hx; exact .inl ⟨rfl, by simp⟩
          · exact .inr ⟨fun h => hx (by injection h), by simp [hx]⟩

theorem stepE_inv (hnc : NoCollC W) (late timeout : Dig → Bool) (k : Esc) {v : VNode} (h : VInv env U V W v) (d : Dig) :
    VInv env U V W (v.stepE env late timeout k d) ∧ Grows v (v.stepE env late timeout k d) := by
  rcases stepE_cases (env := env) late timeout k v d with ⟨h1, _⟩ | ⟨_, h1⟩ | ⟨c, a, h1, h2, _, h3⟩
  · rw [h1]; exact ⟨h, .rfl'⟩
  · rw [h1]; exact ⟨h.drop k d, drop_grows v k d⟩
  · have hc : W c a := by
      obtain ⟨_, b, h4, h5⟩ := h.store.creds d c h1
      rw [h2] at h4; injection h4 with h4; subst h4; exact h5
    have g1 := h.process hnc late hc
    have g2 := process_grows (env := env) late c a v
    rcases h3 with ⟨_, h3⟩ | ⟨_, h3⟩
    · rw [h3]; exact ⟨g1, g2⟩
    · rw [h3]; exact ⟨g1.drop k d, g2.trans (drop_grows _ k d)⟩

theorem fold_inv (hnc : NoCollC W) (late timeout : Dig → Bool) (k : Esc) : ∀ (l : List Dig) {v : VNode}, VInv env U V W v →
    VInv env U V W (l.foldl (fun v d => v.stepE env late timeout k d) v) ∧ Grows v (l.foldl (fun v d => v.stepE env late timeout k d) v) := by
  intro l
  induction l with
  | nil => intro v h; exact ⟨h, .rfl'⟩
  | cons d l ih =>
    intro v h
    have h1 := stepE_inv hnc late timeout k h d
    have h2 := ih h1.1
    exact ⟨h2.1, h1.2.trans h2.2⟩

theorem pass_inv (hnc : NoCollC W) (late timeout : Dig → Bool) {v : VNode} (h : VInv env U V W v) :
    VInv env U V W (v.pass env late timeout) ∧ Grows v (v.pass env late timeout) := by
  have h1 := fold_inv hnc late timeout .mce (v.s.esc .mce) h
  have h2 := fold_inv hnc late timeout .mse ((v.passE env late timeout .mce).s.esc .mse) h1.1
  have h3 := fold_inv hnc late timeout .mre (((v.passE env late timeout .mce).passE env late timeout .mse).s.esc .mre) h2.1
  exact ⟨h3.1, h1.2.trans (h2.2.trans h3.2)⟩

/-! ## Steps and runs -/

theorem VInv.step (hnk : NoColl U) (hnt : NoCollT V) (hnc : NoCollC W) {v : VNode} (h : VInv env U V W v) (i : VInp)
    (ht : ∀ j, i.inner = some j → (∀ e, j.event = some e → U e) ∧ (∀ e, j.tevent = some e → V e)) (hc : ∀ c a, i.cred? = some (c, a) → W c a) :
    VInv env U V W (v.step env i) ∧ Grows v (v.step env i) := by
  cases i with
  | tel j =>
    obtain ⟨h1, h2⟩ := ht j rfl
    have hk := Tel.kept_step hnt h.tel j h2
    have ha : ∀ p x, Accepted v.t.node.db p x → Accepted (v.t.step env.tel j).node.db p x := by
      cases j with
      | kel i =>
        exact fun p x hx => Kel.accepted_steps h.tel.kel.evt (Kel.step_steps env.tel.kel U v.t.node i h.tel.kel.evt h1) hx
      | _ => exact fun _ _ h => h
    have hg : Grows v (v.step env (.tel j)) := ⟨ha, hk, fun _ _ h => h, List.prefix_refl _, fun _ h => h⟩
    exact ⟨h.of_grows hg (h.tel.step hnk hnt j h1 h2) h.store rfl, hg⟩
  | cred late c a => exact ⟨h.process hnc late (hc c a rfl), process_grows late c a v⟩
  | schema k =>
    have hg : Grows v (v.step env (.schema k)) :=
      ⟨fun _ _ h => h, .rfl', fun _ _ h => h, List.prefix_refl _, fun x hx => mem_addDig.2 (.inl hx)⟩
    have hS : ∀ x, Saved (v.step env (.schema k)).s x ↔ Saved v.s x := fun x => ⟨fun g => ⟨g.listed, g.stored⟩, fun g => ⟨g.listed, g.stored⟩⟩
    refine ⟨h.of_grows hg h.tel ⟨h.store.creds, h.store.esc, h.store.list, h.store.nodup, ?_, ?_, ?_, h.store.once⟩ rfl, hg⟩
    · unfold Index; simp only [hS]; exact h.store.issus
    · unfold Index; simp only [hS]; exact h.store.schms
    · unfold Index; simp only [hS]; exact h.store.subjs
  | pass late timeout => exact pass_inv hnc late timeout h

theorem VDelivers.cons {i : VInp} {h : List VInp} (hd : VDelivers U V W (i :: h)) :
    ((∀ j, i.inner = some j → (∀ e, j.event = some e → U e) ∧ (∀ e, j.tevent = some e → V e)) ∧ ∀ c a, i.cred? = some (c, a) → W c a) ∧
    VDelivers U V W h := by
  refine ⟨⟨fun j hj => ⟨fun e he => hd.inner.1 j ?_ e he, fun e he => hd.inner.2 j ?_ e he⟩, fun c a hc => hd.creds i (by simp) c a hc⟩,
    ⟨fun j hj => hd.inner.1 j ?_, fun j hj => hd.inner.2 j ?_⟩, fun j hj => hd.creds j (by simp [hj])⟩
  all_goals
    simp only [List.filterMap_cons]
    first
      | (rw [hj]; simp; done)
      | (split <;> simp [hj])

theorem VInv.run (hnk : NoColl U) (hnt : NoCollT V) (hnc : NoCollC W) : ∀ (h : List VInp) {v : VNode}, VInv env U V W v → VDelivers U V W h →
    VInv env U V W (v.run env h) ∧ Grows v (v.run env h) := by
  intro h
  induction h with
  | nil => intro v hv _; exact ⟨hv, .rfl'⟩
  | cons i h ih =>
    intro v hv hd
    obtain ⟨⟨h1, h2⟩, h3⟩ := hd.cons
    have g1 := hv.step hnk hnt hnc i h1 h2
    have g2 := ih g1.1 h3
    exact ⟨g2.1, g1.2.trans g2.2⟩

theorem vinv_start (p g : List Id) (m : Id → Option Id) : VInv env U V W (VNode.start p g m) := by
  refine ⟨Tel.tinv_start env.tel U V p g m, ⟨?_, ?_, ?_, ?_, ?_, ?_, ?_, ?_⟩, ?_⟩
  · intro d c h; simp [VNode.start, Store.empty] at h
  · intro d h; simp [VNode.start, Store.empty, Waiting] at h
  · intro d h; simp [VNode.start, Store.empty] at h
  · simp [VNode.start, Store.empty]
  · intro x d
    simp only [VNode.start, Store.empty, List.not_mem_nil, false_iff]
    rintro ⟨c, h, _⟩; exact absurd h.listed (by simp)
  · intro x d
    simp only [VNode.start, Store.empty, List.not_mem_nil, false_iff]
    rintro ⟨c, h, _⟩; exact absurd h.listed (by simp)
  · intro x d
    simp only [VNode.start, Store.empty, List.not_mem_nil, false_iff]
    rintro ⟨c, h, _⟩; exact absurd h.listed (by simp)
  · intro x; simp [VNode.start, Store.empty]
  · intro l d l' h; simp [VNode.start, Store.empty] at h

theorem VReached.inv (hnk : NoColl U) (hnt : NoCollT V) (hnc : NoCollC W) {v : VNode} (h : VReached env U V W v) : VInv env U V W v := by
  obtain ⟨p, g, m, h, hd, rfl⟩ := h
  exact (VInv.run hnk hnt hnc h (vinv_start p g m) hd).1

end Verif.Vry
