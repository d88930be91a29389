import Verif.Tel.Spec
import Verif.Tel.Lemmas
import Verif.Kel.PropsStore

/-! # Invariant of transaction event logs -/

namespace Verif.Tel

open Verif.Kel (Id Dig Sig Couple Event Node Inp upd upd2 ioPut oset escAdd Accepted NoColl EvtU)

/-! ## Ordinals -/

/-- Ordinals run from `a` without gaps. -/
def From (a : Nat) : List (Nat × Dig) → Prop
  | [] => True
  | x :: xs => x.1 = a ∧ From (a + 1) xs

theorem telPut_old : ∀ (l : List (Nat × Dig)) (a on : Nat) (d : Dig), From a l → a ≤ on → on < a + l.length → telPut l on d = l := by
  intro l
  induction l with
  | nil => intro a on d _ _ h; simp at h; omega
  | cons x xs ih =>
    intro a on d h h1 h2
    simp only [List.length_cons] at h2
    unfold telPut
    rw [h.1]
    by_cases h3 : on = a
    · rw [if_neg (by omega), if_pos h3]
    · rw [if_neg (by omega), if_neg h3, ih (a + 1) on d h.2 (by omega) (by omega)]

theorem telPut_new : ∀ (l : List (Nat × Dig)) (a : Nat) (d : Dig), From a l → telPut l (a + l.length) d = l ++ [(a + l.length, d)] := by
  intro l
  induction l with
  | nil => intro a d _; rfl
  | cons x xs ih =>
    intro a d h
    simp only [List.length_cons]
    unfold telPut
    rw [h.1, if_neg (by omega), if_neg (by omega)]
    have := ih (a + 1) d h.2
    rw [show a + 1 + xs.length = a + (xs.length + 1) by omega] at this
    rw [this]; rfl

theorem from_append : ∀ (l : List (Nat × Dig)) (a : Nat) (d : Dig), From a l → From a (l ++ [(a + l.length, d)]) := by
  intro l
  induction l with
  | nil => intro a d _; exact ⟨rfl, trivial⟩
  | cons x xs ih =>
    intro a d h
    refine ⟨h.1, ?_⟩
    have := ih (a + 1) d h.2
    rw [show a + 1 + xs.length = a + (x :: xs).length by simp; omega] at this
    exact this

theorem from_mem : ∀ (l : List (Nat × Dig)) (a : Nat) (x : Nat × Dig), From a l → x ∈ l → a ≤ x.1 ∧ x.1 < a + l.length := by
  intro l
  induction l with
  | nil => intro a x _ h; cases h
  | cons y ys ih =>
    intro a x h hx
    rcases List.mem_cons.1 hx with rfl | hx
    · rw [h.1]; simp
    · have := ih (a + 1) x h.2 hx
      simp only [List.length_cons]; omega

theorem from_get : ∀ (l : List (Nat × Dig)) (a i : Nat), From a l → l[i]?.map (·.1) = if i < l.length then some (a + i) else none := by
  intro l
  induction l with
  | nil => intro a i _; simp
  | cons y ys ih =>
    intro a i h
    cases i with
    | zero => simp [h.1]
    | succ i =>
      have := ih (a + 1) i h.2
      simp only [List.getElem?_cons_succ, List.length_cons, this]
      by_cases hi : i < ys.length
      · rw [if_pos hi, if_pos (by omega)]; congr 1; omega
      · rw [if_neg hi, if_neg (by omega)]

theorem telGet_mem {l : List (Nat × Dig)} {on : Nat} {d : Dig} (h : telGet l on = some d) : (on, d) ∈ l := by
  unfold telGet at h
  cases hf : l.find? (fun x => decide (x.1 = on)) with
  | none => rw [hf] at h; simp at h
  | some x =>
    rw [hf] at h
    simp only [Option.map_some, Option.some.injEq] at h
    have h1 := List.mem_of_find?_eq_some hf
    have h2 := List.find?_some hf
    simp only [decide_eq_true_eq] at h2
    rw [← h, ← h2]; exact h1

/-- The log of `p` after entering an event: extended at its end, or unchanged when the number is taken. -/
theorem telPut_cases {l : List (Nat × Dig)} {on : Nat} {d : Dig} (h : From 0 l) (hn : on ≤ l.length) :
    (telPut l on d = l ∧ on < l.length) ∨ (telPut l on d = l ++ [(on, d)] ∧ on = l.length) := by
  rcases Nat.lt_or_eq_of_le hn with hn | hn
  · exact .inl ⟨telPut_old l 0 on d h (by omega) (by omega), hn⟩
  · have := telPut_new l 0 d h
    simp only [Nat.zero_add] at this
    rw [← hn] at this
    exact .inr ⟨this, hn⟩

/-! ## The invariant -/

/-- A registry state rests on stored and sealed events. -/
structure TevOk (env : TEnv) (n : Node) (r : Reger) (k : Id) (t : Tever) : Prop where
  regk : t.regk = k
  inc : ∃ v, Registered env n r k v ∧ t.pre = v.issuer ∧ t.noBackers = v.noBackers ∧
    (t.ilk = .vcp → t.serder = v ∧ t.toad = v.toad ∧ t.baks = v.baks)
  stored : r.tvts k t.serder.said = some t.serder
  sn : t.serder.sn = t.sn
  ilk : t.serder.ilk = t.ilk
  kind : t.ilk = .vcp ∨ (t.ilk = .vrt ∧ t.noBackers = false)
  num : t.ilk = .vcp → t.sn = 0
  sealed : Sealed env n t.pre t.serder
  len : t.sn < (r.tels k).length

/-- Why entry (on, d) is in the log of `p`. -/
def Entered (env : TEnv) (n : Node) (r : Reger) (p : Id) (on : Nat) (d : Dig) : Prop :=
  ∃ e k v, r.tvts p d = some e ∧ e.sn = on ∧ e.regk = some k ∧ Registered env n r k v ∧ Sealed env n v.issuer e ∧
    (∃ c, r.ancs p d = some c) ∧ (e.ilk.inceptive = true ↔ on = 0) ∧
    (e.ilk = .iss ∨ e.ilk = .rev → v.noBackers = true) ∧ (e.ilk = .bis ∨ e.ilk = .brv ∨ e.ilk = .vrt → v.noBackers = false) ∧
    (e.ilk.revoked = true → (on - 1, e.prior) ∈ r.tels p)

/-- Invariant of reached states. -/
structure TInv (env : TEnv) (U : Event → Prop) (V : TEvt → Prop) (n : Node) (r : Reger) : Prop where
  kel : Kel.Inv U n
  tvt : ∀ p d e, r.tvts p d = some e → e.pre = p ∧ e.said = d ∧ V e
  ord : ∀ p, From 0 (r.tels p)
  ent : ∀ p on d, (on, d) ∈ r.tels p → Entered env n r p on d
  tev : ∀ k t, r.tevers k = some t → TevOk env n r k t
  sts : ∀ k s, r.states k = some s → ∃ t, s = t.state ∧ TevOk env n r k t ∧ t.ilk = .vcp
  mem : ∀ k t, r.tevers k = some t → ∃ s, r.states k = some s

/-! ## Growth of the key event logs -/

theorem Sealed.mono {env : TEnv} {n n' : Node} (h : ∀ p x, Accepted n.db p x → Accepted n'.db p x) {iss : Id} {e : TEvt}
    (g : Sealed env n iss e) : Sealed env n' iss e := by
  obtain ⟨x, hx, ha⟩ := g
  exact ⟨x, h _ _ hx, ha⟩

theorem Registered.mono {env : TEnv} {n n' : Node} (h : ∀ p x, Accepted n.db p x → Accepted n'.db p x) {r r' : Reger}
    (ht : ∀ p d x, r.tvts p d = some x → r'.tvts p d = some x) {k : Id} {v : TEvt} (g : Registered env n r k v) : Registered env n' r' k v :=
  ⟨g.ilk, g.pre, ht _ _ _ g.stored, g.sealed.mono h⟩

theorem TevOk.mono {env : TEnv} {n n' : Node} (h : ∀ p x, Accepted n.db p x → Accepted n'.db p x) {r r' : Reger}
    (ht : ∀ p d x, r.tvts p d = some x → r'.tvts p d = some x) (hl : ∀ p, (r.tels p).length ≤ (r'.tels p).length) {k : Id} {t : Tever}
    (g : TevOk env n r k t) : TevOk env n' r' k t := by
  obtain ⟨v, h1, h2⟩ := g.inc
  exact ⟨g.regk, ⟨v, h1.mono h ht, h2⟩, ht _ _ _ g.stored, g.sn, g.ilk, g.kind, g.num, g.sealed.mono h, Nat.lt_of_lt_of_le g.len (hl k)⟩

theorem Entered.mono {env : TEnv} {n n' : Node} (h : ∀ p x, Accepted n.db p x → Accepted n'.db p x) {r r' : Reger}
    (ht : ∀ p d x, r.tvts p d = some x → r'.tvts p d = some x) (ha : ∀ p d x, r.ancs p d = some x → r'.ancs p d = some x)
    (hl : ∀ p x, x ∈ r.tels p → x ∈ r'.tels p) {p : Id} {on : Nat} {d : Dig} (g : Entered env n r p on d) : Entered env n' r' p on d := by
  obtain ⟨e, k, v, h1, h2, h3, h4, h5, ⟨c, h6⟩, h7, h8, h9, h10⟩ := g
  exact ⟨e, k, v, ht _ _ _ h1, h2, h3, h4.mono h ht, h5.mono h, ⟨c, ha _ _ _ h6⟩, h7, h8, h9, fun hr => hl _ _ (h10 hr)⟩

theorem TInv.kelStep {env : TEnv} {U : Event → Prop} {V : TEvt → Prop} (hnc : NoColl U) {n : Node} {r : Reger} (h : TInv env U V n r) (i : Inp)
    (hi : ∀ e, i.delivers = some e → U e) : TInv env U V (n.step env.kel i) r := by
  have hs := Kel.step_steps env.kel U n i h.kel.evt hi
  have ha : ∀ p x, Accepted n.db p x → Accepted (n.step env.kel i).db p x := fun p x hx => Kel.accepted_steps h.kel.evt hs hx
  refine ⟨h.kel.steps hnc hs, h.tvt, h.ord, ?_, ?_, ?_, h.mem⟩
  · exact fun p on d hd => (h.ent p on d hd).mono ha (fun _ _ _ h => h) (fun _ _ _ h => h) (fun _ _ h => h)
  · exact fun k t ht => (h.tev k t ht).mono ha (fun _ _ _ h => h) (fun _ => Nat.le_refl _)
  · intro k s hs
    obtain ⟨t, h1, h2, h3⟩ := h.sts k s hs
    exact ⟨t, h1, h2.mono ha (fun _ _ _ h => h) (fun _ => Nat.le_refl _), h3⟩

/-! ## Look-up of registries -/

/-- A state read back is the one written, apart from where it came from. -/
theorem reload_state {env : TEnv} {n : Node} {r : Reger} {k : Id} {t : Tever} (h : TevOk env n r k t) :
    t.state.reload r = some { t with isLocal := false } := by
  unfold TState.reload Tever.state
  simp only [h.regk, h.stored]

theorem TevOk.remote {env : TEnv} {n : Node} {r : Reger} {k : Id} {t : Tever} (h : TevOk env n r k t) :
    TevOk env n r k { t with isLocal := false } :=
  ⟨h.regk, h.inc, h.stored, h.sn, h.ilk, h.kind, h.num, h.sealed, h.len⟩

/-- A look-up changes nothing but the registries in memory. -/
theorem fetch_rest (r : Reger) (k : Id) : (r.fetch k).1 = { r with tevers := (r.fetch k).1.tevers } := by
  unfold Reger.fetch
  split
  · rfl
  · split
    · rfl
    · split <;> rfl

theorem fetch_some {r : Reger} {k : Id} {t : Tever} (h : (r.fetch k).2 = some t) : (r.fetch k).1.tevers k = some t := by
  unfold Reger.fetch at h ⊢
  split
  · rename_i t' ht; rw [ht] at h; simp at h; rw [← h]; exact ht
  · rename_i ht
    rw [ht] at h
    split
    · rename_i hs; rw [hs] at h; simp at h
    · rename_i s hs
      rw [hs] at h
      simp only at h
      split
      · rename_i hr; rw [hr] at h; simp at h
      · rename_i t' hr; rw [hr] at h; simp at h; simp [upd, h]

theorem TInv.fetch {env : TEnv} {U : Event → Prop} {V : TEvt → Prop} {n : Node} {r : Reger} (h : TInv env U V n r) (k0 : Id) :
    TInv env U V n (r.fetch k0).1 := by
  unfold Reger.fetch
  split
  · exact h
  · split
    · exact h
    · rename_i s hs
      split
      · exact h
      · rename_i t' hr
        obtain ⟨t, rfl, ht, hi⟩ := h.sts k0 s hs
        rw [reload_state ht] at hr
        injection hr with hr
        have hT : ∀ {k : Id} {t : Tever}, TevOk env n r k t → TevOk env n { r with tevers := upd r.tevers k0 (some t') } k t :=
          fun g => TevOk.mono (r := r) (r' := { r with tevers := upd r.tevers k0 (some t') }) (fun _ _ h => h) (fun _ _ _ h => h) (fun _ => Nat.le_refl _) g
        refine ⟨h.kel, h.tvt, h.ord, ?_, ?_, ?_, ?_⟩
        · exact fun p on d hd => Entered.mono (r := r) (r' := { r with tevers := upd r.tevers k0 (some t') }) (fun _ _ h => h)
            (fun _ _ _ h => h) (fun _ _ _ h => h) (fun _ _ h => h) (h.ent p on d hd)
        · intro k' t2 hk
          simp only [upd] at hk
          split at hk
          · rename_i hkk; subst hkk; injection hk with hk; subst hk; subst hr; exact hT ht.remote
          · exact hT (h.tev k' t2 hk)
        · intro k' s' hs'
          obtain ⟨t, h1, h2, h3⟩ := h.sts k' s' hs'
          exact ⟨t, h1, hT h2, h3⟩
        · intro k' t2 hk
          simp only [upd] at hk
          split at hk
          · rename_i hkk; subst hkk; exact ⟨_, hs⟩
          · exact h.mem k' t2 hk

theorem fetch_none {env : TEnv} {U : Event → Prop} {V : TEvt → Prop} {n : Node} {r : Reger} (h : TInv env U V n r) {k : Id}
    (hn : (r.fetch k).2 = none) : r.tevers k = none ∧ r.states k = none := by
  unfold Reger.fetch at hn
  split at hn
  · simp at hn
  · rename_i ht
    split at hn
    · rename_i hs; exact ⟨ht, hs⟩
    · rename_i s hs
      obtain ⟨t, rfl, ht', _⟩ := h.sts k s hs
      rw [reload_state ht'] at hn
      simp at hn

/-! ## One event -/

theorem verifyAnchor_sealed {env : TEnv} {U : Event → Prop} {n : Node} (hi : Kel.Inv U n) {iss : Id} {e : TEvt} {c : Option Couple}
    (h : verifyAnchor env n iss e c = .ok true) : Sealed env n iss e := by
  cases c with
  | none => simp [verifyAnchor] at h
  | some c =>
    obtain ⟨s, d⟩ := c
    simp only [verifyAnchor] at h
    split at h
    · simp at h
    · rename_i dig hd
      split at h
      · simp at h
      · rename_i x hx
        split at h
        · simp at h
        · split at h
          · simp at h
          · simp at h
          · rename_i p q y ha
            simp only [Except.ok.injEq, decide_eq_true_eq] at h
            obtain ⟨rfl, rfl, rfl⟩ := h
            obtain ⟨hf, _⟩ := (hi.mem iss dig s).1 (List.mem_of_getLast? hd)
            have hu := hi.evt _ _ _ hx
            exact ⟨x, ⟨by rw [hu.2.1]; exact hf, by rw [hu.2.1]; exact hx⟩, ha⟩

theorem TInv.ext {env : TEnv} {U : Event → Prop} {V : TEvt → Prop} {n : Node} {r r' : Reger} {e : TEvt} (h : TInv env U V n r) (he : V e)
    (g : Ext e r r') : TInv env U V n r' := by
  have ha : ∀ p x, Accepted n.db p x → Accepted n.db p x := fun _ _ h => h
  refine ⟨h.kel, ?_, ?_, ?_, ?_, ?_, ?_⟩
  · intro p d x hx
    rcases g.tonly p d x hx with hx | ⟨rfl, rfl, rfl⟩
    · exact h.tvt p d x hx
    · exact ⟨rfl, rfl, he⟩
  · rw [g.tels]; exact h.ord
  · intro p on d hd
    rw [g.tels] at hd
    exact (h.ent p on d hd).mono ha g.tmono g.amono (by rw [g.tels]; exact fun _ _ h => h)
  · intro k t ht
    rw [g.tevers] at ht
    exact (h.tev k t ht).mono ha g.tmono (by rw [g.tels]; exact fun _ => Nat.le_refl _)
  · intro k s hs
    rw [g.states] at hs
    obtain ⟨t, h1, h2, h3⟩ := h.sts k s hs
    exact ⟨t, h1, h2.mono ha g.tmono (by rw [g.tels]; exact fun _ => Nat.le_refl _), h3⟩
  · intro k t ht
    rw [g.tevers] at ht
    rw [g.states]; exact h.mem k t ht

/-- Entering `e` in its log extends that log at its end or leaves it alone, and the stored body is `e`. -/
theorem Logged.facts {env : TEnv} {U : Event → Prop} {V : TEvt → Prop} (hnt : NoCollT V) {n : Node} {r r' : Reger} {e : TEvt}
    (h : TInv env U V n r) (he : V e) (g : Logged e r r') (hsn : e.sn ≤ (r.tels e.pre).length) :
    r'.tvts e.pre e.said = some e ∧
    (∀ p x, x ∈ r.tels p → x ∈ r'.tels p) ∧ (∀ p, (r.tels p).length ≤ (r'.tels p).length) ∧
    (∀ p x, x ∈ r'.tels p → x ∈ r.tels p ∨ (p = e.pre ∧ x = (e.sn, e.said))) ∧ (∀ p, From 0 (r'.tels p)) ∧
    e.sn < (r'.tels e.pre).length := by
  have hst : r'.tvts e.pre e.said = some e := by
    obtain ⟨x, hx⟩ := g.stored
    rcases g.tonly _ _ x hx with h1 | ⟨_, _, rfl⟩
    · obtain ⟨_, h2, h3⟩ := h.tvt _ _ x h1
      rw [hx, hnt x e h3 he h2]
    · exact hx
  have key : ∀ p, (r'.tels p = r.tels p ∧ (p = e.pre → e.sn < (r.tels p).length)) ∨
      (p = e.pre ∧ e.sn = (r.tels p).length ∧ r'.tels p = r.tels p ++ [(e.sn, e.said)]) := by
    intro p
    rw [g.tels]
    by_cases hp : p = e.pre
    · subst hp
      rw [show upd r.tels e.pre (telPut (r.tels e.pre) e.sn e.said) e.pre = telPut (r.tels e.pre) e.sn e.said by simp [upd]]
      rcases telPut_cases (d := e.said) (h.ord e.pre) hsn with ⟨h1, h2⟩ | ⟨h1, h2⟩
      · exact .inl ⟨h1, fun _ => h2⟩
      · exact .inr ⟨rfl, h2, h1⟩
    · simp only [upd, hp, if_false]
      exact .inl ⟨trivial, fun h => h.elim⟩
  refine ⟨hst, ?_, ?_, ?_, ?_, ?_⟩
  · intro p x hx
    rcases key p with ⟨h1, _⟩ | ⟨_, _, h1⟩ <;> rw [h1]
    · exact hx
    · exact List.mem_append_left _ hx
  · intro p
    rcases key p with ⟨h1, _⟩ | ⟨_, _, h1⟩ <;> rw [h1]
    · exact Nat.le_refl _
    · simp
  · intro p x hx
    rcases key p with ⟨h1, _⟩ | ⟨h0, _, h1⟩ <;> rw [h1] at hx
    · exact .inl hx
    · rcases List.mem_append.1 hx with hx | hx
      · exact .inl hx
      · exact .inr ⟨h0, by simpa using hx⟩
  · intro p
    rcases key p with ⟨h1, _⟩ | ⟨_, h2, h1⟩ <;> rw [h1]
    · exact h.ord p
    · have := from_append (r.tels p) 0 e.said (h.ord p)
      rw [h2]; simpa using this
  · rcases key e.pre with ⟨h1, h2⟩ | ⟨_, h2, h1⟩ <;> rw [h1]
    · exact h2 rfl
    · simp; omega

/-- Logging `e` keeps the invariant apart from the registry states, given why it was entered. -/
theorem TInv.log {env : TEnv} {U : Event → Prop} {V : TEvt → Prop} (hnt : NoCollT V) {n : Node} {r r' : Reger} {e : TEvt}
    (h : TInv env U V n r) (he : V e) (g : Logged e r r') (hsn : e.sn ≤ (r.tels e.pre).length) (hn : e.ilk.inceptive = true ↔ e.sn = 0)
    {k : Id} {v : TEvt} (hk : e.regk = some k) (hv : Registered env n r' k v) (hs : Sealed env n v.issuer e)
    (hb1 : e.ilk = .iss ∨ e.ilk = .rev → v.noBackers = true) (hb2 : e.ilk = .bis ∨ e.ilk = .brv ∨ e.ilk = .vrt → v.noBackers = false)
    (hpr : e.ilk.revoked = true → (e.sn - 1, e.prior) ∈ r.tels e.pre)
    (htev : ∀ k t, r'.tevers k = some t → TevOk env n r' k t)
    (hsts : ∀ k s, r'.states k = some s → ∃ t, s = t.state ∧ TevOk env n r' k t ∧ t.ilk = .vcp)
    (hmem : ∀ k t, r'.tevers k = some t → ∃ s, r'.states k = some s) : TInv env U V n r' := by
  obtain ⟨f1, f2, f3, f4, f5, f6⟩ := g.facts hnt h he hsn
  refine ⟨h.kel, ?_, f5, ?_, htev, hsts, hmem⟩
  · intro p d x hx
    rcases g.tonly p d x hx with hx | ⟨rfl, rfl, rfl⟩
    · exact h.tvt p d x hx
    · exact ⟨rfl, rfl, he⟩
  · intro p on d hd
    rcases f4 p (on, d) hd with hd | ⟨rfl, hd2⟩
    · exact (h.ent p on d hd).mono (fun _ _ h => h) g.tmono g.amono f2
    · obtain ⟨h1, h2⟩ := Prod.mk.inj hd2
      subst h1; subst h2
      exact ⟨e, k, v, f1, rfl, hk, hv, hs, g.anchor, hn, hb1, hb2, fun hr => f2 _ _ (hpr hr)⟩

theorem Admitted.fetch {env : TEnv} {r : Reger} {lax isLocal : Bool} {e : TEvt} {k : Id} (h : Admitted env r lax isLocal e k) : e.regk = some k := h.regk

theorem TInv.acc {env : TEnv} {U : Event → Prop} {V : TEvt → Prop} (hnt : NoCollT V) {n : Node} {r0 r' : Reger} {isLocal : Bool} {e : TEvt}
    {c : Option Couple} {bigers : List Sig} {k : Id} {r : Reger} {o : Option Tever}
    (h0 : TInv env U V n r0) (he : V e) (hk : e.regk = some k)
    (hn : e.ilk.inceptive = true ↔ e.sn = 0) (hr : r = (r0.fetch k).1) (ho : o = (r0.fetch k).2) (h : Acc env n r isLocal e c bigers o r') :
    TInv env U V n r' := by
  have hi : TInv env U V n r := by rw [hr]; exact h0.fetch k
  have some_tev : ∀ t, o = some t → TevOk env n r k t := by
    intro t ht
    rw [ht] at ho
    have := fetch_some ho.symm
    rw [← hr] at this
    exact hi.tev k t this
  -- credential events
  have cred : ∀ (t : Tever), o = some t → Logged e r r' → r'.tevers = r.tevers → r'.states = r.states → e.sn = (r.tels e.pre).length →
      verifyAnchor env n t.pre e c = .ok true → (e.ilk = .iss ∨ e.ilk = .rev → t.noBackers = true) →
      (e.ilk = .bis ∨ e.ilk = .brv → t.noBackers = false) → e.ilk ≠ .vrt → e.ilk ≠ .vcp →
      (e.ilk.revoked = true → ∃ d x, telGet (r.tels e.pre) (e.sn - 1) = some d ∧ r.tvts e.pre d = some x ∧ x.said = e.prior) →
      TInv env U V n r' := by
    intro t ht hl hm hs hsn hv hb1 hb2 hi1 hi2 hp
    have htok := some_tev t ht
    obtain ⟨v, hv1, hv2, hv3, _⟩ := htok.inc
    obtain ⟨f1, f2, f3, f4, f5, f6⟩ := hl.facts hnt hi he (Nat.le_of_eq hsn)
    refine hi.log hnt he hl (Nat.le_of_eq hsn) hn hk (hv1.mono (fun _ _ h => h) hl.tmono) ?_ ?_ ?_ ?_ ?_ ?_ ?_
    · rw [← hv2]; exact verifyAnchor_sealed hi.kel hv
    · intro hh; rw [← hv3]; exact hb1 hh
    · rintro (hh | hh | hh)
      · rw [← hv3]; exact hb2 (.inl hh)
      · rw [← hv3]; exact hb2 (.inr hh)
      · exact absurd hh hi1
    · intro hr'
      obtain ⟨d, x, h1, h2, h3⟩ := hp hr'
      have := telGet_mem h1
      have h4 := (hi.tvt _ _ _ h2).2.1
      rw [← h3, h4]; exact this
    · intro k' t' ht'
      rw [hm] at ht'
      exact (hi.tev k' t' ht').mono (fun _ _ h => h) hl.tmono f3
    · intro k' s' hs'
      rw [hs] at hs'
      obtain ⟨t', h1, h2, h3⟩ := hi.sts k' s' hs'
      exact ⟨t', h1, h2.mono (fun _ _ h => h) hl.tmono f3, h3⟩
    · intro k' t' ht'
      rw [hm] at ht'; rw [hs]; exact hi.mem k' t' ht'
  cases h with
  | vcp c' bs _ hil hd ht hc hl hm hs =>
    have hke : k = e.pre := by simp [TEvt.regk, hil] at hk; exact hk.symm
    subst hke
    have h0sn : e.sn = 0 := hn.1 (by simp [hil, TIlk.inceptive])
    have hsl := verifyAnchor_sealed hi.kel hc.anchor
    obtain ⟨f1, f2, f3, f4, f5, f6⟩ := hl.facts hnt hi he (by omega)
    have hreg : Registered env n r' e.pre e := ⟨hil, rfl, f1, hsl⟩
    have hok : TevOk env n r' e.pre (newTever isLocal e) :=
      ⟨rfl, ⟨e, hreg, rfl, rfl, fun _ => ⟨rfl, rfl, rfl⟩⟩, f1, rfl, hil, .inl rfl, fun _ => h0sn, hsl, f6⟩
    refine hi.log hnt he hl (by omega) hn hk hreg hsl ?_ ?_ ?_ ?_ ?_ ?_
    · rintro (hh | hh) <;> rw [hil] at hh <;> cases hh
    · rintro (hh | hh | hh) <;> rw [hil] at hh <;> cases hh
    · intro hh; rw [hil] at hh; simp [TIlk.revoked] at hh
    · intro k' t' ht'
      rw [hm] at ht'
      simp only [upd] at ht'
      split at ht'
      · rename_i hkk; subst hkk; injection ht' with ht'; subst ht'; exact hok
      · exact (hi.tev k' t' ht').mono (fun _ _ h => h) hl.tmono f3
    · intro k' s' hs'
      rw [hs] at hs'
      simp only [upd] at hs'
      split at hs'
      · rename_i hkk; subst hkk; injection hs' with hs'; exact ⟨_, hs'.symm, hok, rfl⟩
      · obtain ⟨t', h1, h2, h3⟩ := hi.sts k' s' hs'
        exact ⟨t', h1, h2.mono (fun _ _ h => h) hl.tmono f3, h3⟩
    · intro k' t' ht'
      rw [hm] at ht'; rw [hs]
      simp only [upd] at ht' ⊢
      split
      · exact ⟨_, rfl⟩
      · rename_i hkk; rw [if_neg hkk] at ht'; exact hi.mem k' t' ht'
  | vrt t baks c' bs _ hil hnb hrot hc hl hm hs =>
    have htok := some_tev t rfl
    have hke : k = e.pre := by simp [TEvt.regk, hil] at hk; exact hk.symm
    subst hke
    have hsn : e.sn = t.sn + 1 := by
      unfold Tever.rotate at hrot
      split at hrot
      · simp at hrot
      · split at hrot
        · simp at hrot
        · rename_i h2; simpa using h2
    have hle : e.sn ≤ (r.tels e.pre).length := by have := htok.len; omega
    obtain ⟨v, hv1, hv2, hv3, _⟩ := htok.inc
    have hsl := verifyAnchor_sealed hi.kel hc.anchor
    obtain ⟨f1, f2, f3, f4, f5, f6⟩ := hl.facts hnt hi he hle
    have hv1' := hv1.mono (n' := n) (fun _ _ h => h) hl.tmono
    have hok : TevOk env n r' e.pre (rotTever t e baks) :=
      ⟨htok.regk, ⟨v, hv1', hv2, hv3, fun h => by cases h⟩, f1, rfl, hil, .inr ⟨rfl, hnb⟩, (fun h => by cases h), hsl, f6⟩
    refine hi.log hnt he hl hle hn hk hv1' ?_ ?_ ?_ ?_ ?_ ?_ ?_
    · rw [← hv2]; exact hsl
    · rintro (hh | hh) <;> rw [hil] at hh <;> cases hh
    · intro _; rw [← hv3]; exact hnb
    · intro hh; rw [hil] at hh; simp [TIlk.revoked] at hh
    · intro k' t' ht'
      rw [hm, htok.regk] at ht'
      simp only [upd] at ht'
      split at ht'
      · rename_i hkk; subst hkk; injection ht' with ht'; subst ht'; exact hok
      · exact (hi.tev k' t' ht').mono (fun _ _ h => h) hl.tmono f3
    · intro k' s' hs'
      rw [hs] at hs'
      obtain ⟨t', h1, h2, h3⟩ := hi.sts k' s' hs'
      exact ⟨t', h1, h2.mono (fun _ _ h => h) hl.tmono f3, h3⟩
    · intro k' t' ht'
      rw [hm, htok.regk] at ht'; rw [hs]
      simp only [upd] at ht'
      split at ht'
      · rename_i hkk
        subst hkk
        have hfs := fetch_some ho.symm
        rw [← hr] at hfs
        exact hi.mem _ _ hfs
      · exact hi.mem k' t' ht'
  | simple t c' _ hil hnb hcc hc hsn hp hl hm hs =>
    refine cred t rfl hl hm hs hsn hc (fun _ => hnb) ?_ ?_ ?_ ?_
    · rintro (hh | hh) <;> rcases hil with h1 | h1 <;> rw [h1] at hh <;> cases hh
    · rcases hil with h1 | h1 <;> rw [h1] <;> simp
    · rcases hil with h1 | h1 <;> rw [h1] <;> simp
    · intro hrv
      rcases hil with h1 | h1
      · rw [h1] at hrv; simp [TIlk.revoked] at hrv
      · exact hp h1
  | backed t toad baks c' bs _ hil hnb hb hc hsn hp hl hm hs =>
    refine cred t rfl hl hm hs hsn hc.anchor ?_ (fun _ => hnb) ?_ ?_ ?_
    · rintro (hh | hh) <;> rcases hil with h1 | h1 <;> rw [h1] at hh <;> cases hh
    · rcases hil with h1 | h1 <;> rw [h1] <;> simp
    · rcases hil with h1 | h1 <;> rw [h1] <;> simp
    · intro hrv
      rcases hil with h1 | h1
      · rw [h1] at hrv; simp [TIlk.revoked] at hrv
      · exact hp h1

theorem TInv.process {env : TEnv} {U : Event → Prop} {V : TEvt → Prop} (hnt : NoCollT V) {n : Node} {r : Reger} (h : TInv env U V n r)
    (lax isLocal : Bool) {e : TEvt} (he : V e) (c : Option Couple) (bigers : List Sig) :
    TInv env U V n (r.processEvent env n lax isLocal e c bigers).1 := by
  rcases processEvent_cases env n r lax isLocal e c bigers with ⟨h1, _⟩ | ⟨k, ha, h1⟩
  · rw [h1]; exact h
  · rcases h1 with ⟨_, h1⟩ | ⟨_, h1⟩
    · exact (h.fetch k).ext he h1
    · exact h.acc hnt he ha.regk ha.num rfl rfl h1

theorem TInv.of_eq {env : TEnv} {U : Event → Prop} {V : TEvt → Prop} {n : Node} {r r' : Reger} (h : TInv env U V n r) (h2 : r'.tvts = r.tvts)
    (h3 : r'.ancs = r.ancs) (h4 : r'.tels = r.tels) (h5 : r'.tevers = r.tevers ∨ r'.tevers = fun _ => none) (h6 : r'.states = r.states) :
    TInv env U V n r' := by
  have ha : ∀ p x, Accepted n.db p x → Accepted n.db p x := fun _ _ h => h
  have ht : ∀ p d x, r.tvts p d = some x → r'.tvts p d = some x := by rw [h2]; exact fun _ _ _ h => h
  have hl : ∀ p, (r.tels p).length ≤ (r'.tels p).length := by rw [h4]; exact fun _ => Nat.le_refl _
  refine ⟨h.kel, by rw [h2]; exact h.tvt, by rw [h4]; exact h.ord, ?_, ?_, ?_, ?_⟩
  · intro p on d hd
    rw [h4] at hd
    exact (h.ent p on d hd).mono ha ht (by rw [h3]; exact fun _ _ _ h => h) (by rw [h4]; exact fun _ _ h => h)
  · intro k t hk
    rcases h5 with h5 | h5 <;> rw [h5] at hk
    · exact (h.tev k t hk).mono ha ht hl
    · simp at hk
  · intro k s hs
    rw [h6] at hs
    obtain ⟨t, h1, h2, h3⟩ := h.sts k s hs
    exact ⟨t, h1, h2.mono ha ht hl, h3⟩
  · intro k t hk
    rw [h6]
    rcases h5 with h5 | h5 <;> rw [h5] at hk
    · exact h.mem k t hk
    · simp at hk

theorem TInv.stepO {env : TEnv} {U : Event → Prop} {V : TEvt → Prop} (hnt : NoCollT V) {n : Node} {r : Reger} (h : TInv env U V n r)
    (lax isLocal : Bool) (x : Id × Nat × Dig) : TInv env U V n (r.stepO env n lax isLocal x) := by
  unfold Reger.stepO
  dsimp only
  split
  · rename_i e c he hc
    have := h.process hnt lax isLocal (h.tvt _ _ _ he).2.2 (some c) (r.tibs x.1 x.2.2)
    split
    · rename_i r' hr; rw [hr] at this; exact this
    · rename_i r' o _ hr; rw [hr] at this; exact this.of_eq rfl rfl rfl (.inl rfl) rfl
  · exact h.of_eq rfl rfl rfl (.inl rfl) rfl

theorem TInv.stepA {env : TEnv} {U : Event → Prop} {V : TEvt → Prop} (hnt : NoCollT V) {n : Node} {r : Reger} (h : TInv env U V n r)
    (lax isLocal : Bool) (x : Id × Nat × Dig) : TInv env U V n (r.stepA env n lax isLocal x) := by
  unfold Reger.stepA
  dsimp only
  split
  · exact h.of_eq rfl rfl rfl (.inl rfl) rfl
  · exact h
  · rename_i e c he hc
    have := h.process hnt lax isLocal (h.tvt _ _ _ he).2.2 (some c) (r.tibs x.1 x.2.2)
    split
    · rename_i r' hr; rw [hr] at this; exact this
    · rename_i r' o _ hr; rw [hr] at this; exact this.of_eq rfl rfl rfl (.inl rfl) rfl

/-- A property of states kept by every step of a pass is kept by the pass. -/
theorem pass_induction {P : Reger → Prop} {f : Reger → Id × Nat × Dig → Reger} (hf : ∀ r x, P r → P (f r x)) :
    ∀ (l : List (Id × Nat × Dig)) (r : Reger), P r → P (l.foldl f r) := by
  intro l
  induction l with
  | nil => intro r h; exact h
  | cons x xs ih => intro r h; exact ih _ (hf r x h)

theorem TInv.step {env : TEnv} {U : Event → Prop} {V : TEvt → Prop} (hnc : NoColl U) (hnt : NoCollT V) {t : TNode} (h : TInv env U V t.node t.reg)
    (i : TInp) (hu : ∀ e, i.event = some e → U e) (hv : ∀ e, i.tevent = some e → V e) :
    TInv env U V (t.step env i).node (t.step env i).reg := by
  cases i with
  | kel i => exact h.kelStep hnc i hu
  | tel lax l e c bs => exact h.process hnt lax l (hv e rfl) c bs
  | passO lax l => exact pass_induction (P := TInv env U V t.node) (fun r x hr => hr.stepO hnt lax l x) _ _ h
  | passA lax l => exact pass_induction (P := TInv env U V t.node) (fun r x hr => hr.stepA hnt lax l x) _ _ h
  | own l => exact h.of_eq rfl rfl rfl (.inl rfl) rfl
  | restart => exact h.of_eq rfl rfl rfl (.inr rfl) rfl

theorem tinv_start (env : TEnv) (U : Event → Prop) (V : TEvt → Prop) (p g : List Id) (m : Id → Option Id) :
    TInv env U V (TNode.start p g m).node (TNode.start p g m).reg := by
  refine ⟨Kel.inv_start U p g m, ?_, ?_, ?_, ?_, ?_, ?_⟩ <;> simp [TNode.start, Reger.empty, From]

theorem TInv.run {env : TEnv} {U : Event → Prop} {V : TEvt → Prop} (hnc : NoColl U) (hnt : NoCollT V) : ∀ (h : List TInp) (t : TNode),
    TInv env U V t.node t.reg → TDelivers U V h → TInv env U V (t.run env h).node (t.run env h).reg := by
  intro h
  induction h with
  | nil => intro t ht _; exact ht
  | cons i h ih =>
    intro t ht hd
    exact ih _ (ht.step hnc hnt i (hd.1 i (by simp)) (hd.2 i (by simp))) ⟨fun j hj => hd.1 j (by simp [hj]), fun j hj => hd.2 j (by simp [hj])⟩

theorem TReached.inv {env : TEnv} {U : Event → Prop} {V : TEvt → Prop} (hnc : NoColl U) (hnt : NoCollT V) {t : TNode} (h : TReached env U V t) :
    TInv env U V t.node t.reg := by
  obtain ⟨p, g, m, h, hd, rfl⟩ := h
  exact (tinv_start env U V p g m).run hnc hnt h _ hd

end Verif.Tel
