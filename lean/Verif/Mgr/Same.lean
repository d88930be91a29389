import Verif.Mgr.PropsTold

/-!
# What calls leave alone: the stores of identifiers they are not about
-/

namespace Verif.Mgr

open Verif.Kel (upd)

/-- The call is about a taken identifier. -/
def Call.on (p : Nat) : Call → Prop
  | .rotate q _ | .replay q _ _ | .move q _ => q = p
  | _ => False

/-- The same parameters, with the salt in another form perhaps. -/
def Prm.like (a b : Prm) : Prop :=
  a = b ∨ ∃ s t x, b.salt = some s ∧ s.holds x ∧ t.holds x ∧ a = { b with salt := some t }

/-- The stores of `p` are as before. -/
structure Same (ks ks' : Ks) (p : Nat) : Prop where
  sits : ks'.sits p = ks.sits p
  pubs : ks'.pubs p = ks.pubs p
  prms : ∀ a, ks'.prms.at' p = some a → ∃ b, ks.prms.at' p = some b ∧ a.like b

theorem applyAll_prms_or {ks : Ks} {ws : List Wr} {p : Nat} {a : Prm} (h : (ks.applyAll ws).prms.at' p = some a) :
    ks.prms.at' p = some a ∨ Wr.prms p a ∈ ws := by
  induction ws generalizing ks with
  | nil => exact .inl h
  | cons w ws ih =>
    rcases ih h with h | h
    · by_cases hk : w.prmKey = some p
      · cases w with
        | prms k v =>
          simp only [Wr.prmKey, Option.some.injEq] at hk
          subst hk
          have h : upd ks.prms.at' k (some v) k = some a := h
          simp at h; subst h
          exact .inr (List.mem_cons_self ..)
        | prmsRem k =>
          simp only [Wr.prmKey, Option.some.injEq] at hk
          subst hk
          have h : upd ks.prms.at' k none k = some a := h
          simp at h
        | _ => simp [Wr.prmKey] at hk
      · rw [apply_prms hk] at h; exact .inl h
    · exact .inr (List.mem_cons_of_mem _ h)

/-- Writes that do not touch the stores of `p`. -/
theorem Same.of {ks : Ks} {ws : List Wr} {p : Nat} (h : ∀ w ∈ ws, w.sitKey ≠ some p ∧ w.prmKey ≠ some p ∧ w.pubKey ≠ some p) : Same ks (ks.applyAll ws) p :=
  ⟨applyAll_sits fun w hw => (h w hw).1, applyAll_pubs fun w hw => (h w hw).2.2, fun a ha => ⟨a, by
    rw [applyAll_prms fun w hw => (h w hw).2.1] at ha; exact ha, .inl rfl⟩⟩

theorem Same.reforms {ks : Ks} {ws : List Wr} {p : Nat} (h : ∀ w ∈ ws, w.reforms ks) : Same ks (ks.applyAll ws) p := by
  refine ⟨applyAll_sits fun w hw => by rw [reforms_key (h w hw)]; simp, applyAll_pubs fun w hw => ?_, fun a ha => ?_⟩
  · have := h w hw
    cases w <;> simp [Wr.reforms, Wr.pubKey] at *
  · rcases applyAll_prms_or ha with ha | ha
    · exact ⟨a, ha, .inl rfl⟩
    · obtain ⟨q, s, x, enc, h1, h2, h3, rfl⟩ := h _ ha
      exact ⟨q, h1, .inr ⟨s, lock enc x, x, h2, h3, lock_holds enc x, rfl⟩⟩

theorem about_keys {p q : Nat} {enc : Option Nat} {w : Wr} (h : w.about p enc) (hq : w.sitKey = some q ∨ w.prmKey = some q ∨ w.pubKey = some q) : q = p := by
  cases w <;> simp [Wr.about, Wr.sitKey, Wr.prmKey, Wr.pubKey] at *
  all_goals omega

theorem turns_keys {p q : Nat} {enc : Option Nat} {w : Wr} (h : w.turns p enc) (hq : w.sitKey = some q ∨ w.prmKey = some q ∨ w.pubKey = some q) : q = p := by
  cases w <;> simp [Wr.turns, Wr.sitKey, Wr.prmKey, Wr.pubKey] at *
  all_goals omega

/-- Some of the writes of a call that is not about `p` leave the stores of `p`. -/
theorem exec_same {env : Env} {n : Node} (hk : Kept n.ks) {p : Nat} (hc : Claimed n.ks p) {c : Call} (hp : ¬ c.on p) {ws : List Wr}
    (hs : ∀ w ∈ ws, w ∈ (exec env n c).1) : Same n.ks (n.ks.applyAll ws) p := by
  have key : ∀ w : Wr, ¬ (w.sitKey = some p ∨ w.prmKey = some p ∨ w.pubKey = some p) → w.sitKey ≠ some p ∧ w.prmKey ≠ some p ∧ w.pubKey ≠ some p := by
    intro w h; exact ⟨fun h1 => h (.inl h1), fun h1 => h (.inr (.inl h1)), fun h1 => h (.inr (.inr h1))⟩
  have some3 : ∀ w : Wr, (w.sitKey = some p ∨ w.prmKey = some p ∨ w.pubKey = some p) → (w.sitKey ≠ none ∨ w.prmKey ≠ none ∨ w.pubKey ≠ none) := by
    intro w h
    rcases h with h | h | h <;> simp [h]
  cases c with
  | openM s a p g x t => exact Same.reforms fun w hw => openMgr_reforms hk (hs w hw)
  | updateAeid a s => exact Same.reforms fun w hw => by obtain ⟨mem, _, hw⟩ := withMgr_wr (hs w hw); exact updateAeid_reforms hk hw
  | sign a b c => exact Same.of fun w hw => by obtain ⟨mem, _, hw⟩ := withMgr_wr (hs w hw); simp at hw
  | incept a =>
    refine Same.of fun w hw => key w fun hq => ?_
    obtain ⟨mem, _, hw⟩ := withMgr_wr (hs w hw)
    obtain ⟨q, h1, h2, ha⟩ := incept_about (env := env) (ks := n.ks) (mem := mem) (a := a)
    have := about_keys (ha w hw) hq
    subst this
    rcases hc with hc | hc
    · exact hc (h1 (List.ne_nil_of_mem hw))
    · exact hc (h2 ⟨w, hw, some3 w hq⟩)
  | ingest a =>
    refine Same.of fun w hw => key w fun hq => ?_
    obtain ⟨mem, _, hw⟩ := withMgr_wr (hs w hw)
    obtain ⟨q, h1, h2, ha⟩ := ingest_takes (env := env) (ks := n.ks) (mem := mem) (a := a)
    have : p = q := by rcases ha w hw with ha | ha <;> exact about_keys ha hq
    subst this
    rcases hc with hc | hc
    · exact hc (h1 ⟨w, hw, by rcases some3 w hq with h | h | h <;> simp [h]⟩)
    · exact hc (h2 ⟨w, hw, some3 w hq⟩)
  | rotate q a =>
    refine Same.of fun w hw => key w fun hq => ?_
    obtain ⟨mem, _, hw⟩ := withMgr_wr (hs w hw)
    exact hp (turns_keys (rotate_turns hw) hq).symm
  | replay q a b =>
    refine Same.of fun w hw => key w fun hq => ?_
    obtain ⟨mem, _, hw⟩ := withMgr_wr (hs w hw)
    exact hp (turns_keys (replay_turns hw) hq).symm
  | move old new =>
    refine Same.of fun w hw => key w fun hq => ?_
    obtain ⟨mem, _, hw⟩ := withMgr_wr (hs w hw)
    rcases move_cases n.ks old new with ⟨r, hr, _⟩ | ⟨prm, sit, wp, o⟩
    · rw [hr] at hw; simp at hw
    · have hnew : p ≠ new := by
        rintro rfl
        rcases hc with hc | hc
        · exact hc o.pnew
        · exact hc o.nprm
      have hold : p ≠ old := fun h => hp h.symm
      have hwp : ∀ {w : Wr}, w ∈ wp → ¬ (w.sitKey = some p ∨ w.prmKey = some p ∨ w.pubKey = some p) := by
        intro w hw
        rw [o.hwp] at hw
        obtain ⟨j, l, _, rfl⟩ := movePubs_mem hw
        simp [Wr.sitKey, Wr.prmKey, Wr.pubKey]; exact Ne.symm hnew
      rcases o.outcome with ⟨_, ho⟩ | ⟨e, _, ho⟩ <;> rw [ho] at hw <;>
        simp only [List.mem_append, List.mem_cons, List.not_mem_nil, or_false] at hw
      · rcases hw with ((rfl | rfl | rfl | rfl) | h) | rfl | rfl <;>
          first | exact hwp h hq | (simp [Wr.sitKey, Wr.prmKey, Wr.pubKey] at hq; omega) | simp [Wr.sitKey, Wr.prmKey, Wr.pubKey] at hq
      · rcases hw with (rfl | rfl | rfl | rfl) | h <;>
          first | exact hwp h hq | (simp [Wr.sitKey, Wr.prmKey, Wr.pubKey] at hq; omega) | simp [Wr.sitKey, Wr.prmKey, Wr.pubKey] at hq

/-! ## Key sets are stored for taken identifiers only -/

theorem pres_written {ks : Ks} {ws : List Wr} {p v : Nat} (h : Wr.pres p v ∈ ws) : (ks.applyAll ws).pres p ≠ none := by
  obtain ⟨a, b, rfl⟩ := List.append_of_mem h
  rw [applyAll_append, applyAll_cons]
  exact applyAll_pres_some (by simp [Ks.apply])

theorem prms_written {ks : Ks} {ws : List Wr} {p : Nat} {v : Prm} (h : Wr.prms p v ∈ ws) (hr : Wr.prmsRem p ∉ ws) : (ks.applyAll ws).prms.at' p ≠ none := by
  obtain ⟨a, b, rfl⟩ := List.append_of_mem h
  rw [applyAll_append, applyAll_cons]
  refine applyAll_ind (P := fun k => k.prms.at' p ≠ none) (fun w hw k hkk => ?_) (by simp [Ks.apply, tbl_pin_at])
  by_cases hp : w.prmKey = some p
  · cases w with
    | prms q x => simp only [Wr.prmKey, Option.some.injEq] at hp; subst hp; simp [Ks.apply, tbl_pin_at]
    | prmsRem q => simp only [Wr.prmKey, Option.some.injEq] at hp; subst hp; exact absurd (by simp [hw]) hr
    | _ => simp [Wr.prmKey] at hp
  · rw [apply_prms hp]; exact hkk

theorem mem_take_head {α} {a : α} {l : List α} {k : Nat} {x : α} (h : x ∈ (a :: l).take k) : a ∈ (a :: l).take k := by
  cases k with
  | zero => simp at h
  | succ k => simp

/-- The first writes of calls that store key sets claim the identifier. -/
theorem exec_claims {env : Env} {n : Node} (hk : Kept n.ks) (c : Call) (k : Nat) {q ri : Nat} {l : List Nat}
    (h : Wr.pubsPut q ri l ∈ (exec env n c).1.take k) : Claimed (n.ks.applyAll ((exec env n c).1.take k)) q := by
  have hm := List.mem_of_mem_take h
  cases c with
  | openM s a p g x t => exact absurd (openMgr_reforms hk hm) (by simp [Wr.reforms])
  | updateAeid a s => obtain ⟨mem, _, hw⟩ := withMgr_wr hm; exact absurd (updateAeid_reforms hk hw) (by simp [Wr.reforms])
  | sign a b c => obtain ⟨mem, _, hw⟩ := withMgr_wr hm; simp at hw
  | incept a =>
    refine .inl ?_
    obtain ⟨mem, hmem, hw⟩ := withMgr_wr hm
    have hx : (exec env n (.incept a)).1 = (incept env n.ks mem a).1 := by simp only [exec, withMgr, hmem]
    rw [hx] at h ⊢
    rcases incept_cases env n.ks mem a with ⟨e, he⟩ | ⟨t, pidx, cr, icodes, ncodes, _, _, _, _, _, he⟩
    · rw [he] at hw; simp at hw
    · rw [he] at h hw ⊢
      have o := inceptWr_out env n.ks mem cr pidx (cr.create env a.rnd icodes pidx 0 0 a.tr a.temp)
        (cr.create env (fun i => a.rnd (icodes.length + i)) ncodes pidx 1 icodes.length a.tr a.temp)
      generalize inceptWr env n.ks mem cr pidx _ _ = r at h hw o ⊢
      have hq : q = _ := about_keys (q := q) (mem_inceptAll (o.part.subset hw)) (.inr (.inr rfl))
      obtain ⟨rest, hpart⟩ := o.part
      cases hr : r.1 with
      | nil => rw [hr] at hw; simp at hw
      | cons w ws =>
        rw [hr] at hpart h
        simp only [inceptAll, List.cons_append, List.cons.injEq] at hpart
        rw [hpart.1, ← hq] at h ⊢
        exact pres_written (mem_take_head h)
  | ingest a =>
    refine .inl ?_
    obtain ⟨mem, hmem, hw⟩ := withMgr_wr hm
    have hx : (exec env n (.ingest a)).1 = (ingest env n.ks mem a).1 := by simp only [exec, withMgr, hmem]
    rw [hx] at h ⊢
    have hqq : ∃ ws, (ingest env n.ks mem a).1 = .pres q q :: ws := by
      revert hw
      clear h hx hm
      unfold ingest
      have hpn : ∀ {l' : List Nat}, Wr.pubsPut q ri l ∉ (putPris env none l').1 := by
        intro l' hw
        rw [putPris_none] at hw
        obtain ⟨k, _, he⟩ := mem_puts hw
        cases he
      split
      · simp
      split
      · simp
      split
      · simp
      split
      · simp
      split
      · intro hw; exact absurd hw hpn
      · simp
      rename_i pre _ _ hsecs
      split
      · simp
      split
      · simp
      split
      · simp
      dsimp only
      have hl := @ingestLoop_about env mem.enc a.iridx pre a.secs 0 0 (n.ks.sits pre)
      generalize hr : ingestLoop env mem.enc a.iridx pre a.secs 0 0 (n.ks.sits pre) = r at hl
      have fin : ∀ {ws : List Wr}, (Wr.pubsPut q ri l ∈ Wr.pres pre pre :: ws → q = pre) → Wr.pubsPut q ri l ∈ Wr.pres pre pre :: ws →
          ∃ ws', Wr.pres pre pre :: ws = .pres q q :: ws' := by
        intro ws h1 h2
        rw [h1 h2]; exact ⟨ws, rfl⟩
      rcases r with ⟨wl, e | ⟨ridx, kidx, sit⟩⟩
      · refine fin fun hw => ?_
        have hw : Wr.pubsPut q ri l ∈ wl := by simpa using hw
        exact about_keys (hl hw) (.inr (.inr rfl))
      · dsimp only at hl ⊢
        split
        · split
          · refine fin fun hw => ?_
            simp [hpn] at hw
            rcases hw with hw | hw
            · exact about_keys (hl hw) (.inr (.inr rfl))
            · exact hw.1
          · refine fin fun hw => ?_
            simp [hpn] at hw
            rcases hw with hw | hw
            · exact about_keys (hl hw) (.inr (.inr rfl))
            · exact hw.1
        · refine fin fun hw => ?_
          simp [hpn] at hw
          rcases hw with hw | hw
          · exact about_keys (hl hw) (.inr (.inr rfl))
          · exact hw.1
    obtain ⟨ws, hws⟩ := hqq
    rw [hws] at h ⊢
    exact pres_written (mem_take_head h)
  | rotate p a =>
    obtain ⟨mem, hmem, hw⟩ := withMgr_wr hm
    have hq := turns_keys (q := q) (rotate_turns hw) (.inr (.inr rfl))
    subst hq
    refine Claimed.applyAll (.inr ?_) fun q hq => exec_rem hk _ (List.mem_of_mem_take hq)
    rcases rotate_cases env n.ks mem q a with ⟨e, he⟩ | ⟨prm, ps, v, nxts, o⟩
    · rw [he] at hw; simp at hw
    · rw [o.hprm]; simp
  | replay p a b =>
    obtain ⟨mem, hmem, hw⟩ := withMgr_wr hm
    have hq := turns_keys (q := q) (replay_turns hw) (.inr (.inr rfl))
    subst hq
    refine Claimed.applyAll (.inr ?_) fun q hq => exec_rem hk _ (List.mem_of_mem_take hq)
    rcases replay_cases env n.ks mem q a b with ⟨e, he⟩ | ⟨prm, ps, v, hprm, _, _⟩
    · rw [he] at hw; simp at hw
    · rw [hprm]; simp
  | move old new =>
    obtain ⟨mem, hmem, hw⟩ := withMgr_wr hm
    have hx : (exec env n (.move old new)).1 = (move n.ks old new).1 := by simp only [exec, withMgr, hmem]
    rw [hx] at h ⊢
    rcases move_cases n.ks old new with ⟨r, hr, _⟩ | ⟨prm, sit, wp, o⟩
    · rw [hr] at hw; simp at hw
    · have hwp : ∀ {w : Wr}, w ∈ wp → ∃ j l, w = .pubsPut new j l := by
        intro w hw
        rw [o.hwp] at hw
        obtain ⟨j, l, _, rfl⟩ := movePubs_mem hw
        exact ⟨j, l, rfl⟩
      have hrem : Wr.prmsRem new ∉ (move n.ks old new).1 := by
        intro hc
        have hno : Wr.prmsRem new ∉ wp := fun h => by obtain ⟨j, l, he⟩ := hwp h; cases he
        rcases o.outcome with ⟨_, ho⟩ | ⟨e, _, ho⟩ <;> rw [ho] at hc <;> simp [hno] at hc <;> exact o.ne hc.symm
      have hqn : q = new := by
        rcases o.outcome with ⟨_, ho⟩ | ⟨e, _, ho⟩ <;> rw [ho] at hw <;> simp at hw <;>
          (obtain ⟨j, l, he⟩ := hwp hw; cases he; rfl)
      subst hqn
      refine .inr (prms_written (v := prm) ?_ fun hc => hrem (List.mem_of_mem_take hc))
      rcases o.outcome with ⟨_, ho⟩ | ⟨e, _, ho⟩ <;> rw [ho] at h ⊢ <;> exact mem_take_head h

/-- Key sets are stored for taken identifiers only. -/
def Tidy (ks : Ks) : Prop := ∀ p j, ks.pubs p j ≠ none → Claimed ks p

theorem apply_pubs_or {ks : Ks} {w : Wr} {p j : Nat} (h : (ks.apply w).pubs p j ≠ none) : ks.pubs p j ≠ none ∨ ∃ l, w = .pubsPut p j l := by
  by_cases hk : w.pubKey = some p
  · cases w with
    | pubsPut q ri l =>
      simp only [Wr.pubKey, Option.some.injEq] at hk
      subst hk
      simp only [Ks.apply] at h
      split at h
      · exact .inl h
      · have h : upd ks.pubs q (upd (ks.pubs q) ri (some l)) q j ≠ none := h
        rw [upd_same] at h
        by_cases hj : j = ri
        · exact .inr ⟨l, by rw [hj]⟩
        · rw [upd_ne _ _ hj] at h; exact .inl h
    | _ => simp [Wr.pubKey] at hk
  · rw [apply_pubs hk] at h; exact .inl h

theorem applyAll_pubs_or {ks : Ks} {ws : List Wr} {p j : Nat} (h : (ks.applyAll ws).pubs p j ≠ none) : ks.pubs p j ≠ none ∨ ∃ l, Wr.pubsPut p j l ∈ ws := by
  induction ws generalizing ks with
  | nil => exact .inl h
  | cons w ws ih =>
    rcases ih h with h | ⟨l, h⟩
    · rcases apply_pubs_or h with h | ⟨l, rfl⟩
      · exact .inl h
      · exact .inr ⟨l, List.mem_cons_self ..⟩
    · exact .inr ⟨l, List.mem_cons_of_mem _ h⟩

theorem writes_take (env : Env) (n : Node) (i : Inp) : ∃ k, i.writes env n = (exec env n i.of).1.take k := by
  cases i with
  | call c => exact ⟨(exec env n c).1.length, (List.take_length).symm⟩
  | crash c k => exact ⟨k, rfl⟩

theorem Tidy.step {env : Env} {n : Node} (hk : Kept n.ks) (h : Tidy n.ks) (i : Inp) : Tidy (n.step env i).1.ks := by
  rw [step_ks]
  obtain ⟨k, hw⟩ := writes_take env n i
  rw [hw]
  intro p j hp
  rcases applyAll_pubs_or hp with hp | ⟨l, hp⟩
  · exact (h p j hp).applyAll fun q hq => exec_rem hk _ (List.mem_of_mem_take hq)
  · exact exec_claims hk _ k hp

theorem Tidy.start : Tidy Node.start.ks := by intro p j h; simp [Node.start, Ks.empty] at h

end Verif.Mgr
