import Verif.Kel.PropsLive
import Verif.Thold.Props
import Verif.Krm.PropsSigs
import Verif.Krm.PropsReplay
import Verif.Krm.PropsPrune
import Verif.Krm.PropsTime

/-! # C99: authentic messages in time are handed on -/

namespace Verif.Krm

open Verif.Kel (Id Dig Sig)

/-- The last of the attached seals of the sender is in the event it points to. -/
def LastSeal (env : Env) (m : Msg) (kwa : Kwa) : Prop :=
  ∃ sn dig, (kwa.sscs ++ (kwa.ssts.filter (fun t => t.1 = m.sender)).map (fun t => (t.2.1, t.2.2))).getLast? = some (sn, dig) ∧ env.kels m.sender sn = some dig ∧
    ∃ ds, env.seals m.sender dig = some ds ∧ m.said ∈ ds

/-- What comes with the message shows that it is from its sender; `true` if this takes the signatures of several keys. -/
inductive Shown (env : Env) (m : Msg) (kwa : Kwa) (ks : Ks) : Bool → Prop where
  | sealed : LastSeal env m kwa → Shown env m kwa ks false
  | key {s : Sig} : ¬ LastSeal env m kwa → ks.keys.length = 1 → Attached ks m kwa s → Good env ks m s → Shown env m kwa ks false
  | own : ¬ LastSeal env m kwa → ks.keys.length = 1 → OwnSig env m kwa → Shown env m kwa ks false
  | keys {ss : List Sig} : ¬ LastSeal env m kwa → ks.keys.length ≠ 1 → ¬ OwnSig env m kwa → ss.Nodup → (∀ s, s ∈ ss ↔ Attached ks m kwa s ∧ Good env ks m s) →
      Verif.Thold.satisfy ks.kt (ss.map Sig.index) = true → Shown env m kwa ks true

/-- The message belongs to no exchange. -/
def Lone (m : Msg) : Prop := m.ilk ≠ xip ∧ (m.ilk = exn → m.pvrsn.1 < 2 ∨ m.x = none)

theorem lone_exId {m : Msg} (h : Lone m) : exId m = none := by
  unfold exId
  rw [if_neg h.1]
  split
  · rename_i he
    rcases h.2 he with h1 | h1
    · rw [if_neg (by omega)]
    · rw [h1]; split <;> rfl
  · rfl

/-! ## Attachments after normalisation -/

theorem norm_attached {ks : Ks} {m : Msg} {kwa : Kwa} {s : Sig} (h : Attached ks m kwa s) : Attached ks m (normLast m.sender (normSeals m.sender kwa)) s := by
  unfold normLast normSeals
  rcases h with h | ⟨l, h1, h2, h3⟩ | h
  · exact Or.inl (List.mem_append_left _ h)
  · exact Or.inl (List.mem_append_right _ (List.mem_flatMap.2 ⟨l, List.mem_filter.2 ⟨h1, by simpa using h2⟩, h3⟩))
  · exact Or.inr (Or.inr h)

theorem attached_pool {ks : Ks} {m : Msg} {kwa : Kwa} {s : Sig} (h : Attached ks m kwa s) : s ∈ pool m.sender ks (scrubPrior m.sender ks (normCurrent m.sender ks kwa)) := by
  unfold pool scrubPrior normCurrent
  dsimp only
  rcases h with h | ⟨l, h1, h2, h3⟩ | ⟨t, h1, h2, h3, h4, h5⟩
  · exact List.mem_append_left _ (List.mem_append_left _ (List.mem_append_left _ h))
  · exact List.mem_append_left _ (List.mem_append_right _ (List.mem_flatMap.2 ⟨l, List.mem_filter.2 ⟨h1, by simpa using h2⟩, h3⟩))
  · refine List.mem_append_left _ (List.mem_append_left _ (List.mem_append_right _ (List.mem_flatMap.2 ⟨t, List.mem_filter.2 ⟨h1, ?_⟩, h5⟩)))
    exact decide_eq_true ⟨h2, h3, h4⟩

theorem good_verifySigs {env : Env} {m : Msg} {ss : List Sig} {ks : Ks} {s : Sig} (h : s ∈ ss) (hg : Good env ks m s) : s ∈ verifySigs env m ss ks.keys := by
  unfold verifySigs
  obtain ⟨key, h1, h2⟩ := hg
  refine List.mem_filter.2 ⟨(Verif.Kel.mem_oset _ _).2 h, ?_⟩
  rw [h1]
  exact h2

/-- The signatures that are found are exactly the good ones that are attached. -/
theorem verifyAttached_iff {env : Env} {m : Msg} {ks : Ks} {kwa : Kwa} (ho : ¬ OwnSig env m kwa) (s : Sig) :
    s ∈ (verifyAttached env m ks kwa).2.1 ↔ Attached ks m kwa s ∧ Good env ks m s := by
  unfold verifyAttached
  dsimp only
  split
  · rename_i hc
    obtain ⟨c, h1, h2⟩ := List.any_eq_true.1 hc
    simp only [Bool.and_eq_true, Bool.not_eq_true', decide_eq_true_eq] at h2
    exact absurd ⟨c, h1, h2.1.2.symm, h2.1.1, h2.2⟩ ho
  · constructor
    · intro h
      have := verifySigs_good h
      exact ⟨pool_attached this.1, this.2⟩
    · intro h
      exact good_verifySigs (attached_pool h.1) h.2

theorem verifyAttached_one {env : Env} {m : Msg} {ks : Ks} {kwa : Kwa} {s : Sig} (h : Attached ks m kwa s) (hg : Good env ks m s) : (verifyAttached env m ks kwa).1 = true := by
  have h1 := good_verifySigs (attached_pool h) hg
  unfold verifyAttached
  dsimp only
  split
  · rfl
  · show (!List.isEmpty _) = true
    rw [Bool.not_eq_true', List.isEmpty_eq_false_iff]
    exact List.ne_nil_of_mem h1

theorem verifyAttached_own {env : Env} {m : Msg} {ks : Ks} {kwa : Kwa} (h : OwnSig env m kwa) : (verifyAttached env m ks kwa).1 = true := by
  obtain ⟨c, h1, h2, h3, h4⟩ := h
  unfold verifyAttached
  dsimp only
  rw [if_pos]
  refine List.any_eq_true.2 ⟨c, h1, ?_⟩
  rw [h3, h4, h2]
  simp

theorem hasSigs_attached {ks : Ks} {m : Msg} {kwa : Kwa} {s : Sig} (h : Attached ks m kwa s) : hasSigs m.sender (normLast m.sender (normSeals m.sender kwa)) = true := by
  have h := norm_attached h
  unfold hasSigs
  simp only [Bool.or_eq_true]
  rcases h with h | ⟨l, h1, h2, h3⟩ | ⟨t, h1, h2, h3, h4, h5⟩
  · refine Or.inl (Or.inl (Or.inl ?_))
    rw [Bool.not_eq_true', List.isEmpty_eq_false_iff]
    exact List.ne_nil_of_mem h
  · exact Or.inl (Or.inr (List.any_eq_true.2 ⟨l, h1, by simpa using h2⟩))
  · exact Or.inr (List.any_eq_true.2 ⟨t, h1, by simpa using h2⟩)

theorem hasSigs_own {env : Env} {m : Msg} {kwa : Kwa} (h : OwnSig env m kwa) : hasSigs m.sender (normLast m.sender (normSeals m.sender kwa)) = true := by
  obtain ⟨c, h1, h2, _⟩ := h
  unfold hasSigs
  simp only [Bool.or_eq_true]
  exact Or.inl (Or.inl (Or.inr (List.any_eq_true.2 ⟨c, h1, by simpa using h2⟩)))

theorem lastSeal_norm {env : Env} {m : Msg} {kwa : Kwa} : LastSeal env m (normLast m.sender (normSeals m.sender kwa)) ↔ LastSeal env m kwa := by
  unfold LastSeal normLast normSeals
  dsimp only
  rw [List.filter_filter]
  have : kwa.ssts.filter (fun a => decide (a.1 = m.sender) && decide (a.1 ≠ m.sender)) = [] := by
    rw [List.filter_eq_nil_iff]
    intro a _
    simp
  rw [this]
  simp

theorem validateSeal_iff {env : Env} {m : Msg} {kwa : Kwa} : validateSeal env m kwa = .ok true ↔ LastSeal env m kwa := by
  unfold validateSeal LastSeal
  dsimp only
  generalize (kwa.sscs ++ (kwa.ssts.filter (fun t => t.1 = m.sender)).map (fun t => (t.2.1, t.2.2))).getLast? = c
  cases c with
  | none => simp
  | some c =>
    obtain ⟨sn, dig⟩ := c
    dsimp only
    constructor
    · intro h
      split at h
      · simp at h
      · rename_i d hd
        split at h
        · simp at h
        · rename_i he
          have he : d = dig := by simpa using he
          subst he
          split at h
          · simp at h
          · rename_i ds hds
            injection h with h
            exact ⟨sn, d, rfl, hd, ds, hds, by simpa using h⟩
    · rintro ⟨sn', dig', h1, h2, ds, h3, h4⟩
      injection h1 with h1
      injection h1 with h5 h6
      subst h5 h6
      rw [h2]
      dsimp only
      rw [if_neg (by simp), h3]
      simp [h4]

theorem hasSeals_last {env : Env} {m : Msg} {kwa : Kwa} (h : LastSeal env m kwa) : hasSeals m.sender (normLast m.sender (normSeals m.sender kwa)) = true := by
  obtain ⟨sn, dig, h1, _⟩ := h
  unfold hasSeals normLast normSeals
  dsimp only
  have : (kwa.sscs ++ (kwa.ssts.filter (fun t => t.1 = m.sender)).map (fun t => (t.2.1, t.2.2))) ≠ [] := by
    intro h; rw [h] at h1; simp at h1
  rw [List.isEmpty_eq_false_iff.2 this]
  rfl

/-! ## Authentication -/

theorem satisfy_perm {t : Verif.Thold.Thold} {is js : List Nat} (h : is.Perm js) : Verif.Thold.satisfy t is = Verif.Thold.satisfy t js := by
  cases t with
  | num m => simp [Verif.Thold.satisfy, Verif.Thold.satisfyNum, h.length_eq]
  | wtd cs => exact Verif.Thold.c13_set_only_partial _ _ _ (fun i => h.mem_iff) (by simp)

/-- The lag that applies. -/
def lagOf (r : Rec) (long : Bool) : Int := if long then r.ll else r.sl

/-- A message that is shown to be from its sender is authenticated. -/
theorem shown_authenticate {env : Env} {k : Krm} {m : Msg} {kwa : Kwa} {ks : Ks} {long : Bool} (h : Shown env m kwa ks long) :
    ¬ (hasSeals m.sender (normLast m.sender (normSeals m.sender kwa)) = false ∧ hasSigs m.sender (normLast m.sender (normSeals m.sender kwa)) = false) ∧
    ∃ auth v, resolve env m (normLast m.sender (normSeals m.sender kwa)) ks (hasSeals m.sender (normLast m.sender (normSeals m.sender kwa)))
      (hasSigs m.sender (normLast m.sender (normSeals m.sender kwa))) = some (auth, v) ∧ (∀ r, (lags r auth).1 = lagOf r long) ∧
      ∀ pin, ∃ kwa', authenticate env k m ks (normLast m.sender (normSeals m.sender kwa)) auth v pin = (pin k, .ok (some kwa')) := by
  have nseal : ¬ LastSeal env m kwa → validateSeal env m (normLast m.sender (normSeals m.sender kwa)) ≠ .ok true := fun h h1 => h (lastSeal_norm.1 (validateSeal_iff.1 h1))
  have sigs : ¬ LastSeal env m kwa → hasSigs m.sender (normLast m.sender (normSeals m.sender kwa)) = true →
      resolve env m (normLast m.sender (normSeals m.sender kwa)) ks (hasSeals m.sender (normLast m.sender (normSeals m.sender kwa)))
        (hasSigs m.sender (normLast m.sender (normSeals m.sender kwa))) = some (sigAuth ks, false) := by
    intro h h1
    have h2 := nseal h
    rw [h1]
    unfold resolve
    cases hasSeals m.sender (normLast m.sender (normSeals m.sender kwa)) with
    | false => simp
    | true =>
      simp only [Bool.not_true, Bool.and_false, Bool.false_eq_true, if_false, Bool.and_true, if_true]
  cases h with
  | sealed h =>
    have h1 := hasSeals_last h
    have h2 := validateSeal_iff.2 (lastSeal_norm.2 h)
    refine ⟨fun h3 => by rw [h1] at h3; simp at h3, .asr, hasSigs m.sender (normLast m.sender (normSeals m.sender kwa)), ?_, fun r => rfl, fun pin => ⟨normLast m.sender (normSeals m.sender kwa), ?_⟩⟩
    · rw [h1]
      unfold resolve
      cases hasSigs m.sender (normLast m.sender (normSeals m.sender kwa)) with
      | false => simp
      | true => simp [h2]
    · unfold authenticate
      dsimp only
      rw [if_pos (by unfold sealOk; rw [h2]; simp)]
  | @key s h hl ha hg =>
    have h1 := hasSigs_attached ha
    refine ⟨fun h3 => by rw [h1] at h3; simp at h3, .assk, false, ?_, fun r => rfl, fun pin => ⟨(verifyAttached env m ks (normLast m.sender (normSeals m.sender kwa))).2.2, ?_⟩⟩
    · rw [sigs h h1]; unfold sigAuth; rw [if_pos hl]
    · unfold authenticate
      dsimp only
      rw [if_pos (verifyAttached_one (norm_attached ha) hg)]
  | own h hl ho =>
    have h1 := hasSigs_own ho
    refine ⟨fun h3 => by rw [h1] at h3; simp at h3, .assk, false, ?_, fun r => rfl, fun pin => ⟨(verifyAttached env m ks (normLast m.sender (normSeals m.sender kwa))).2.2, ?_⟩⟩
    · rw [sigs h h1]; unfold sigAuth; rw [if_pos hl]
    · unfold authenticate
      dsimp only
      rw [if_pos (verifyAttached_own (kwa := normLast m.sender (normSeals m.sender kwa)) ho)]
  | @keys ss h hl ho hn hs hsat =>
    have hne : ss ≠ [] := by
      intro h0; rw [h0] at hsat; simp [Verif.Kel.satisfy_nil] at hsat
    obtain ⟨s, hs1⟩ := List.exists_mem_of_ne_nil _ hne
    have hs2 := (hs s).1 hs1
    have h1 := hasSigs_attached hs2.1
    have hno : ¬ OwnSig env m (normLast m.sender (normSeals m.sender kwa)) := fun h => ho (ownSig_norm h)
    have hp : (verifyAttached env m ks (normLast m.sender (normSeals m.sender kwa))).2.1.Perm ss :=
      (List.perm_ext_iff_of_nodup (verifyAttached_nodup ..) hn).2 fun s => by
        rw [verifyAttached_iff hno, hs]
        exact ⟨fun h => ⟨attached_norm h.1, h.2⟩, fun h => ⟨norm_attached h.1, h.2⟩⟩
    have hsat' : Verif.Thold.satisfy ks.kt ((verifyAttached env m ks (normLast m.sender (normSeals m.sender kwa))).2.1.map Sig.index) = true := by
      rw [satisfy_perm (hp.map _)]; exact hsat
    refine ⟨fun h3 => by rw [h1] at h3; simp at h3, .asmk, false, ?_, fun r => rfl, fun pin => ⟨(verifyAttached env m ks (normLast m.sender (normSeals m.sender kwa))).2.2, ?_⟩⟩
    · rw [sigs h h1]; unfold sigAuth; rw [if_neg hl]
    · unfold authenticate
      dsimp only
      rw [if_neg (by rw [verifyAttached_one (norm_attached hs2.1) hs2.2]; simp), if_pos hsat']

/-! ## Statements -/

/-- Nothing with this sender and digest arrived. -/
def Unheard (m : Msg) (l : List Step) : Prop := ∀ x ∈ delivered l, ¬ (x.2.2.1.sender = m.sender ∧ x.2.2.1.said = m.said)

/-- In time. -/
def InTime (now mdt : Int) (r : Rec) (long : Bool) : Prop := now - 1000 * (r.d + (if long then r.ll else r.sl)) ≤ mdt ∧ mdt ≤ now + 1000 * r.d

theorem inTime_timely {now mdt : Int} {r : Rec} {long : Bool} {auth : Auth} (h : InTime now mdt r long) (hl : ∀ r, (lags r auth).1 = lagOf r long) :
    timely now mdt r.d (lags r auth).1 = true := by
  rw [hl r]
  unfold timely lagOf
  unfold InTime at h
  refine decide_eq_true ?_
  omega

theorem handed_of {k k' : Krm} {env : Env} {now : Int} {m : Msg} {kwa kwa' : Kwa} {ct : Tab Ctype Rec} (hset : Settings ct k) (hg : Guards m k)
    (h : kramit env now k m kwa = (k', .ok (some kwa'))) : handed k (.deliver env now m kwa) = some m := by
  have h1 : deliver env now k m kwa = (k', .ok (some kwa')) := by
    unfold deliver reconcile
    rw [hset.2]
    unfold reconcileGo intake
    dsimp only
    rw [hg.1, hg.2, if_pos rfl, if_neg (by simp), h]
  unfold handed
  dsimp only
  rw [h1]

/-- **C99.**  A message of no exchange that is shown to be from its sender by what comes with it, in time and for the first time, is handed on at once. -/
theorem c99_at_once {k : Krm} {l : List Step} {env : Env} {now mdt : Int} {m : Msg} {kwa : Kwa} {ct : Tab Ctype Rec} {r : Rec} {ks : Ks} {long : Bool} (hf : Fresh k)
    (hu : Unheard m l) (hset : Settings ct (run k l)) (hg : Guards m (run k l)) (hl : Lone m) (hm : m.stamp = some mdt) (hr : fetch ct m = .ok r)
    (hk : env.kevers m.sender = some ks) (hs : Shown env m kwa ks long) (ht : InTime now mdt r long) : handed (run k l) (.deliver env now m kwa) = some m := by
  have hnone : (run k l).msgc.get (m.sender, m.said) = none := by
    cases hc : (run k l).msgc.get (m.sender, m.said) with
    | none => rfl
    | some c =>
      obtain ⟨m', h1, _, h2⟩ := (run_time hf _ l rfl).1 (m.sender, m.said) (by rw [hc]; simp)
      obtain ⟨x, hx, h3⟩ := h2.delivered
      exact absurd ⟨by rw [h3]; exact congrArg Prod.fst h1, by rw [h3]; exact congrArg Prod.snd h1⟩ (hu x hx)
  obtain ⟨h1, auth, v, h2, h3, h4⟩ := shown_authenticate (k := run k l) hs
  obtain ⟨kwa', h5⟩ := h4 (fun k => { k with msgc := k.msgc.pin (m.sender, m.said) ⟨mdt, 0, r.d, (lags r auth).1, (lags r auth).2, r.xl, r.pxl⟩ })
  refine handed_of hset hg (Eq.trans ?_ h5)
  · unfold kramit
    rw [hm]
    dsimp only
    rw [if_neg (by simpa using h1), lone_exId hl]
    dsimp only
    rw [hnone]
    dsimp only
    unfold fresh1
    rw [hset.1, hr]
    dsimp only
    rw [hk]
    dsimp only
    rw [h2]
    dsimp only
    rw [inTime_timely ht h3]
    rfl

/-- **C99.**  The same for a message that begins an exchange. -/
theorem c99_begin {k : Krm} {l : List Step} {env : Env} {now mdt : Int} {m : Msg} {kwa : Kwa} {ct : Tab Ctype Rec} {r : Rec} {ks : Ks} {long : Bool} (hf : Fresh k)
    (hu : Unheard m l) (hv : validCf ct = true) (hset : Settings ct (run k l)) (hg : Guards m (run k l)) (hl : m.ilk = xip) (hm : m.stamp = some mdt) (hr : fetch ct m = .ok r)
    (hk : env.kevers m.sender = some ks) (hs : Shown env m kwa ks long) (ht : InTime now mdt r long) : handed (run k l) (.deliver env now m kwa) = some m := by
  have hnone : (run k l).tmsc.get (m.sender, m.said, m.said) = none := by
    cases hc : (run k l).tmsc.get (m.sender, m.said, m.said) with
    | none => rfl
    | some c =>
      obtain ⟨m', h1, _, h2⟩ := (run_time hf _ l rfl).2 m.sender m.said m.said (by rw [hc]; simp)
      obtain ⟨x, hx, h3⟩ := h2.delivered
      exact absurd ⟨by rw [h3]; exact congrArg Prod.fst h1, by rw [h3]; exact congrArg Prod.snd h1⟩ (hu x hx)
  have hxl := valid_fetch hv hr
  obtain ⟨h1, auth, v, h2, h3, h4⟩ := shown_authenticate (k := run k l) hs
  obtain ⟨kwa', h5⟩ := h4 (fun k => { k with tmsc := k.tmsc.pin (m.sender, m.said, m.said) ⟨mdt, mdt, r.d, (lags r auth).1, (lags r auth).2, r.xl, r.pxl⟩ })
  refine handed_of hset hg (Eq.trans ?_ h5)
  · have hex : exId m = some m.said := by unfold exId; rw [if_pos hl]
    unfold kramit
    rw [hm]
    dsimp only
    rw [if_neg (by simpa using h1), hex]
    dsimp only
    rw [hnone]
    dsimp only
    unfold fresh2
    rw [hset.1, hr]
    dsimp only
    rw [hk]
    dsimp only
    rw [h2]
    dsimp only
    unfold began
    rw [if_pos hl]
    dsimp only
    rw [inTime_timely ht h3, if_neg (by simp), if_neg (by omega)]

/-! ## Exchanges -/

/-- All that is in the cache of the exchange knows when it began. -/
def Since (s : Id) (x : Dig) (x0 : Int) (k : Krm) : Prop := ∀ d c, ((s, x, d), c) ∈ k.tmsc → c.xdt = x0

theorem began_since {s : Id} {x : Dig} {x0 : Int} {k : Krm} {m : Msg} {mdt xdt : Int} (hS : Since s x x0 k) (hs : m.sender = s) (hx : exId m = some x)
    (hst : m.stamp = some mdt) (hB : m.ilk = xip → m.said = x → m.stamp = some x0) (h : began k m x mdt = some xdt) : xdt = x0 := by
  unfold began at h
  split at h
  · rename_i hi
    have := hB hi (exId_xip hx hi)
    rw [hst] at this
    injection this with this
    injection h with h
    rw [← h, this]
  · cases hf : k.tmsc.find? (fun e => e.1.1 = m.sender ∧ e.1.2.1 = x) with
    | none => rw [hf] at h; simp at h
    | some e =>
      rw [hf] at h
      injection h with h
      have h1 := List.mem_of_find?_eq_some hf
      have h2 : e.1.1 = m.sender ∧ e.1.2.1 = x := by simpa using List.find?_some hf
      obtain ⟨⟨a, b, d⟩, c⟩ := e
      dsimp only at h2 h
      rw [hs] at h2
      rw [h2.1, h2.2] at h1
      rw [← h]
      exact hS d c h1

theorem step_since {s : Id} {x : Dig} {x0 : Int} {k : Krm} {a : Step} (hB : Begins s x x0 [a]) (hS : Since s x x0 k) : Since s x x0 (step k a) := by
  by_cases hd : ∃ env now m kwa, a = .deliver env now m kwa
  · obtain ⟨env, now, m, kwa, ha⟩ := hd
    subst ha
    have hst : step k (.deliver env now m kwa) = (deliver env now k m kwa).1 := rfl
    rw [hst]
    have hb := hB (env, now, m, kwa) List.mem_cons_self
    dsimp only at hb
    have ht := (reconcile_held now k).tmsc
    have hS1 : Since s x x0 (reconcile now k).1 := by unfold Since; rw [ht]; exact hS
    rcases deliver_cases env now k m kwa with h | h
    · rw [h]; exact hS1
    · rw [h]
      generalize (reconcile now k).1 = k1 at hS1
      rcases kramit_tmsc env now k1 m kwa with h1 | ⟨x', mdt, xdt, r, auth, h1, h2, h3, h4, h5, h6⟩
      · unfold Since; rw [h1]; exact hS1
      · intro d c hc
        rw [h6] at hc
        by_cases hk : m.sender = s ∧ x' = x
        · obtain ⟨hk1, hk2⟩ := hk
          subst hk2
          rcases mem_pin_cases hc with h8 | h8
          · rw [h8]; exact began_since hS1 hk1 h1 h2 (hb hk1) h5
          · exact hS1 _ _ h8
        · refine hS1 d c ((mem_pin (fun e => hk ?_)).1 hc)
          injection e with e1 e2
          injection e2 with e2 e3
          exact ⟨e1.symm, e2.symm⟩
  · have h := step_tmsc (k := k) (a := a) (fun env now m kwa ha => hd ⟨env, now, m, kwa, ha⟩)
    exact fun d c hc => hS d c (h _ hc)

theorem run_since {s : Id} {x : Dig} {x0 : Int} : ∀ (l : List Step) (k : Krm), Begins s x x0 l → Since s x x0 k → Since s x x0 (run k l)
  | [], _, _, h => h
  | a :: l, k, hB, h => run_since l (step k a) hB.tail (step_since (fun y hy => hB y (by rw [delivered_cons]; exact List.mem_append_left _ hy)) h)

/-- An entry stays until it is pruned. -/
theorem step_keeps {k : Krm} {a : Step} {q : Id × Dig × Dig} {c : Cache} (hu : Uniq k) (h : k.tmsc.get q = some c) (hp : ∀ t, a = .prune t → keepExchange (t / 1000) c = true) :
    (step k a).tmsc.get q = some c := by
  cases a with
  | deliver env now m kwa =>
    have hst : step k (.deliver env now m kwa) = (deliver env now k m kwa).1 := rfl
    rw [hst]
    have ht := (reconcile_held now k).tmsc
    rcases deliver_cases env now k m kwa with h1 | h1
    · rw [h1, ht]; exact h
    · rw [h1]
      rw [← ht] at h
      generalize (reconcile now k).1 = k1 at h
      cases hx : exId m with
      | none =>
        have hd := kramit_done env now k1 m kwa hx
        generalize isPass (kramit env now k1 m kwa).2 = b at hd
        generalize (kramit env now k1 m kwa).1 = k' at hd ⊢
        cases hd with
        | same => exact h
        | waits _ _ h2 => rw [h2.tmsc]; exact h
        | pass _ _ _ _ _ _ h2 _ _ => rw [h2.tmsc]; exact h
      | some x =>
        have hd := kramit_done2 env now k1 m x kwa hx
        generalize isPass (kramit env now k1 m kwa).2 = b at hd
        generalize (kramit env now k1 m kwa).1 = k' at hd ⊢
        cases hd with
        | same => exact h
        | waits _ _ h2 => rw [h2.tmsc]; exact h
        | pass _ h0 _ _ _ _ _ _ _ h2 _ _ =>
          rw [h2.tmsc]
          dsimp only
          rw [get_pin, if_neg, h]
          intro e
          rw [e, h] at h0
          simp at h0
  | prune t =>
    rcases prune_tmsc t k q with h1 | ⟨c', h1, h2⟩
    · exact h1.trans h
    · rw [uniq_mem hu.2 h h1, hp t rfl] at h2
      simp at h2
  | change now cf o => exact (congrArg (fun t => Tab.get t q) (changeConfig_held now k cf o).tmsc).trans h
  | restart now e d cf => exact (congrArg (fun t => Tab.get t q) (restart_tables k now e d cf).tmsc).trans h

theorem run_keeps {q : Id × Dig × Dig} {c : Cache} : ∀ (l : List Step) (k : Krm), Uniq k → k.tmsc.get q = some c → (∀ t, .prune t ∈ l → keepExchange (t / 1000) c = true) →
    (run k l).tmsc.get q = some c
  | [], _, _, h, _ => h
  | a :: l, k, hu, h, hp => run_keeps l (step k a) (step_uniq hu) (step_keeps hu h (fun t ht => hp t (ht ▸ List.mem_cons_self))) (fun t ht => hp t (List.mem_cons_of_mem _ ht))

/-- **C99.**  A message of an exchange whose first message `b` was handed on when it came first, is handed on at once, if nothing was pruned after the exchange was to
be forgotten. -/
theorem c99_follow {k : Krm} {l1 l2 : List Step} {env env0 : Env} {now now0 mdt x0 : Int} {m b : Msg} {kwa kwb : Kwa} {ct ct0 : Tab Ctype Rec} {r r0 : Rec} {ks : Ks}
    {long : Bool} (hf : Fresh k) (hb : BindsAll (l1 ++ .deliver env0 now0 b kwb :: l2))
    (hb1 : b.ilk = xip) (hb2 : b.stamp = some x0) (hb3 : Unheard b l1) (hb4 : Settings ct0 (run k l1)) (hb5 : Guards b (run k l1)) (hb6 : fetch ct0 b = .ok r0)
    (hb7 : handed (run k l1) (.deliver env0 now0 b kwb) = some b) (hp : ∀ t, .prune t ∈ l2 → x0 ≤ t ∧ t ≤ x0 + 1000 * r0.pxl)
    (hu : Unheard m (l1 ++ .deliver env0 now0 b kwb :: l2)) (hset : Settings ct (run k (l1 ++ .deliver env0 now0 b kwb :: l2)))
    (hg : Guards m (run k (l1 ++ .deliver env0 now0 b kwb :: l2))) (hl : m.ilk = exn ∧ 2 ≤ m.pvrsn.1 ∧ m.x = some b.said ∧ m.sender = b.sender) (hm : m.stamp = some mdt)
    (hr : fetch ct m = .ok r) (hk : env.kevers m.sender = some ks) (hs : Shown env m kwa ks long) (ht : InTime now mdt r long) (hx : x0 ≤ mdt ∧ mdt ≤ x0 + 1000 * r.xl) :
    handed (run k (l1 ++ .deliver env0 now0 b kwb :: l2)) (.deliver env now m kwa) = some m := by
  have hexb : exId b = some b.said := by unfold exId; rw [if_pos hb1]
  have hself : (env0, now0, b, kwb) ∈ delivered (l1 ++ .deliver env0 now0 b kwb :: l2) := by
    rw [delivered_append]; exact List.mem_append_right _ List.mem_cons_self
  have hB : Begins b.sender b.said x0 (l1 ++ .deliver env0 now0 b kwb :: l2) := by
    intro y hy h1 _ h3
    rw [hb y hy _ hself h1 h3]
    exact hb2
  have hS : Since m.sender b.said x0 (run k (l1 ++ .deliver env0 now0 b kwb :: l2)) := by
    rw [hl.2.2.2]
    exact run_since _ k hB (by intro d c h; rw [hf.2.1] at h; simp at h)
  -- the entry of the first message
  have hent : ∃ c, (run k (l1 ++ .deliver env0 now0 b kwb :: l2)).tmsc.get (b.sender, b.said, b.said) = some c := by
    obtain ⟨c, h1, h2, h3⟩ : ∃ c, (step (run k l1) (.deliver env0 now0 b kwb)).tmsc.get (b.sender, b.said, b.said) = some c ∧ c.xdt = x0 ∧ c.pxl = r0.pxl := by
      obtain ⟨k1, _, he, hd⟩ := deliver_done2 (now := now0) (env := env0) (kwa := kwb) hexb hb5
      rw [reconcile_id hb4.2] at he
      rw [handed_deliver] at hb7
      have hpass : isPass (deliver env0 now0 (run k l1) b kwb).2 = true := by
        split at hb7
        · assumption
        · simp at hb7
      rw [hpass] at hd
      have hst : step (run k l1) (.deliver env0 now0 b kwb) = (deliver env0 now0 (run k l1) b kwb).1 := rfl
      rw [hst]
      generalize (deliver env0 now0 (run k l1) b kwb).1 = k' at hd ⊢
      have he : k1 = run k l1 := he
      subst he
      have hbd : Bound (delivered l1) := fun x hx y hy => hb x (by rw [delivered_append]; exact List.mem_append_left _ hx) y (by rw [delivered_append]; exact List.mem_append_left _ hy)
      cases hd with
      | waits h1 _ _ =>
        rcases h1 with h1 | ⟨c, _, h1, _, _⟩
        · have hW := (run_inv l1 [] k (by simpa using hbd) (fresh_inv hf)).1
          obtain ⟨y, hy, h2, _⟩ := hW (b.sender, b.said) (Or.inr (Or.inr h1))
          exact absurd ⟨congrArg Prod.fst h2, congrArg Prod.snd h2⟩ (hb3 y (by simpa using hy))
        · obtain ⟨m', h2, _, h3⟩ := (run_time hf _ l1 rfl).2 b.sender b.said b.said (by rw [h1]; simp)
          obtain ⟨y, hy, h4⟩ := h3.delivered
          exact absurd ⟨by rw [h4]; exact congrArg Prod.fst h2, by rw [h4]; exact congrArg Prod.snd h2⟩ (hb3 y hy)
      | @pass mdt' xdt r' auth ks' _ _ h1 h2 h3 h4 h5 h6 h7 h8 h9 h10 _ _ =>
        refine ⟨⟨mdt', xdt, r'.d, (lags r' auth).1, (lags r' auth).2, r'.xl, r'.pxl⟩, ?_, ?_, ?_⟩
        · rw [h10.tmsc]; exact (get_pin ..).trans (if_pos rfl)
        · unfold began at h7
          rw [if_pos hb1] at h7
          injection h7 with h7
          rw [hb2] at h1
          injection h1 with h1
          show xdt = x0
          omega
        · rw [hb4.1, hb6] at h3
          injection h3 with h3
          show r'.pxl = _
          rw [h3]
    refine ⟨c, ?_⟩
    have hrun : run k (l1 ++ .deliver env0 now0 b kwb :: l2) = run (step (run k l1) (.deliver env0 now0 b kwb)) l2 := by unfold run; rw [List.foldl_append]; rfl
    rw [hrun]
    refine run_keeps l2 _ (step_uniq (run_uniq l1 k (fresh_uniq hf))) h1 (fun t ht => ?_)
    have := hp t ht
    unfold keepExchange
    rw [h2, h3]
    exact decide_eq_true (by omega)
  have hne : (m.sender, m.said) ≠ (b.sender, b.said) := fun e => hu _ hself ⟨(congrArg Prod.fst e).symm, (congrArg Prod.snd e).symm⟩
  generalize hL : l1 ++ .deliver env0 now0 b kwb :: l2 = l at *
  have hnone : (run k l).tmsc.get (m.sender, b.said, m.said) = none := by
    cases hc : (run k l).tmsc.get (m.sender, b.said, m.said) with
    | none => rfl
    | some c =>
      obtain ⟨m', h1, _, h2⟩ := (run_time hf _ l rfl).2 m.sender b.said m.said (by rw [hc]; simp)
      obtain ⟨x, hx, h3⟩ := h2.delivered
      exact absurd ⟨by rw [h3]; exact congrArg Prod.fst h1, by rw [h3]; exact congrArg Prod.snd h1⟩ (hu x hx)
  have hxn : m.ilk ≠ xip := by rw [hl.1]; decide
  have hex : exId m = some b.said := by unfold exId; rw [if_neg hxn, if_pos hl.1, if_pos hl.2.1, hl.2.2.1]
  have hbeg : began (run k l) m b.said mdt = some x0 := by
    obtain ⟨c, hc⟩ := hent
    cases hbg : began (run k l) m b.said mdt with
    | some xdt => rw [began_since hS rfl hex hm (fun h => absurd h hxn) hbg]
    | none =>
      unfold began at hbg
      rw [if_neg hxn, Option.map_eq_none_iff, List.find?_eq_none] at hbg
      exact absurd (by simpa using hl.2.2.2.symm) (hbg _ (get_mem hc))
  obtain ⟨h1, auth, v, h2, h3, h4⟩ := shown_authenticate (k := run k l) hs
  obtain ⟨kwa', h5⟩ := h4 (fun k => { k with tmsc := k.tmsc.pin (m.sender, b.said, m.said) ⟨mdt, x0, r.d, (lags r auth).1, (lags r auth).2, r.xl, r.pxl⟩ })
  refine handed_of hset hg (Eq.trans ?_ h5)
  unfold kramit
  rw [hm]
  dsimp only
  rw [if_neg (by simpa using h1), hex]
  dsimp only
  rw [hnone]
  dsimp only
  unfold fresh2
  rw [hset.1, hr]
  dsimp only
  rw [hk]
  dsimp only
  rw [h2]
  dsimp only
  rw [hbeg]
  dsimp only
  rw [inTime_timely ht h3, if_neg (by simp), if_neg (by omega)]

/-- **C99.**  With replay protection switched off, or for messages whose version, type and route begin with a text that exempts them, everything is handed on unchanged. -/
theorem c99_exempt {k : Krm} {env : Env} {now : Int} {m : Msg} {kwa : Kwa} {v : List Char} (hp : k.pending = []) (hv : Verif.Ctr.verToB64 m.pvrsn.1 m.pvrsn.2 = .ok v)
    (h : k.enabled = false ∨ ∃ d ∈ k.denials, d <+: v ++ '.' :: m.ilk ++ '.' :: m.route.getD "None".toList) : deliver env now k m kwa = (k, .ok (some kwa)) := by
  unfold deliver reconcile
  rw [hp]
  unfold reconcileGo intake
  dsimp only
  rcases h with h | ⟨d, h1, h2⟩
  · rw [h]; rfl
  · split
    · rw [if_pos]
      refine List.any_eq_true.2 ⟨d, h1, ?_⟩
      rw [List.isPrefixOf_iff_prefix]
      unfold denial
      rw [hv]
      dsimp only
      simpa using h2
    · rfl

end Verif.Krm
