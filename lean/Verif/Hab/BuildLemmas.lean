import Verif.Hab.Spec
import Verif.Hab.OwnLemmas
import Verif.Hab.MakeLemmas

/-!
# What the builders put into events
-/

namespace Verif.Hab

open Verif.Kel
open Verif.Thold (Thold Sith)

theorem thold_wf {s : Sith} {cs : List (List Verif.Thold.Elt)} (h : thold s = .ok (.wtd cs)) : Verif.Thold.WellFormed cs := by
  unfold thold at h
  split at h
  · exact absurd h (by simp)
  · rename_i t ht
    injection h with h
    subst h
    exact Verif.Thold.c14_sith_wellFormed s cs ht

theorem thold2_wf {s : Sith} {cs : List (List Verif.Thold.Elt)} (h : thold2 s = .ok (.wtd cs)) : Verif.Thold.WellFormed cs := by
  unfold thold2 at h
  split at h
  · exact absurd h (by simp)
  · exact thold_wf h

/-- A threshold that was read once reads back the same. -/
theorem thold2_eq {s : Sith} {t : Thold} (h : thold s = .ok t) : thold2 s = .ok t := by
  unfold thold2
  rw [h]
  show thold _ = _
  unfold thold
  cases t with
  | num n => rw [(Verif.Thold.c14_numeric_roundtrip n).1]
  | wtd cs => rw [Verif.Thold.c14_sith_roundtrip cs (thold_wf h)]

/-- The content of a rotation event. -/
structure RotSays (k : Kever) (ks : Mgr.Keys) (e : Event) : Prop where
  ilk : e.ilk = if k.delpre.isSome then .drt else .rot
  pre : e.pre = k.pre
  sn : e.sn = k.sn + 1
  prior : e.prior = k.serder.said
  keys : e.keys = ks.verfers
  ndigs : e.ndigs = ks.digers
  pos : e.kt ≠ .num 0
  size : Thold.size e.kt ≤ e.keys.length
  nsize : Thold.size e.nt ≤ e.ndigs.length
  wf : ∀ cs, e.kt = .wtd cs → Verif.Thold.WellFormed cs
  nwf : ∀ cs, e.nt = .wtd cs → Verif.Thold.WellFormed cs

theorem ite_err {c : Prop} [Decidable c] {x : Fail} {y : Except Fail Event} {e : Event} (h : (if c then .error x else y) = .ok e) : ¬ c ∧ y = .ok e := by
  by_cases hc : c
  · rw [if_pos hc] at h; cases h
  · rw [if_neg hc] at h; exact ⟨hc, h⟩

theorem buildRot_says {env : Env} {ilk : Ilk} {pre : Id} {prior : Dig} {sn : Nat} {wits keys : List Id} {kt : Thold} {ndigs : List Dig} {nt : Thold} {a : RotArgs}
    {e : Event} (h : buildRot env ilk pre prior sn wits keys kt ndigs nt a = .ok e) :
    e.ilk = ilk ∧ e.pre = pre ∧ e.sn = sn ∧ e.prior = prior ∧ e.keys = keys ∧ e.ndigs = ndigs ∧ e.kt = kt ∧ e.nt = nt ∧ signingThold kt keys = true ∧
      Thold.size nt ≤ ndigs.length := by
  unfold buildRot at h
  obtain ⟨_, h⟩ := ite_err h
  obtain ⟨_, h⟩ := ite_err h
  obtain ⟨hst, h⟩ := ite_err h
  obtain ⟨hns, h⟩ := ite_err h
  iterate 7 obtain ⟨_, h⟩ := ite_err h
  split at h
  · cases h
  injection h with h
  subst h
  exact ⟨rfl, rfl, rfl, rfl, rfl, rfl, rfl, rfl, by simpa using hst, by simpa using hns⟩

theorem rotEvent_says {env : Env} {k : Kever} {keys : Mgr.Keys} {a : RotateArgs} {e : Event} (h : rotEvent env k keys a = .ok e) :
    RotSays k keys e ∧ Thold.satisfy k.nt (revealed env k.ndigs keys.verfers) = true := by
  unfold rotEvent at h
  dsimp only at h
  split at h
  · cases h
  rename_i kt hkt
  split at h
  · cases h
  rename_i nt hnt
  split at h
  · cases h
  rename_i hrev
  obtain ⟨h1, h2, h3, h4, h5, h6, h7, h8, h9, h10⟩ := buildRot_says h
  simp only [signingThold, Bool.and_eq_true, decide_eq_true_eq] at h9
  exact ⟨⟨h1, h2, h3, h4, h5, h6, by rw [h7]; exact h9.1, by rw [h7, h5]; exact h9.2, by rw [h8, h6]; exact h10,
    fun cs hc => thold2_wf (by rw [hkt]; exact congrArg _ (h7.symm.trans hc)), fun cs hc => thold2_wf (by rw [hnt]; exact congrArg _ (h8.symm.trans hc))⟩,
    by simpa using hrev⟩

/-- The content of an interaction event. -/
theorem buildIxn_says {env : Env} {pre : Id} {prior : Dig} {sn : Nat} {seals : List Seal} {anchors : Bool} {e : Event}
    (h : buildIxn env pre prior sn seals anchors = .ok e) : e.ilk = .ixn ∧ e.pre = pre ∧ e.sn = sn ∧ e.prior = prior ∧ e.seals = seals := by
  unfold buildIxn at h
  split at h
  · exact absurd h (by simp)
  injection h with h
  subst h
  exact ⟨rfl, rfl, rfl, rfl, rfl⟩

/-- The content of an inception event. -/
structure IcpSays (ks : Mgr.Keys) (a : MakeArgs) (e : Event) : Prop where
  ilk : e.ilk = if a.icp.delpre.isNone then .icp else .dip
  sn : e.sn = 0
  keys : e.keys = ks.verfers
  ndigs : e.ndigs = ks.digers
  pos : e.kt ≠ .num 0
  size : Thold.size e.kt ≤ e.keys.length
  nsize : Thold.size e.nt ≤ e.ndigs.length
  wf : ∀ cs, e.kt = .wtd cs → Verif.Thold.WellFormed cs
  nwf : ∀ cs, e.nt = .wtd cs → Verif.Thold.WellFormed cs

theorem inceptId_says {env : Env} {a : IcpArgs} {e e' : Event} (h : inceptId env a e = .ok e') :
    e'.ilk = e.ilk ∧ e'.sn = e.sn ∧ e'.keys = e.keys ∧ e'.ndigs = e.ndigs ∧ e'.kt = e.kt ∧ e'.nt = e.nt := by
  unfold inceptId at h
  split at h
  · injection h with h; subst h; simp
  · iterate 3 (split at h; · exact absurd h (by simp))
    injection h with h; subst h; simp
  · injection h with h; subst h; simp
  · exact absurd h (by simp)

theorem buildIcp_says {env : Env} {keys : List Id} {kt : Thold} {ndigs : List Dig} {nt : Thold} {a : IcpArgs} {e : Event}
    (h : buildIcp env keys kt ndigs nt a = .ok e) :
    e.ilk = (if a.delpre.isNone then .icp else .dip) ∧ e.sn = 0 ∧ e.keys = keys ∧ e.ndigs = ndigs ∧ e.kt = kt ∧ e.nt = nt ∧ signingThold kt keys = true ∧
      Thold.size nt ≤ ndigs.length := by
  unfold buildIcp at h
  split at h
  · cases h
  rename_i hst
  split at h
  · cases h
  rename_i hns
  split at h
  · cases h
  split at h
  · cases h
  obtain ⟨h1, h2, h3, h4, h5, h6⟩ := inceptId_says h
  exact ⟨h1, h2, h3, h4, h5, h6, by simpa using hst, by simpa using hns⟩

theorem icpEvent_says {env : Env} {keys : Mgr.Keys} {a : MakeArgs} {e : Event} (h : icpEvent env keys a = .ok e) : IcpSays keys a e := by
  unfold icpEvent at h
  dsimp only at h
  split at h
  · cases h
  rename_i kt hkt
  split at h
  · cases h
  rename_i nt hnt
  obtain ⟨h1, h2, h3, h4, h5, h6, h7, h8⟩ := buildIcp_says h
  simp only [signingThold, Bool.and_eq_true, decide_eq_true_eq] at h7
  exact ⟨h1, h2, h3, h4, by rw [h5]; exact h7.1, by rw [h5, h3]; exact h7.2, by rw [h6, h4]; exact h8,
    fun cs hc => thold2_wf (by rw [hkt]; exact congrArg _ (h5.symm.trans hc)), fun cs hc => thold2_wf (by rw [hnt]; exact congrArg _ (h6.symm.trans hc))⟩

/-- With keys that match the digests one by one, every digest is opened. -/
theorem revealed_all {env : Env} (hl : Laws env) (l : List Nat) : revealed env (l.map env.mgr.dig) l = List.range l.length := by
  unfold revealed
  rw [List.length_map, List.filter_eq_self]
  intro i hi
  have hi : i < l.length := by simpa using hi
  rw [List.getElem?_map, List.getElem?_eq_getElem hi]
  simp only [Option.map_some, List.any_eq_true]
  exact ⟨l[i], List.getElem_mem hi, hl.opens _⟩

/-- With keys that open none of the digests, none is. -/
theorem revealed_none {env : Env} {ndigs : List Dig} {l : List Nat} (h : ∀ x ∈ l, ∀ d ∈ ndigs, env.kel.commits x d = false) : revealed env ndigs l = [] := by
  unfold revealed
  rw [List.filter_eq_nil_iff]
  intro i hi
  have hi : i < ndigs.length := by simpa using hi
  rw [List.getElem?_eq_getElem hi]
  simp only [List.any_eq_true, not_exists, not_and, Bool.not_eq_true]
  exact fun x hx => h x hx _ (List.getElem_mem hi)

theorem satisfy_nil (t : Thold) : Thold.satisfy t [] = false := by
  cases t with
  | num n =>
    simp only [Thold.satisfy, Verif.Thold.satisfyNum, List.length_nil, decide_eq_false_iff_not]
    omega
  | wtd cs => simp [Thold.satisfy, Verif.Thold.satisfyWtd]

end Verif.Hab
