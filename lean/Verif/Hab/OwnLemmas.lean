import Verif.Hab.Model
import Verif.Kel.PropsLive
import Verif.Thold.PropsText

/-!
# Events of one's own: what processing does with them

For an identifier of the node's own, with signatures of all keys of the event, processing either refuses the event and leaves the node as it is, or accepts it.
-/

namespace Verif.Hab

open Verif.Kel
open Verif.Thold (Thold)

/-- One signature for each key, at its place. -/
def allSigs (env : Env) (keys : List Id) (e : Event) : List Kel.Sig := keys.mapIdx fun i k => ⟨0, i, some i, env.sig k e⟩

/-- Signatures verify. -/
def SigLaw (env : Env) : Prop := ∀ k e, env.kel.verify k (env.sig k e) e = true

theorem allSigs_length {env : Env} {keys : List Id} {e : Event} : (allSigs env keys e).length = keys.length := by simp [allSigs]

theorem allSigs_index {env : Env} {keys : List Id} {e : Event} : (allSigs env keys e).map Kel.Sig.index = List.range keys.length := by
  unfold allSigs
  apply List.ext_getElem
  · simp
  · intro i h1 h2; simp

theorem allSigs_nodup {env : Env} {keys : List Id} {e : Event} : (allSigs env keys e).Nodup := by
  have h : ((allSigs env keys e).map Kel.Sig.index).Nodup := by rw [allSigs_index]; exact List.nodup_range
  rw [List.Nodup, List.pairwise_map] at h
  exact h.imp fun hne hc => hne (by rw [hc])

theorem allSigs_verified {env : Env} (hs : SigLaw env) {keys : List Id} {e : Event} :
    verifySigs env.kel e (allSigs env keys e) keys = allSigs env keys e := by
  unfold verifySigs
  rw [oset_of_nodup _ allSigs_nodup, List.filter_eq_self]
  intro s hm
  unfold allSigs at hm
  rw [List.mem_mapIdx] at hm
  obtain ⟨i, hi, rfl⟩ := hm
  simp [List.getElem?_eq_getElem hi, hs _ _]

/-- The signatures of all keys show the positions whose digest is that of the key at the same place. -/
theorem allSigs_exposed {env : Env} {keys : List Id} {e : Event} {ndigs : List Dig} (hl : ndigs.length = keys.length)
    (hc : ∀ (i : Nat) k d, keys[i]? = some k → ndigs[i]? = some d → env.kel.commits k d = true) :
    exposeds env.kel ndigs keys (allSigs env keys e) = List.range ndigs.length := by
  have key : ∀ l : List Kel.Sig, (∀ s ∈ l, s ∈ allSigs env keys e) → exposeds env.kel ndigs keys l = l.map Kel.Sig.index := by
    intro l
    induction l with
    | nil => intro _; rfl
    | cons s l ih =>
      intro hm
      have hsm := hm s (by simp)
      have ih := ih fun s' hs' => hm s' (by simp [hs'])
      unfold allSigs at hsm
      rw [List.mem_mapIdx] at hsm
      obtain ⟨i, hi, rfl⟩ := hsm
      have hd : i < ndigs.length := by omega
      have hcc := hc i _ _ (List.getElem?_eq_getElem hi) (List.getElem?_eq_getElem hd)
      unfold exposeds at ih ⊢
      rw [List.filterMap_cons_some (b := i)]
      · rw [ih]; rfl
      · simp [List.getElem?_eq_getElem hi, List.getElem?_eq_getElem hd, hcc]
  rw [key _ fun s h => h, allSigs_index, hl]

/-- Validation of an event of one's own. -/
theorem val_own {env : Env} (hs : SigLaw env) {n : Node} {k : Kever} {e : Event} {keys : List Id} {kt : Thold} {toad : Nat} {wits : List Id}
    (ho : n.owned k.pre = true) (hsat : Thold.satisfy kt (List.range keys.length) = true)
    (hnext : e.ilk = .rot ∨ e.ilk = .drt → Thold.satisfy k.nt (exposeds env.kel k.ndigs keys (allSigs env keys e)) = true) :
    n.valSigsWigsDel env.kel k e (allSigs env keys e) [] keys kt toad wits none false true = (n.db, .error .validation) ∨
    (∃ v, n.valSigsWigsDel env.kel k e (allSigs env keys e) [] keys kt toad wits none false true = (n.db, .ok v) ∧ ∀ w ∈ wits, env.kel.okKey w = true) := by
  unfold Node.valSigsWigsDel
  cases hc : n.checkSigs env.kel k e (allSigs env keys e) keys kt true with
  | error x =>
    unfold Node.checkSigs at hc
    split at hc
    · injection hc with hc; subst hc; exact .inl rfl
    · simp only [Bool.not_true, Bool.false_and, Bool.false_eq_true, if_false] at hc
      split at hc
      · injection hc with hc; subst hc; exact .inl rfl
      · exact absurd hc (by simp)
  | ok vs =>
    have hvs : vs = allSigs env keys e := by
      unfold Node.checkSigs at hc
      split at hc
      · exact absurd hc (by simp)
      · simp only [Bool.not_true, Bool.false_and, Bool.false_eq_true, if_false, List.not_mem_nil, decide_false, Bool.not_false] at hc
        rw [List.filter_eq_self.2 (by simp)] at hc
        rw [allSigs_verified hs] at hc
        split at hc
        · exact absurd hc (by simp)
        · injection hc with hc; exact hc.symm
    subst hvs
    dsimp only
    cases hd : delegator k e with
    | error x =>
      unfold delegator at hd
      split at hd
      · split at hd
        · injection hd with hd; subst hd; exact .inl rfl
        · exact absurd hd (by simp)
      · exact absurd hd (by simp)
      · exact absurd hd (by simp)
    | ok dp =>
      dsimp only
      rw [if_neg (by simp)]
      by_cases hw : (!wits.all env.kel.okKey) = true
      · rw [if_pos hw]; exact .inl rfl
      rw [if_neg hw, if_neg (by rw [allSigs_index, hsat]; simp), if_neg (by
        rintro ⟨h1, h2⟩; rw [hnext h1] at h2; exact absurd h2 (by simp))]
      have hwk : ∀ w ∈ wits, env.kel.okKey w = true := by simpa using hw
      unfold Node.checkWitDel
      by_cases h1 : wits = [] ∧ toad ≠ 0
      · rw [if_pos h1]; exact .inl rfl
      · rw [if_neg h1, if_neg (by simp [ho]), if_neg (by simp [ho]), if_neg (by simp [ho])]
        have hv : n.validateDelegation ⟨k, e, allSigs env keys e, verifySigs env.kel e [] wits, wits, none, false, true⟩ dp = (n.db, .ok none) := by
          unfold Node.validateDelegation
          cases dp with
          | none => rfl
          | some d => simp [ho]
        rw [hv]
        exact .inr ⟨_, rfl, hwk⟩

/-- What processing does with an event of one's own. -/
structure Took (n : Node) (e : Event) (k1 : Kever) (o : Out) : Prop where
  ok : o.2 = .ok ()
  kevers : o.1.kevers = upd n.kevers e.pre (some k1)
  prefixes : o.1.prefixes = n.prefixes
  groups : o.1.groups = n.groups
  mid : o.1.mid = n.mid
  logged : Logged n o e
  fels : o.1.db.fels = upd n.db.fels e.pre (n.db.fels e.pre ++ [e.said])

/-- Refused, with an exception that is not passed over, and nothing is changed. -/
def Refused (n : Node) (o : Out) : Prop := ∃ x, x ≠ .missingSignature ∧ o = (n, .error x)

theorem rotate_not_missing {env : Kel.Env} {db : Db} {k : Kever} {e : Event} {x : Exn} (h : Kel.rotate env db k e = .error x) : x ≠ .missingSignature := by
  have h1 : ∀ y, rotatePrior db k e = .error y → y ≠ .missingSignature := by
    intro y hy
    unfold rotatePrior at hy
    grind
  have h2 : ∀ y, deriveBacks k e = .error y → y ≠ .missingSignature := by
    intro y hy
    unfold deriveBacks at hy
    grind
  unfold Kel.rotate at h
  split at h
  · rename_i y hy; injection h with h; subst h; exact h1 _ hy
  · grind

theorem own_rot {env : Env} (hs : SigLaw env) {n : Node} {k : Kever} {e : Event} (hk : n.kevers e.pre = some k) (hpre : k.pre = e.pre)
    (ho : n.owned e.pre = true) (hi : e.ilk = .rot ∨ e.ilk = .drt) (hsn : e.sn = k.sn + 1)
    (hsat : Thold.satisfy e.kt (List.range e.keys.length) = true)
    (hnext : Thold.satisfy k.nt (exposeds env.kel k.ndigs e.keys (allSigs env e.keys e)) = true) :
    Refused n (n.processEvent env.kel e (allSigs env e.keys e) [] none false true) ∨
    ∃ fn wits cuts adds, Took n e (k.rotated e fn wits cuts adds) (n.processEvent env.kel e (allSigs env e.keys e) [] none false true) ∧
      env.kel.okPre e.pre = true ∧ env.kel.transferable e.pre = true ∧ (∀ w ∈ wits, env.kel.okKey w = true) := by
  unfold Node.processEvent
  by_cases hp : (!env.kel.okPre e.pre) = true
  · rw [if_pos hp]; exact .inl ⟨_, by simp, rfl⟩
  rw [if_neg hp, hk]
  have hni : ¬ (e.ilk = .icp ∨ e.ilk = .dip) := by rcases hi with h | h <;> rw [h] <;> simp
  dsimp only
  rw [if_neg hni, if_neg (by omega), if_pos (.inl hsn)]
  unfold Node.update
  by_cases htr : (!k.transferable env.kel) = true
  · rw [if_pos htr]; exact .inl ⟨_, by simp, rfl⟩
  rw [if_neg htr, if_neg (by rw [hpre]; simp)]
  have key : Refused n (n.updateRot env.kel k e (allSigs env e.keys e) [] none false true) ∨
    ∃ fn wits cuts adds, Took n e (k.rotated e fn wits cuts adds) (n.updateRot env.kel k e (allSigs env e.keys e) [] none false true) ∧
      (∀ w ∈ wits, env.kel.okKey w = true) := by
    unfold Node.updateRot
    split
    · exact .inl ⟨_, by simp, rfl⟩
    split
    · rename_i x hx; exact .inl ⟨x, rotate_not_missing hx, rfl⟩
    rename_i wits cuts adds hr
    rcases val_own hs (keys := e.keys) (kt := e.kt) (toad := e.toad) (wits := wits) (by rw [hpre]; exact ho) hsat (fun _ => hnext) with hv | ⟨v, hv, hw⟩
    · rw [hv]; exact .inl ⟨_, by simp, rfl⟩
    · rw [hv]
      refine .inr ⟨(n.db.fels e.pre).length, wits, cuts, adds, ⟨rfl, rfl, rfl, rfl, rfl, ?_, ?_⟩, hw⟩
      · exact logged_acc n k _ e v wits v.couple true rfl rfl
      · exact (acc_log n k (k.rotated e (n.db.fels e.pre).length wits cuts adds) e v wits v.couple true).fels
  have htr' : env.kel.transferable e.pre = true := by
    simp [Kever.transferable] at htr
    rw [← hpre]; exact htr.2
  rcases hi with h | h <;> rw [h] <;> dsimp only
  · rcases key with h | ⟨fn, w, c, a, h1, h2⟩
    · exact .inl h
    · exact .inr ⟨fn, w, c, a, h1, by simpa using hp, htr', h2⟩
  · rcases key with h | ⟨fn, w, c, a, h1, h2⟩
    · exact .inl h
    · exact .inr ⟨fn, w, c, a, h1, by simpa using hp, htr', h2⟩

theorem own_ixn {env : Env} (hs : SigLaw env) {n : Node} {k : Kever} {e : Event} (hk : n.kevers e.pre = some k) (hpre : k.pre = e.pre)
    (ho : n.owned e.pre = true) (hi : e.ilk = .ixn) (hsn : e.sn = k.sn + 1) (hsat : Thold.satisfy k.kt (List.range k.keys.length) = true) :
    Refused n (n.processEvent env.kel e (allSigs env k.keys e) [] none false true) ∨
    ∃ fn, Took n e (k.interacted e fn) (n.processEvent env.kel e (allSigs env k.keys e) [] none false true) := by
  unfold Node.processEvent
  by_cases hp : (!env.kel.okPre e.pre) = true
  · rw [if_pos hp]; exact .inl ⟨_, by simp, rfl⟩
  rw [if_neg hp, hk]
  have hni : ¬ (e.ilk = .icp ∨ e.ilk = .dip) := by rw [hi]; simp
  dsimp only
  rw [if_neg hni, if_neg (by omega), if_pos (.inl hsn)]
  unfold Node.update
  by_cases htr : (!k.transferable env.kel) = true
  · rw [if_pos htr]; exact .inl ⟨_, by simp, rfl⟩
  rw [if_neg htr, if_neg (by rw [hpre]; simp)]
  simp only [hi]
  unfold Node.updateIxn
  split
  · exact .inl ⟨_, by simp, rfl⟩
  split
  · exact .inl ⟨_, by simp, rfl⟩
  split
  · exact .inl ⟨_, by simp, rfl⟩
  rcases val_own hs (e := e) (keys := k.keys) (kt := k.kt) (toad := k.toad) (wits := k.wits) (by rw [hpre]; exact ho) hsat
    (by rw [hi]; rintro (h | h) <;> simp at h) with hv | ⟨v, hv, hw⟩
  · rw [hv]; exact .inl ⟨_, by simp, rfl⟩
  · rw [hv]
    refine .inr ⟨(n.db.fels e.pre).length, ⟨rfl, rfl, rfl, rfl, rfl, ?_, ?_⟩⟩
    · exact logged_acc n k _ e v [] none true rfl rfl
    · exact (acc_log n k (k.interacted e (n.db.fels e.pre).length) e v [] none true).fels

theorem incept_not_missing {env : Kel.Env} {e : Event} {x : Exn} (h : Kel.incept env e = .error x) : x ≠ .missingSignature := by
  unfold Kel.incept at h
  grind

theorem own_icp {env : Env} (hs : SigLaw env) {n : Node} {e : Event} (hk : n.kevers e.pre = none) (ho : n.owned e.pre = true)
    (hi : e.ilk = .icp ∨ e.ilk = .dip) (hsat : Thold.satisfy e.kt (List.range e.keys.length) = true) :
    Refused n (n.processEvent env.kel e (allSigs env e.keys e) [] none false true) ∨
    ∃ k1, Took n e k1 (n.processEvent env.kel e (allSigs env e.keys e) [] none false true) ∧ k1.pre = e.pre ∧ k1.keys = e.keys ∧ k1.kt = e.kt ∧
      k1.ndigs = e.ndigs ∧ k1.nt = e.nt ∧ k1.wits = e.wits ∧ k1.toad = e.toad ∧ k1.sn = e.sn ∧ k1.serder = e ∧ k1.estOnly = e.estOnly ∧
      k1.delpre = (if e.ilk = .dip then e.delpre else none) ∧
      env.kel.okPre e.pre = true ∧ (e.ndigs ≠ [] → env.kel.transferable e.pre = true) ∧ (∀ w ∈ e.wits, env.kel.okKey w = true) := by
  unfold Node.processEvent
  by_cases hp : (!env.kel.okPre e.pre) = true
  · rw [if_pos hp]; exact .inl ⟨_, by simp, rfl⟩
  rw [if_neg hp, hk]
  dsimp only
  rw [if_pos hi]
  unfold Node.inception
  split
  · exact .inl ⟨_, by simp, rfl⟩
  split
  · rename_i x hx; exact .inl ⟨x, incept_not_missing hx, rfl⟩
  rename_i k hin
  have hx : k.pre = e.pre ∧ k.keys = e.keys ∧ k.kt = e.kt ∧ k.ndigs = e.ndigs ∧ k.nt = e.nt ∧ k.wits = e.wits ∧ k.toad = e.toad ∧ k.sn = e.sn ∧ k.serder = e ∧
      k.estOnly = e.estOnly ∧ k.delpre = (if e.ilk = .dip then e.delpre else none) ∧ (e.ndigs ≠ [] → env.kel.transferable e.pre = true) := by
    unfold Kel.incept at hin
    iterate 4 (split at hin; · exact absurd hin (by simp))
    rename_i htr
    iterate 4 (split at hin; · exact absurd hin (by simp))
    injection hin with hin
    subst hin
    refine ⟨rfl, rfl, rfl, rfl, rfl, rfl, rfl, rfl, rfl, rfl, rfl, ?_⟩
    intro hne
    simp at htr
    cases h : env.kel.transferable e.pre
    · exact absurd (htr h) hne
    · rfl
  rcases val_own hs (k := k) (e := e) (keys := e.keys) (kt := e.kt) (toad := e.toad) (wits := e.wits) (by rw [hx.1]; exact ho) hsat
    (fun h' => by rcases hi with h | h <;> rcases h' with h' | h' <;> exact absurd (h.symm.trans h') (by simp)) with hv | ⟨v, hv, hw⟩
  · rw [hv]; exact .inl ⟨_, by simp, rfl⟩
  · rw [hv]
    obtain ⟨h1, h2, h3, h4, h5, h6, h7, h8, h9, h10, h11, h12⟩ := hx
    refine .inr ⟨{ k with fn := (n.db.fels e.pre).length }, ⟨rfl, rfl, rfl, rfl, rfl, ?_, ?_⟩, h1, h2, h3, h4, h5, h6, h7, h8, h9, h10, h11, by simpa using hp, h12, hw⟩
    · exact logged_acc n k _ e v e.wits v.couple true h8 h9
    · exact (acc_log n k { k with fn := (n.db.fels e.pre).length } e v e.wits v.couple true).fels

/-- A threshold that is a number from one to the number of keys, or has a weight for each key, is met when all keys sign. -/
theorem all_satisfy {t : Thold} {n : Nat} (h0 : t ≠ .num 0) (hn : Thold.size t ≤ n) (hw : ∀ cs, t = .wtd cs → Verif.Thold.WellFormed cs ∧ Thold.size t = n) :
    Thold.satisfy t (List.range n) = true := by
  cases t with
  | num m =>
    simp only [Thold.size, Verif.Thold.size] at hn
    simp only [Thold.satisfy, Verif.Thold.satisfyNum, List.length_range, decide_eq_true_eq]
    refine ⟨?_, hn⟩
    rcases Nat.eq_zero_or_pos m with rfl | h
    · exact absurd rfl h0
    · exact h
  | wtd cs =>
    obtain ⟨hwf, hsz⟩ := hw cs rfl
    rw [← hsz]
    have hpos : 0 < Verif.Thold.totalLeaves cs := by
      obtain ⟨h1, h2⟩ := hwf.nonempty
      cases cs with
      | nil => exact absurd rfl hwf.1
      | cons c cs =>
        have hc := h1 c (by simp)
        cases c with
        | nil => exact absurd rfl hc
        | cons el c =>
          simp only [Verif.Thold.totalLeaves, Verif.Thold.clauseLeaves, List.map_cons, List.sum_cons]
          cases el with
          | wt w => simp only [Verif.Thold.Elt.leaves]; omega
          | grp k ws =>
            have := h2 _ (List.mem_cons_self) k ws List.mem_cons_self
            have : 0 < ws.length := List.length_pos_iff.2 this
            simp only [Verif.Thold.Elt.leaves]; omega
    exact (Verif.Thold.c11_all_sign cs cs (by simp [Verif.Thold.make, hwf.2.1]) hpos).2

end Verif.Hab
