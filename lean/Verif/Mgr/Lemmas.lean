import Verif.Mgr.Spec

/-! # Lemmas on writes and on the parts of the manager's calls -/

namespace Verif.Mgr

open Verif.Kel (upd)

@[simp] theorem upd_same {α β} [DecidableEq α] (f : α → β) (a : α) (v : β) : upd f a v a = v := by simp [upd]

theorem upd_ne {α β} [DecidableEq α] (f : α → β) {a b : α} (v : β) (h : b ≠ a) : upd f a v b = f b := by simp [upd, h]

/-! ## Writes -/

@[simp] theorem applyAll_nil (ks : Ks) : ks.applyAll [] = ks := rfl
@[simp] theorem applyAll_cons (ks : Ks) (w : Wr) (ws : List Wr) : ks.applyAll (w :: ws) = (ks.apply w).applyAll ws := rfl
theorem applyAll_append (ks : Ks) (ws ws' : List Wr) : ks.applyAll (ws ++ ws') = (ks.applyAll ws).applyAll ws' := by
  simp [Ks.applyAll, List.foldl_append]

/-- A property of key stores kept by each of some writes is kept by all. -/
theorem applyAll_ind {P : Ks → Prop} {ws : List Wr} (h : ∀ w ∈ ws, ∀ ks, P ks → P (ks.apply w)) {ks : Ks} (hp : P ks) : P (ks.applyAll ws) := by
  induction ws generalizing ks with
  | nil => exact hp
  | cons w ws ih => exact ih (fun w' hw' => h w' (List.mem_cons_of_mem _ hw')) (h w (List.mem_cons_self ..) ks hp)

/-- Keys of the stores a write touches. -/
def Wr.sitKey : Wr → Option Nat
  | .sits k _ | .sitsRem k => some k
  | _ => none
def Wr.prmKey : Wr → Option Nat
  | .prms k _ | .prmsRem k => some k
  | _ => none
def Wr.presKey : Wr → Option Nat
  | .pres k _ => some k
  | _ => none
def Wr.pubKey : Wr → Option Nat
  | .pubsPut k _ _ => some k
  | _ => none
def Wr.priKey : Wr → Option Nat
  | .prisPut k _ | .prisPin k _ | .prisRem k => some k
  | _ => none
/-- A write to the general entries. -/
def Wr.gbl : Wr → Bool
  | .aeid _ | .pidx _ | .algo _ | .salt _ | .tier _ => true
  | _ => false

theorem apply_sits {ks : Ks} {w : Wr} {p : Nat} (h : w.sitKey ≠ some p) : (ks.apply w).sits p = ks.sits p := by
  cases w with
  | pubsPut k ri v => simp only [Ks.apply]; split <;> rfl
  | sits k v => exact upd_ne _ _ (by simpa [Wr.sitKey, eq_comm] using h)
  | sitsRem k => exact upd_ne _ _ (by simpa [Wr.sitKey, eq_comm] using h)
  | _ => rfl

theorem applyAll_sits {ks : Ks} {ws : List Wr} {p : Nat} (h : ∀ w ∈ ws, w.sitKey ≠ some p) : (ks.applyAll ws).sits p = ks.sits p :=
  applyAll_ind (P := fun k => k.sits p = ks.sits p) (fun w hw _ hk => (apply_sits (h w hw)).trans hk) rfl

theorem tbl_put_at {α} (t : Tbl α) (k : Nat) (v : α) (p : Nat) : (t.put k v).at' p = if p = k ∧ t.at' k = none then some v else t.at' p := by
  unfold Tbl.put Tbl.pin
  cases h : t.at' k with
  | some x => simp
  | none =>
    by_cases hp : p = k
    · subst hp; simp
    · simp [hp, upd_ne]

theorem tbl_pin_at {α} (t : Tbl α) (k : Nat) (v : α) : (t.pin k v).at' = upd t.at' k (some v) := rfl

theorem apply_prms {ks : Ks} {w : Wr} {p : Nat} (h : w.prmKey ≠ some p) : (ks.apply w).prms.at' p = ks.prms.at' p := by
  cases w with
  | pubsPut k ri v => simp only [Ks.apply]; split <;> rfl
  | prms k v => exact upd_ne _ _ (by simpa [Wr.prmKey, eq_comm] using h)
  | prmsRem k => exact upd_ne _ _ (by simpa [Wr.prmKey, eq_comm] using h)
  | _ => rfl

theorem applyAll_prms {ks : Ks} {ws : List Wr} {p : Nat} (h : ∀ w ∈ ws, w.prmKey ≠ some p) : (ks.applyAll ws).prms.at' p = ks.prms.at' p :=
  applyAll_ind (P := fun k => k.prms.at' p = ks.prms.at' p) (fun w hw _ hk => (apply_prms (h w hw)).trans hk) rfl

theorem apply_pres {ks : Ks} {w : Wr} {p : Nat} (h : w.presKey ≠ some p) : (ks.apply w).pres p = ks.pres p := by
  cases w with
  | pubsPut k ri v => simp only [Ks.apply]; split <;> rfl
  | pres k v => exact upd_ne _ _ (by simpa [Wr.presKey, eq_comm] using h)
  | _ => rfl

theorem applyAll_pres {ks : Ks} {ws : List Wr} {p : Nat} (h : ∀ w ∈ ws, w.presKey ≠ some p) : (ks.applyAll ws).pres p = ks.pres p :=
  applyAll_ind (P := fun k => k.pres p = ks.pres p) (fun w hw _ hk => (apply_pres (h w hw)).trans hk) rfl

/-- Identifiers stay known. -/
theorem apply_pres_some {ks : Ks} {w : Wr} {p : Nat} (h : ks.pres p ≠ none) : (ks.apply w).pres p ≠ none := by
  cases w with
  | pubsPut k ri v => simp only [Ks.apply]; split <;> exact h
  | pres k v =>
    simp only [Ks.apply]
    by_cases hp : p = k
    · subst hp; simp
    · rw [upd_ne _ _ hp]; exact h
  | _ => exact h

theorem applyAll_pres_some {ks : Ks} {ws : List Wr} {p : Nat} (h : ks.pres p ≠ none) : (ks.applyAll ws).pres p ≠ none :=
  applyAll_ind (P := fun k => k.pres p ≠ none) (fun _ _ _ hk => apply_pres_some hk) h

theorem apply_pubs {ks : Ks} {w : Wr} {p : Nat} (h : w.pubKey ≠ some p) : (ks.apply w).pubs p = ks.pubs p := by
  cases w with
  | pubsPut k ri v =>
    simp only [Ks.apply]
    split
    · rfl
    · exact upd_ne _ _ (by simpa [Wr.pubKey, eq_comm] using h)
  | _ => rfl

theorem applyAll_pubs {ks : Ks} {ws : List Wr} {p : Nat} (h : ∀ w ∈ ws, w.pubKey ≠ some p) : (ks.applyAll ws).pubs p = ks.pubs p :=
  applyAll_ind (P := fun k => k.pubs p = ks.pubs p) (fun w hw _ hk => (apply_pubs (h w hw)).trans hk) rfl

theorem apply_pris {ks : Ks} {w : Wr} {p : Nat} (h : w.priKey ≠ some p) : (ks.apply w).pris.at' p = ks.pris.at' p := by
  cases w with
  | pubsPut k ri v => simp only [Ks.apply]; split <;> rfl
  | prisPut k v =>
    show (ks.pris.put k v).at' p = _
    rw [tbl_put_at, if_neg]
    rintro ⟨rfl, -⟩; exact h rfl
  | prisPin k v => exact upd_ne _ _ (by simpa [Wr.priKey, eq_comm] using h)
  | prisRem k => exact upd_ne _ _ (by simpa [Wr.priKey, eq_comm] using h)
  | _ => rfl

theorem applyAll_pris {ks : Ks} {ws : List Wr} {p : Nat} (h : ∀ w ∈ ws, w.priKey ≠ some p) : (ks.applyAll ws).pris.at' p = ks.pris.at' p :=
  applyAll_ind (P := fun k => k.pris.at' p = ks.pris.at' p) (fun w hw _ hk => (apply_pris (h w hw)).trans hk) rfl

/-- The general entries. -/
def Ks.gbls (ks : Ks) : Option Nat × Option Nat × Option Algo × Option Sec × Option Nat := (ks.aeid, ks.pidx, ks.algo, ks.salt, ks.tier)

theorem apply_gbls {ks : Ks} {w : Wr} (h : w.gbl = false) : (ks.apply w).gbls = ks.gbls := by
  cases w with
  | pubsPut k ri v => simp only [Ks.apply]; split <;> rfl
  | aeid _ | pidx _ | algo _ | salt _ | tier _ => simp [Wr.gbl] at h
  | _ => rfl

/-- A write to the authentication identifier. -/
def Wr.isAeid : Wr → Bool
  | .aeid _ => true
  | _ => false

theorem apply_aeid {ks : Ks} {w : Wr} (h : w.isAeid = false) : (ks.apply w).aeid = ks.aeid := by
  cases w with
  | pubsPut k ri v => simp only [Ks.apply]; split <;> rfl
  | aeid _ => simp [Wr.isAeid] at h
  | _ => rfl

theorem applyAll_aeid {ks : Ks} {ws : List Wr} (h : ∀ w ∈ ws, w.isAeid = false) : (ks.applyAll ws).aeid = ks.aeid :=
  applyAll_ind (P := fun k => k.aeid = ks.aeid) (fun w hw _ hk => (apply_aeid (h w hw)).trans hk) rfl

/-- A private key that is there, or is stored, stays unless it is removed. -/
theorem apply_pris_kept {ks : Ks} {w : Wr} {p : Nat} (h : ks.pris.at' p ≠ none) (hw : ∀ k, w = .prisRem k → k ≠ p) :
    (ks.apply w).pris.at' p ≠ none := by
  cases w with
  | pubsPut k ri v => simp only [Ks.apply]; split <;> exact h
  | prisPut k v =>
    show (ks.pris.put k v).at' p ≠ none
    rw [tbl_put_at]
    split
    · simp
    · exact h
  | prisPin k v =>
    show upd ks.pris.at' k (some v) p ≠ none
    by_cases hp : p = k
    · subst hp; simp
    · rw [upd_ne _ _ hp]; exact h
  | prisRem k =>
    show upd ks.pris.at' k none p ≠ none
    rw [upd_ne _ _ (Ne.symm (hw k rfl))]; exact h
  | _ => exact h

theorem applyAll_pris_kept {ks : Ks} {ws : List Wr} {p : Nat} (h : ks.pris.at' p ≠ none) (hw : Wr.prisRem p ∉ ws) :
    (ks.applyAll ws).pris.at' p ≠ none :=
  applyAll_ind (P := fun k => k.pris.at' p ≠ none)
    (fun w hm _ hk => apply_pris_kept hk (by rintro k rfl rfl; exact hw hm)) h

theorem applyAll_pris_stored {ks : Ks} {ws : List Wr} {p : Nat} (h : p ∈ storedKeys ws) (hw : Wr.prisRem p ∉ ws) :
    (ks.applyAll ws).pris.at' p ≠ none := by
  induction ws generalizing ks with
  | nil => simp [storedKeys] at h
  | cons w ws ih =>
    have hw' : Wr.prisRem p ∉ ws := fun hm => hw (List.mem_cons_of_mem _ hm)
    by_cases hin : p ∈ storedKeys ws
    · exact ih hin hw'
    · cases w with
      | prisPut k v =>
        have : p = k := by
          have : p ∈ k :: storedKeys ws := by simpa [storedKeys] using h
          rcases List.mem_cons.1 this with h' | h'
          · exact h'
          · exact absurd h' hin
        subst this
        refine applyAll_pris_kept (ks := ks.apply (.prisPut p v)) ?_ hw'
        show (ks.pris.put p v).at' p ≠ none
        rw [tbl_put_at]
        split
        · simp
        · rename_i hne
          exact fun hc => hne ⟨rfl, hc⟩
      | _ => exact absurd (by simpa [storedKeys] using h) hin

/-! ## Private keys -/

theorem storedKeys_append (a b : List Wr) : storedKeys (a ++ b) = storedKeys a ++ storedKeys b := by simp [storedKeys]

theorem mem_storedKeys {ws : List Wr} {k : Nat} : k ∈ storedKeys ws ↔ ∃ v, Wr.prisPut k v ∈ ws := by
  unfold storedKeys
  simp only [List.mem_filterMap]
  constructor
  · rintro ⟨w, hw, he⟩
    cases w <;> simp at he
    subst he; exact ⟨_, hw⟩
  · rintro ⟨v, hv⟩; exact ⟨_, hv, rfl⟩

/-- Storing private keys. -/
def puts (enc : Option Nat) (l : List Nat) : List Wr := l.map fun k => .prisPut k (lock enc k)

theorem storedKeys_puts (enc : Option Nat) (l : List Nat) : storedKeys (puts enc l) = l := by
  induction l with
  | nil => rfl
  | cons k l ih => simpa [puts, storedKeys] using ih

theorem putPris_cases (env : Env) (enc : Option Nat) (l : List Nat) :
    (putPris env enc l = (puts enc l, .ok ()) ∧ (enc.isSome → ∀ k ∈ l, env.ed k = true)) ∨
      ∃ j, j < l.length ∧ putPris env enc l = (puts enc (l.take j), .error .code) ∧ enc.isSome ∧ ∃ k ∈ l, env.ed k = false := by
  induction l with
  | nil => exact .inl ⟨rfl, by simp⟩
  | cons k l ih =>
    unfold putPris
    by_cases hc : (enc.isSome && !env.ed k) = true
    · rw [if_pos hc]
      refine .inr ⟨0, by simp, rfl, ?_⟩
      simp at hc
      exact ⟨hc.1, k, by simp, hc.2⟩
    · rw [if_neg hc]
      rcases ih with ⟨h, he⟩ | ⟨j, hj, h, hs, k', hk', he⟩
      · rw [h]
        refine .inl ⟨rfl, fun hs k' hk' => ?_⟩
        rcases List.mem_cons.1 hk' with rfl | hm
        · simpa [hs] using hc
        · exact he hs k' hm
      · rw [h]
        exact .inr ⟨j + 1, by simpa using hj, rfl, hs, k', by simp [hk'], he⟩

theorem putPris_none (env : Env) (l : List Nat) : putPris env none l = (puts none l, .ok ()) := by
  rcases putPris_cases env none l with ⟨h, _⟩ | ⟨_, _, _, hs, _⟩
  · exact h
  · simp at hs

theorem mem_puts {enc : Option Nat} {l : List Nat} {w : Wr} (h : w ∈ puts enc l) : ∃ k ∈ l, w = .prisPut k (lock enc k) := by
  simp [puts] at h
  rcases h with ⟨k, hk, rfl⟩
  exact ⟨k, hk, rfl⟩

theorem unlock_ok {env : Env} {dec : Option Nat} {s : Sec} {x : Nat} (h : unlock env dec s = .ok x) :
    (s = .plain x ∧ dec = none) ∨ ∃ d, dec = some d ∧ s = .sealed (env.boxS d) x := by
  cases s with
  | plain y => cases dec <;> simp [unlock] at h; exact .inl ⟨by rw [h], rfl⟩
  | junk => cases dec <;> simp [unlock] at h
  | sealed b y =>
    cases dec with
    | none => simp [unlock] at h
    | some d =>
      simp only [unlock] at h
      split at h
      · rename_i hb
        simp at h
        exact .inr ⟨d, rfl, by rw [hb, h]⟩
      · exact absurd h (by simp)

/-- The form a stored private key has. -/
def Sec.holds (s : Sec) (k : Nat) : Prop := s = .plain k ∨ ∃ b, s = .sealed b k

theorem lock_holds (enc : Option Nat) (k : Nat) : (lock enc k).holds k := by
  cases enc with
  | none => exact .inl rfl
  | some b => exact .inr ⟨b, rfl⟩

theorem unlock_holds {env : Env} {dec : Option Nat} {s : Sec} {x k : Nat} (h : unlock env dec s = .ok x) (hs : s.holds k) : x = k := by
  rcases unlock_ok h with ⟨rfl, _⟩ | ⟨d, _, rfl⟩ <;> rcases hs with h' | ⟨b, h'⟩ <;> simp at h'
  · exact h'
  · exact h'.2

/-- Stored under each public key is its private key, and iteration meets them all. -/
structure Kept (ks : Ks) : Prop where
  pris : ∀ k s, ks.pris.at' k = some s → s.holds k
  dom : ∀ k, ks.pris.at' k ≠ none → k ∈ ks.pris.dom
  pdom : ∀ k, ks.prms.at' k ≠ none → k ∈ ks.prms.dom

/-- A write stores a private key under its public key. -/
def Wr.honest : Wr → Prop
  | .prisPut k v | .prisPin k v => v.holds k
  | _ => True

theorem tbl_put_dom {α} {t : Tbl α} (h : ∀ k, t.at' k ≠ none → k ∈ t.dom) (k : Nat) (v : α) :
    ∀ p, (t.pin k v).at' p ≠ none → p ∈ (t.pin k v).dom := by
  intro p hp
  have hp : upd t.at' k (some v) p ≠ none := hp
  have hsub : p ∈ t.dom → p ∈ (t.pin k v).dom := by
    intro hm; unfold Tbl.pin; dsimp only; split <;> simp [hm]
  by_cases hpk : p = k
  · subst hpk
    unfold Tbl.pin; dsimp only
    split
    · assumption
    · simp
  · rw [upd_ne _ _ hpk] at hp
    exact hsub (h p hp)

theorem Kept.apply {ks : Ks} (h : Kept ks) {w : Wr} (hw : w.honest) : Kept (ks.apply w) := by
  cases w with
  | pubsPut k ri v =>
    simp only [Ks.apply]
    split
    · exact h
    · exact ⟨h.pris, h.dom, h.pdom⟩
  | prisPut k v =>
    refine ⟨fun p s hs => ?_, ?_, h.pdom⟩
    · have hs : (ks.pris.put k v).at' p = some s := hs
      rw [tbl_put_at] at hs
      split at hs
      · rename_i hc
        cases hs
        rw [hc.1]; exact hw
      · exact h.pris p s hs
    · show ∀ p, (ks.pris.put k v).at' p ≠ none → p ∈ (ks.pris.put k v).dom
      unfold Tbl.put
      split
      · exact h.dom
      · exact tbl_put_dom h.dom k v
  | prisPin k v =>
    refine ⟨fun p s hs => ?_, tbl_put_dom h.dom k v, h.pdom⟩
    have hs : upd ks.pris.at' k (some v) p = some s := hs
    by_cases hp : p = k
    · subst hp
      simp at hs; subst hs; exact hw
    · rw [upd_ne _ _ hp] at hs; exact h.pris p s hs
  | prisRem k =>
    refine ⟨fun p s hs => ?_, fun p hp => ?_, h.pdom⟩
    · have hs : upd ks.pris.at' k none p = some s := hs
      by_cases hp : p = k
      · subst hp; simp at hs
      · rw [upd_ne _ _ hp] at hs; exact h.pris p s hs
    · have hp : upd ks.pris.at' k none p ≠ none := hp
      by_cases hpk : p = k
      · subst hpk; simp at hp
      · rw [upd_ne _ _ hpk] at hp; exact h.dom p hp
  | prms k v => exact ⟨h.pris, h.dom, tbl_put_dom h.pdom k v⟩
  | prmsRem k =>
    refine ⟨h.pris, h.dom, fun p hp => ?_⟩
    have hp : upd ks.prms.at' k none p ≠ none := hp
    by_cases hpk : p = k
    · subst hpk; simp at hp
    · rw [upd_ne _ _ hpk] at hp; exact h.pdom p hp
  | _ => exact ⟨h.pris, h.dom, h.pdom⟩

theorem Kept.applyAll {ks : Ks} (h : Kept ks) {ws : List Wr} (hw : ∀ w ∈ ws, w.honest) : Kept (ks.applyAll ws) :=
  applyAll_ind (P := Kept) (fun w hm _ hk => hk.apply (hw w hm)) h

theorem readPris_ok {env : Env} {ks : Ks} {mem : Mem} (hk : Kept ks) {l xs : List Nat} (h : readPris env ks mem l = .ok xs) :
    xs = l ∧ ∀ k ∈ l, ks.pris.at' k ≠ none := by
  induction l generalizing xs with
  | nil => simp [readPris] at h; exact ⟨h, by simp⟩
  | cons k l ih =>
    unfold readPris at h
    split at h
    · exact absurd h (by simp)
    split at h
    · exact absurd h (by simp)
    rename_i s hs
    split at h
    · exact absurd h (by simp)
    rename_i x hx
    split at h
    · exact absurd h (by simp)
    rename_i ys hys
    have := ih hys
    simp at h
    refine ⟨by rw [← h, this.1, unlock_holds hx (hk.pris k s hs)], ?_⟩
    intro p hp
    rcases List.mem_cons.1 hp with rfl | hm
    · simp [hs]
    · exact this.2 p hm

/-- Keys that are there in the form the manager reads are read. -/
theorem readPris_present {env : Env} {ks : Ks} {mem : Mem} {l : List Nat} (ha : ks.aeid.isSome → mem.dec.isSome)
    (h : ∀ k ∈ l, ∃ s, ks.pris.at' k = some s ∧ unlock env mem.dec s = .ok k) : readPris env ks mem l = .ok l := by
  induction l with
  | nil => rfl
  | cons k l ih =>
    unfold readPris
    obtain ⟨s, hs, hu⟩ := h k (by simp)
    rw [if_neg (by
      intro hc
      simp at hc
      have := ha hc.1
      simp [hc.2] at this), hs]
    simp only [hu, ih (fun k' hk' => h k' (List.mem_cons_of_mem _ hk'))]

end Verif.Mgr
