import Verif.Mgr.Frame

/-!
# C74: secrets at rest are encrypted, and open with the right seed only
-/

namespace Verif.Mgr

open Verif.Kel (upd)

/-- Secrets are in the form made for box key `b`, and what is encrypted can be. -/
structure Shut (env : Env) (b : Option Nat) (ks : Ks) : Prop where
  locked : Locked b ks
  ed : b.isSome → ∀ k, ks.pris.at' k ≠ none → env.ed k = true
  salted : b.isSome → ks.salt ≠ none

/-- A write of secrets in the form for `b`. -/
def Wr.suits (env : Env) (b : Option Nat) : Wr → Prop
  | .prisPut k v | .prisPin k v => v = lock b k ∧ (b.isSome → env.ed k = true)
  | .prms _ p => ∀ s, p.salt = some s → ∃ x, s = lock b x
  | .salt s => ∃ x, s = lock b x
  | _ => True

theorem Shut.apply {env : Env} {b : Option Nat} {ks : Ks} (h : Shut env b ks) {w : Wr} (hw : w.suits env b) : Shut env b (ks.apply w) := by
  have keep : ∀ {ks' : Ks}, ks'.pris = ks.pris → ks'.prms = ks.prms → ks'.salt = ks.salt → Shut env b ks' := by
    intro ks' h1 h2 h3
    exact ⟨⟨by rw [h1]; exact h.locked.pris, by rw [h2]; exact h.locked.prms, by rw [h3]; exact h.locked.salt⟩, by rw [h1]; exact h.ed, by rw [h3]; exact h.salted⟩
  cases w with
  | aeid a => exact keep rfl rfl rfl
  | pidx a => exact keep rfl rfl rfl
  | algo a => exact keep rfl rfl rfl
  | tier a => exact keep rfl rfl rfl
  | pres k v => exact keep rfl rfl rfl
  | sits k v => exact keep rfl rfl rfl
  | sitsRem k => exact keep rfl rfl rfl
  | pubsPut k ri v => simp only [Ks.apply]; split <;> exact keep rfl rfl rfl
  | salt s =>
    exact ⟨⟨h.locked.pris, h.locked.prms, fun t ht => by simp only [Ks.apply, Option.some.injEq] at ht; subst ht; exact hw⟩, h.ed, fun _ => by simp [Ks.apply]⟩
  | prms k p =>
    refine ⟨⟨h.locked.pris, fun q pq s hq hs => ?_, h.locked.salt⟩, h.ed, h.salted⟩
    have hq : upd ks.prms.at' k (some p) q = some pq := hq
    by_cases hqk : q = k
    · subst hqk; simp at hq; subst hq; exact hw s hs
    · rw [upd_ne _ _ hqk] at hq; exact h.locked.prms q pq s hq hs
  | prmsRem k =>
    refine ⟨⟨h.locked.pris, fun q pq s hq hs => ?_, h.locked.salt⟩, h.ed, h.salted⟩
    have hq : upd ks.prms.at' k none q = some pq := hq
    by_cases hqk : q = k
    · subst hqk; simp at hq
    · rw [upd_ne _ _ hqk] at hq; exact h.locked.prms q pq s hq hs
  | prisPut k v =>
    have hat : ∀ q, (ks.pris.put k v).at' q = if q = k ∧ ks.pris.at' k = none then some v else ks.pris.at' q := tbl_put_at _ _ _
    refine ⟨⟨fun q s hq => ?_, h.locked.prms, h.locked.salt⟩, fun hb q hq => ?_, h.salted⟩
    · have hq : (ks.pris.put k v).at' q = some s := hq
      rw [hat] at hq
      split at hq
      · rename_i hc; simp at hq; subst hq; rw [hc.1]; exact hw.1
      · exact h.locked.pris q s hq
    · have hq : (ks.pris.put k v).at' q ≠ none := hq
      rw [hat] at hq
      split at hq
      · rename_i hc; rw [hc.1]; exact hw.2 hb
      · exact h.ed hb q hq
  | prisPin k v =>
    refine ⟨⟨fun q s hq => ?_, h.locked.prms, h.locked.salt⟩, fun hb q hq => ?_, h.salted⟩
    · have hq : upd ks.pris.at' k (some v) q = some s := hq
      by_cases hqk : q = k
      · subst hqk; simp at hq; subst hq; exact hw.1
      · rw [upd_ne _ _ hqk] at hq; exact h.locked.pris q s hq
    · have hq : upd ks.pris.at' k (some v) q ≠ none := hq
      by_cases hqk : q = k
      · subst hqk; exact hw.2 hb
      · rw [upd_ne _ _ hqk] at hq; exact h.ed hb q hq
  | prisRem k =>
    refine ⟨⟨fun q s hq => ?_, h.locked.prms, h.locked.salt⟩, fun hb q hq => ?_, h.salted⟩
    · have hq : upd ks.pris.at' k none q = some s := hq
      by_cases hqk : q = k
      · subst hqk; simp at hq
      · rw [upd_ne _ _ hqk] at hq; exact h.locked.pris q s hq
    · have hq : upd ks.pris.at' k none q ≠ none := hq
      by_cases hqk : q = k
      · subst hqk; simp at hq
      · rw [upd_ne _ _ hqk] at hq; exact h.ed hb q hq

theorem Shut.applyAll {env : Env} {b : Option Nat} {ks : Ks} (h : Shut env b ks) {ws : List Wr} (hw : ∀ w ∈ ws, w.suits env b) :
    Shut env b (ks.applyAll ws) :=
  applyAll_ind (P := Shut env b) (fun w hm _ hs => hs.apply (hw w hm)) h

/-! ## Calls on identifiers -/

theorem putPris_suits {env : Env} {b : Option Nat} : ∀ {l : List Nat} {w : Wr}, w ∈ (putPris env b l).1 → w.suits env b
  | [], _, h => by simp [putPris] at h
  | k :: rest, w, h => by
    unfold putPris at h
    split at h
    · simp at h
    rename_i hc
    rcases List.mem_cons.1 h with rfl | h
    · refine ⟨rfl, fun hb => ?_⟩
      cases he : env.ed k <;> simp [hb, he] at hc
      rfl
    · exact putPris_suits h

theorem prm_suits {env : Env} {b : Option Nat} {pre pidx tier : Nat} {algo : Algo} {stem : List Char} (salt : Option Nat) :
    (Wr.prms pre ⟨pidx, algo, salt.map (lock b), stem, tier⟩).suits env b := by
  intro s hs
  cases salt with
  | none => simp at hs
  | some x => simp at hs; exact ⟨x, hs.symm⟩

theorem inceptWr_suits {env : Env} {ks : Ks} {mem : Mem} {cr : Creator} {pidx : Nat} {pubs nxts : List Nat} {w : Wr}
    (h : w ∈ (inceptWr env ks mem cr pidx pubs nxts).1) : w.suits env mem.enc := by
  unfold inceptWr at h
  split at h
  · simp at h
  rename_i pre rest
  have hi := @putPris_suits env mem.enc (pre :: rest)
  have hn := @putPris_suits env mem.enc nxts
  dsimp only at h
  split at h
  · simp at h
  split at h
  · simp at h; subst h; trivial
  split at h
  · simp only [List.mem_append, List.mem_cons, List.not_mem_nil, or_false] at h
    rcases h with rfl | rfl | rfl
    · trivial
    · exact prm_suits cr.salt
    · trivial
  generalize putPris env mem.enc (pre :: rest) = ri at h hi
  generalize putPris env mem.enc nxts = rn at h hn
  rcases ri with ⟨wi, e | u⟩
  · simp only [List.mem_append, List.mem_cons, List.not_mem_nil, or_false] at h
    rcases h with ((rfl | rfl | rfl) | rfl) | h
    · trivial
    · exact prm_suits cr.salt
    · trivial
    · trivial
    · exact hi h
  rcases rn with ⟨wn, e | u⟩
  · simp only [List.mem_append, List.mem_cons, List.not_mem_nil, or_false] at h
    rcases h with ((((rfl | rfl | rfl) | rfl) | h) | rfl) | h
    · trivial
    · exact prm_suits cr.salt
    · trivial
    · trivial
    · exact hi h
    · trivial
    · exact hn h
  · simp only [List.mem_append, List.mem_cons, List.not_mem_nil, or_false] at h
    rcases h with (((((rfl | rfl | rfl) | rfl) | h) | rfl) | h) | rfl
    · trivial
    · exact prm_suits cr.salt
    · trivial
    · trivial
    · exact hi h
    · trivial
    · exact hn h
    · trivial

theorem incept_suits {env : Env} {ks : Ks} {mem : Mem} {a : InceptArgs} {w : Wr} (h : w ∈ (incept env ks mem a).1) : w.suits env mem.enc := by
  rcases incept_cases env ks mem a with ⟨e, he⟩ | ⟨t, pidx, cr, icodes, ncodes, _, _, _, _, _, he⟩ <;> rw [he] at h
  · simp at h
  · exact inceptWr_suits h

theorem rotate_suits {env : Env} {ks : Ks} {mem : Mem} {pre : Nat} {a : RotateArgs} {w : Wr} (h : w ∈ (rotate env ks mem pre a).1) :
    w.suits env mem.enc := by
  unfold rotate at h
  split at h
  · simp at h
  split at h
  · simp at h
  split at h
  · simp at h
  split at h
  · simp at h
  split at h
  · simp at h
  split at h
  · simp at h
  split at h
  · simp at h
  rename_i cr hcr _ ncodes hnc
  dsimp only at h
  generalize cr.create env a.rnd ncodes _ _ _ a.tr a.temp = nxts at h
  have hn := @putPris_suits env mem.enc nxts
  generalize putPris env mem.enc nxts = rn at h hn
  rcases rn with ⟨wn, e | u⟩
  · simp only [List.mem_append, List.mem_cons, List.not_mem_nil, or_false] at h
    rcases h with rfl | h
    · trivial
    · exact hn h
  · simp only [List.mem_append, List.mem_cons, List.not_mem_nil, or_false] at h
    rcases h with ((rfl | h) | rfl) | h
    · trivial
    · exact hn h
    · trivial
    · split at h
      · obtain ⟨k, _, rfl⟩ := List.mem_map.1 h; trivial
      · simp at h

theorem replay_suits {env : Env} {ks : Ks} {mem : Mem} {pre : Nat} {adv er : Bool} {b : Option Nat} {w : Wr}
    (h : w ∈ (replay env ks mem pre adv er).1) : w.suits env b := by
  rcases replay_cases env ks mem pre adv er with ⟨e, he⟩ | ⟨prm, ps, v, _, _, ⟨_, pubs, _, _, he⟩ | ⟨_, _, he⟩⟩
  · rw [he] at h; simp at h
  · rw [he] at h
    rcases List.mem_cons.1 h with rfl | h
    · trivial
    · split at h
      · obtain ⟨k, _, rfl⟩ := List.mem_map.1 h; trivial
      · simp at h
  · rw [he] at h; simp at h

theorem move_suits {env : Env} {ks : Ks} {old new : Nat} {b : Option Nat} (hs : Shut env b ks) {w : Wr} (h : w ∈ (move ks old new).1) :
    w.suits env b := by
  rcases move_cases ks old new with ⟨r, hr, _⟩ | ⟨prm, sit, wp, o⟩
  · rw [hr] at h; simp at h
  · have hwp : ∀ {w : Wr}, w ∈ wp → w.suits env b := by
      intro w hw
      rw [o.hwp] at hw
      obtain ⟨j, l, _, rfl⟩ := movePubs_mem hw
      trivial
    have hp : (Wr.prms new prm).suits env b := fun s h => hs.locked.prms old prm s o.hprm h
    rcases o.outcome with ⟨_, ho⟩ | ⟨e, _, ho⟩ <;> rw [ho] at h <;>
      simp only [List.mem_append, List.mem_cons, List.not_mem_nil, or_false] at h
    · rcases h with ((rfl | rfl | rfl | rfl) | h) | rfl | rfl <;> first | exact hwp h | exact hp | trivial
    · rcases h with (rfl | rfl | rfl | rfl) | h <;> first | exact hwp h | exact hp | trivial

theorem Wr.about.suits {env : Env} {p : Nat} {w : Wr} (h : w.about p none) (hp : ∀ k q, w = .prms k q → ∀ s, q.salt = some s → ∃ x, s = lock none x) :
    w.suits env none := by
  cases w with
  | prisPut k v => exact ⟨h, by simp⟩
  | prms k q => exact hp k q rfl
  | prisPin k v => exact absurd h (by simp [Wr.about])
  | salt s => exact absurd h (by simp [Wr.about])
  | _ => trivial

theorem ingestLoop_prms {env : Env} {enc : Option Nat} {iridx pre : Nat} {k : Nat} {q : Prm} : ∀ {secs : List (List Nat)} {ridx kidx : Nat} {sit : Option Sit},
    Wr.prms k q ∉ (ingestLoop env enc iridx pre secs ridx kidx sit).1
  | [], _, _, _ => by simp [ingestLoop]
  | pubs :: rest, ridx, kidx, sit => by
    intro h
    unfold ingestLoop at h
    have hput : Wr.prms k q ∉ (putPris env enc pubs).1 := by
      intro hw
      rcases putPris_cases env enc pubs with ⟨hp, _⟩ | ⟨j, _, hp, _⟩ <;> rw [hp] at hw <;> obtain ⟨k, _, he⟩ := mem_puts hw <;> cases he
    generalize hp : putPris env enc pubs = pp at h hput
    rcases pp with ⟨wp, e | u⟩
    · exact hput h
    · dsimp only at h hput
      have hw : Wr.prms k q ∉ (if ridx = iridx - 1 then (wp ++ [Wr.pubsPut pre ridx pubs] ++
            [.sits pre ⟨if iridx = 0 then .empty else ⟨pubs, ridx, kidx⟩, .empty, .empty⟩], some (⟨if iridx = 0 then .empty else ⟨pubs, ridx, kidx⟩, .empty, .empty⟩ : Sit))
          else (wp ++ [Wr.pubsPut pre ridx pubs], sit)).1 := by
        split <;> simp [hput]
      generalize hq : (if ridx = iridx - 1 then (wp ++ [Wr.pubsPut pre ridx pubs] ++
            [.sits pre ⟨if iridx = 0 then .empty else ⟨pubs, ridx, kidx⟩, .empty, .empty⟩], some (⟨if iridx = 0 then .empty else ⟨pubs, ridx, kidx⟩, .empty, .empty⟩ : Sit))
          else (wp ++ [Wr.pubsPut pre ridx pubs], sit)) = q at h hw
      rcases q with ⟨wq, sq⟩
      dsimp only at h hw
      split at h
      · split at h
        · exact hw h
        · simp [hw] at h
          exact ingestLoop_prms h
      · split at h
        · split at h
          · exact hw h
          · simp [hw] at h
            exact ingestLoop_prms h
        · simp [hw] at h
          exact ingestLoop_prms h

/-- Parameters are written by `ingest` in the form for the encrypter. -/
theorem ingest_prms {env : Env} {ks : Ks} {mem : Mem} {a : IngestArgs} {k : Nat} {q : Prm} (h : Wr.prms k q ∈ (ingest env ks mem a).1) :
    ∀ s, q.salt = some s → ∃ x, s = lock mem.enc x := by
  have hpn : ∀ {l : List Nat}, Wr.prms k q ∉ (putPris env none l).1 := by
    intro l hw
    rw [putPris_none] at hw
    obtain ⟨k, _, he⟩ := mem_puts hw
    cases he
  unfold ingest at h
  split at h
  · simp at h
  split at h
  · simp at h
  split at h
  · simp at h
  split at h
  · simp at h
  rename_i cr _
  split at h
  · exact absurd h hpn
  · simp at h
  rename_i pre _ _ hsecs
  split at h
  · simp at h
  split at h
  · simp at h
  split at h
  · simp at h
  dsimp only at h
  have hl := @ingestLoop_prms env mem.enc a.iridx pre k q a.secs 0 0 (ks.sits pre)
  generalize hr : ingestLoop env mem.enc a.iridx pre a.secs 0 0 (ks.sits pre) = r at h hl
  have fin : ∀ {pidx' : Nat}, q = ⟨pidx', cr.algo, cr.salt.map (lock mem.enc), cr.stem, cr.tier⟩ → ∀ s, q.salt = some s → ∃ x, s = lock mem.enc x := by
    intro pidx' hq
    rw [hq]
    exact prm_suits (env := env) (pre := 0) cr.salt
  rcases r with ⟨wl, e | ⟨ridx, kidx, sit⟩⟩
  · simp [hl] at h
    exact fin h.2
  · dsimp only at h hl
    split at h
    · split at h
      · simp [hl, hpn] at h; exact fin h.2
      · simp [hl, hpn] at h; exact fin h.2
    · simp [hl, hpn] at h; exact fin h.2

/-! ## Changing the authentication identifier -/

theorem reencPrms_locks {env : Env} {ks : Ks} {dec enc : Option Nat} : ∀ {l : List Nat} {ks' : Ks},
    (reencPrms env ks dec enc l).2 = .ok () →
    (∀ k p s, ks'.prms.at' k = some p → p.salt = some s → (∃ x, s = lock enc x) ∨ (k ∈ l ∧ ks.prms.at' k = some p)) →
    ∀ k p s, (ks'.applyAll (reencPrms env ks dec enc l).1).prms.at' k = some p → p.salt = some s → ∃ x, s = lock enc x
  | [], ks', _, h => by
    intro k p s hk hs
    rcases h k p s hk hs with h | h
    · exact h
    · exact absurd h.1 (by simp)
  | q :: rest, ks', hr, h => by
    unfold reencPrms at hr ⊢
    split
    · rename_i hq
      rw [hq] at hr
      refine reencPrms_locks hr fun k p s hk hs => (h k p s hk hs).imp id fun ⟨hm, he⟩ => ⟨?_, he⟩
      rcases List.mem_cons.1 hm with rfl | hm
      · rw [hq] at he; simp at he
      · exact hm
    rename_i prm hq
    rw [hq] at hr
    dsimp only at hr
    split
    · rename_i hns
      rw [hns] at hr
      refine reencPrms_locks hr fun k p s hk hs => (h k p s hk hs).imp id fun ⟨hm, he⟩ => ⟨?_, he⟩
      rcases List.mem_cons.1 hm with rfl | hm
      · rw [hq] at he; simp at he; subst he; rw [hns] at hs; simp at hs
      · exact hm
    rename_i s0 hs0
    rw [hs0] at hr
    dsimp only at hr
    split
    · rename_i e he
      rw [he] at hr; simp at hr
    rename_i x hx
    rw [hx] at hr
    dsimp only at hr ⊢
    rw [applyAll_cons]
    refine reencPrms_locks hr fun k p s hk hs => ?_
    have hk : upd ks'.prms.at' q (some { prm with salt := some (lock enc x) }) k = some p := hk
    by_cases hkq : k = q
    · subst hkq
      simp at hk; subst hk
      simp at hs
      exact .inl ⟨x, hs.symm⟩
    · rw [upd_ne _ _ hkq] at hk
      exact (h k p s hk hs).imp id fun ⟨hm, he⟩ => ⟨(List.mem_cons.1 hm).resolve_left hkq, he⟩

theorem reencPrms_done {env : Env} {ks : Ks} {dec enc : Option Nat} (h : ∀ k p s, ks.prms.at' k = some p → p.salt = some s → ∃ x, unlock env dec s = .ok x) :
    ∀ l, (reencPrms env ks dec enc l).2 = .ok ()
  | [] => rfl
  | k :: rest => by
    unfold reencPrms
    split
    · exact reencPrms_done h rest
    rename_i p hp
    split
    · exact reencPrms_done h rest
    rename_i s hs
    obtain ⟨x, hx⟩ := h k p s hp hs
    rw [hx]
    exact reencPrms_done h rest

theorem reencPris_locks {env : Env} {ks : Ks} (hkept : Kept ks) {dec enc : Option Nat} : ∀ {l : List Nat} {ks' : Ks},
    (reencPris env ks dec enc l).2 = .ok () →
    (∀ k s, ks'.pris.at' k = some s → (s = lock enc k ∧ (enc.isSome → env.ed k = true)) ∨ (k ∈ l ∧ ks.pris.at' k = some s)) →
    ∀ k s, (ks'.applyAll (reencPris env ks dec enc l).1).pris.at' k = some s → s = lock enc k ∧ (enc.isSome → env.ed k = true)
  | [], ks', _, h => by
    intro k s hk
    rcases h k s hk with h | h
    · exact h
    · exact absurd h.1 (by simp)
  | q :: rest, ks', hr, h => by
    unfold reencPris at hr ⊢
    split
    · rename_i hq
      rw [hq] at hr
      refine reencPris_locks hkept hr fun k s hk => (h k s hk).imp id fun ⟨hm, he⟩ => ⟨?_, he⟩
      rcases List.mem_cons.1 hm with rfl | hm
      · rw [hq] at he; simp at he
      · exact hm
    rename_i s0 hq
    rw [hq] at hr
    dsimp only at hr
    split
    · rename_i e he
      rw [he] at hr; simp at hr
    rename_i x hx
    rw [hx] at hr
    dsimp only at hr
    split
    · rename_i hc
      rw [if_pos hc] at hr; simp at hr
    rename_i hc
    rw [if_neg hc] at hr
    dsimp only at hr ⊢
    rw [applyAll_cons]
    refine reencPris_locks hkept hr fun k s hk => ?_
    have hk : upd ks'.pris.at' q (some (lock enc x)) k = some s := hk
    by_cases hkq : k = q
    · subst hkq
      have hxk : x = k := unlock_holds hx (hkept.pris k s0 hq)
      subst hxk
      simp at hk
      refine .inl ⟨hk.symm, fun hb => ?_⟩
      cases he : env.ed x <;> simp [hb, he] at hc
      rfl
    · rw [upd_ne _ _ hkq] at hk
      exact (h k s hk).imp id fun ⟨hm, he⟩ => ⟨(List.mem_cons.1 hm).resolve_left hkq, he⟩

theorem reencPris_done {env : Env} {ks : Ks} (hkept : Kept ks) {dec enc : Option Nat} (h : ∀ k s, ks.pris.at' k = some s → ∃ x, unlock env dec s = .ok x)
    (he : enc.isSome → ∀ k, ks.pris.at' k ≠ none → env.ed k = true) : ∀ l, (reencPris env ks dec enc l).2 = .ok ()
  | [] => rfl
  | k :: rest => by
    unfold reencPris
    split
    · exact reencPris_done hkept h he rest
    rename_i s hs
    obtain ⟨x, hx⟩ := h k s hs
    rw [hx]
    have hxk : x = k := unlock_holds hx (hkept.pris k s hs)
    have hc : ¬ (enc.isSome && !env.ed x) = true := by
      cases hb : enc.isSome
      · simp
      · rw [hxk, he hb k (by rw [hs]; simp)]; simp
    dsimp only
    rw [if_neg hc]
    exact reencPris_done hkept h he rest

theorem unlock_lock {env : Env} {dec b : Option Nat} (h : b = dec.map env.boxS) (x : Nat) : unlock env dec (lock b x) = .ok x := by
  subst h
  cases dec with
  | none => rfl
  | some s => simp [unlock, lock]

theorem reencPrms_prmKey {env : Env} {ks : Ks} {dec enc : Option Nat} {l : List Nat} {w : Wr} (h : w ∈ (reencPrms env ks dec enc l).1) :
    w.priKey = none ∧ w.gbl = false := by
  induction l with
  | nil => simp [reencPrms] at h
  | cons k rest ih =>
    unfold reencPrms at h
    split at h
    · exact ih h
    split at h
    · exact ih h
    split at h
    · simp at h
    rcases List.mem_cons.1 h with rfl | h
    · exact ⟨rfl, rfl⟩
    · exact ih h

theorem reencPris_priKey {env : Env} {ks : Ks} {dec enc : Option Nat} {l : List Nat} {w : Wr} (h : w ∈ (reencPris env ks dec enc l).1) :
    w.prmKey = none ∧ w.gbl = false := by
  induction l with
  | nil => simp [reencPris] at h
  | cons k rest ih =>
    unfold reencPris at h
    split at h
    · exact ih h
    split at h
    · simp at h
    split at h
    · simp at h
    rcases List.mem_cons.1 h with rfl | h
    · exact ⟨rfl, rfl⟩
    · exact ih h

theorem applyAll_gbls {ks : Ks} {ws : List Wr} (h : ∀ w ∈ ws, w.gbl = false) : (ks.applyAll ws).gbls = ks.gbls :=
  applyAll_ind (P := fun k => k.gbls = ks.gbls) (fun w hw _ hk => by rw [apply_gbls (h w hw)]; exact hk) rfl

/-- Re-encryption of a key store that is locked for the decrypter in use, or holds no keys yet, succeeds and leaves it locked for the new encrypter. -/
theorem reencrypt_shut {env : Env} {ks : Ks} (hkept : Kept ks) {mem : Mem} {b enc aeid : Option Nat} (hs : Shut env b ks) (hb : b = mem.dec.map env.boxS)
    (hsalt : ks.salt ≠ none) (hd : mem.dec = none → enc = none ∨ ks.Bare) (hsalted : enc = aeid.map env.boxA) :
    (reencrypt env ks mem enc aeid).2 = .ok () ∧ Shut env (aeid.map env.boxA) (ks.applyAll (reencrypt env ks mem enc aeid).1) ∧
      (ks.applyAll (reencrypt env ks mem enc aeid).1).aeid = aeid ∧ (ks.applyAll (reencrypt env ks mem enc aeid).1).salt ≠ none := by
  rw [← hsalted]
  obtain ⟨s, hss⟩ := Option.ne_none_iff_exists'.1 hsalt
  obtain ⟨x, hx⟩ := hs.locked.salt s hss
  have hread : readSalt env ks mem = .ok (some (.plain x)) := by
    unfold readSalt
    split
    · rename_i hdec
      rw [hss, hx, hb, hdec]; rfl
    · rename_i d hdec
      rw [hss]
      dsimp only
      rw [hx, unlock_lock hb]
  have hout : saltOut enc (.plain x) = lock enc x := by cases enc <;> rfl
  unfold reencrypt
  rw [hread]
  dsimp only
  rw [hout]
  cases hdec : mem.dec with
  | none =>
    have hb' : b = none := by rw [hb, hdec]; rfl
    refine ⟨rfl, ?_, by simp [Ks.apply], by simp [Ks.apply]⟩
    show Shut env enc ((ks.apply (.salt (lock enc x))).apply (.aeid aeid))
    have hsl : ∀ {P : Prop}, P → P := id
    rcases hd hdec with he | he
    · subst he; subst hb'
      exact (hs.apply (w := .salt (lock none x)) ⟨x, rfl⟩).apply (w := .aeid aeid) trivial
    · refine ⟨⟨fun k s hk => ?_, fun k p s hk _ => ?_, fun s hk => ?_⟩, fun _ k hk => ?_, fun _ => by simp [Ks.apply]⟩
      · exact absurd hk (by simp [Ks.apply, he.2 k])
      · exact absurd hk (by simp [Ks.apply, he.1 k])
      · simp [Ks.apply] at hk; exact ⟨x, hk.symm⟩
      · exact absurd (he.2 k) hk
  | some d =>
    dsimp only
    rw [← hdec]
    have h1 : (reencPrms env ks mem.dec enc ks.prms.dom).2 = .ok () := by
      refine reencPrms_done (fun k p s hk hp => ?_) _
      obtain ⟨y, hy⟩ := hs.locked.prms k p s hk hp
      exact ⟨y, by rw [hy, unlock_lock hb]⟩
    have h2 : (reencPris env ks mem.dec enc ks.pris.dom).2 = .ok () := by
      refine reencPris_done hkept (fun k s hk => ⟨k, ?_⟩) (fun _ => hs.ed (by rw [hb, hdec]; rfl)) _
      rw [hs.locked.pris k s hk, unlock_lock hb]
    have l1 := @reencPrms_locks env ks mem.dec enc ks.prms.dom (ks.apply (.salt (lock enc x))) h1
      (fun k p s hk _ => .inr ⟨hkept.pdom k (by rw [show ks.prms.at' k = some p from hk]; simp), hk⟩)
    have k1 := @reencPrms_prmKey env ks mem.dec enc ks.prms.dom
    have k2 := @reencPris_priKey env ks mem.dec enc ks.pris.dom
    generalize hw1 : (reencPrms env ks mem.dec enc ks.prms.dom) = r1 at h1 l1 k1
    have l2 := @reencPris_locks env ks hkept mem.dec enc ks.pris.dom ((ks.apply (.salt (lock enc x))).applyAll r1.1) h2
      (fun k s hk => .inr (by
        rw [applyAll_pris (fun w hw => by rw [(k1 hw).1]; simp)] at hk
        exact ⟨hkept.dom k (by rw [show ks.pris.at' k = some s from hk]; simp), hk⟩))
    generalize hw2 : (reencPris env ks mem.dec enc ks.pris.dom) = r2 at h2 l2 k2
    rcases r1 with ⟨w1, u1⟩
    rcases r2 with ⟨w2, u2⟩
    dsimp only at h1 h2 l1 l2 k1 k2
    subst h1; subst h2
    dsimp only
    have hfin : ks.applyAll ([Wr.salt (lock enc x)] ++ w1 ++ w2 ++ [.aeid aeid]) = ((((ks.apply (.salt (lock enc x))).applyAll w1).applyAll w2).apply (.aeid aeid)) := by
      simp [applyAll_append]
    rw [hfin]
    have hsl : (((ks.apply (.salt (lock enc x))).applyAll w1).applyAll w2).salt = some (lock enc x) := by
      have := (applyAll_gbls (ks := (ks.apply (.salt (lock enc x))).applyAll w1) (fun w hw => (k2 hw).2)).trans
        (applyAll_gbls (ks := ks.apply (.salt (lock enc x))) (fun w hw => (k1 hw).2))
      simp only [Ks.gbls, Prod.mk.injEq] at this
      rw [this.2.2.2.1]; rfl
    refine ⟨rfl, ⟨⟨fun k s hk => (l2 k s hk).1, fun k p s hk hp => ?_, fun s hk => ?_⟩, fun hb k hk => ?_, fun _ => ?_⟩, rfl, ?_⟩
    · have hk : ((((ks.apply (.salt (lock enc x))).applyAll w1)).applyAll w2).prms.at' k = some p := hk
      rw [applyAll_prms (fun w hw => by rw [(k2 hw).1]; simp)] at hk
      exact l1 k p s hk hp
    · have hk : (((ks.apply (.salt (lock enc x))).applyAll w1).applyAll w2).salt = some s := hk
      rw [hsl] at hk; simp at hk; exact ⟨x, hk.symm⟩
    · obtain ⟨s, hk⟩ := Option.ne_none_iff_exists'.1 hk
      exact (l2 k s hk).2 hb
    · show (((ks.apply (.salt (lock enc x))).applyAll w1).applyAll w2).salt ≠ none
      rw [hsl]; simp
    · show (((ks.apply (.salt (lock enc x))).applyAll w1).applyAll w2).salt ≠ none
      rw [hsl]; simp

/-! ## The invariant -/

structure EncInv (env : Env) (n : Node) : Prop where
  shut : Shut env (n.ks.aeid.map env.boxA) n.ks
  mgr : ∀ mem, n.mem = some mem → n.ks.salt ≠ none ∧ mem.enc = n.ks.aeid.map env.boxA ∧ Fits env n.ks.aeid mem.seed ∧ mem.dec = mem.seed

theorem Fits.box {env : Env} {aeid seed : Option Nat} (h : Fits env aeid seed) : aeid.map env.boxA = seed.map env.boxS := by
  rcases h with ⟨rfl, rfl⟩ | ⟨a, s, rfl, rfl, h⟩
  · rfl
  · simp [h]

theorem Fits.verify {env : Env} {aeid seed : Option Nat} (h : Fits env aeid seed) (ha : aeid.isSome) : verifySeed env (aeid.map env.boxA) seed = .ok () := by
  rcases h with ⟨rfl, rfl⟩ | ⟨a, s, rfl, rfl, h⟩
  · simp at ha
  · simp [verifySeed, h]

/-- A change of the authentication identifier with a fitting seed, and the first one with any seed. -/
theorem updateAeid_shut {env : Env} {ks : Ks} (hkept : Kept ks) {mem : Mem} {aeid seed : Option Nat} (hs : Shut env (ks.aeid.map env.boxA) ks)
    (hsalt : ks.salt ≠ none) (he : mem.enc = ks.aeid.map env.boxA) (hf : ks.aeid.isSome → Fits env ks.aeid mem.seed)
    (hd : ks.aeid.map env.boxA = mem.dec.map env.boxS) (hp : ks.aeid.isSome ∨ aeid = none ∨ ks.Bare) :
    (Fits env aeid seed → (updateAeid env ks mem aeid seed).2 = (⟨seed, aeid.map env.boxA, seed⟩, .ok ()) ∧
        Shut env (aeid.map env.boxA) (ks.applyAll (updateAeid env ks mem aeid seed).1) ∧
        (ks.applyAll (updateAeid env ks mem aeid seed).1).aeid = aeid ∧ (ks.applyAll (updateAeid env ks mem aeid seed).1).salt ≠ none) ∧
      (¬ Fits env aeid seed → aeid.isSome → ks.aeid = none → (∃ e, (updateAeid env ks mem aeid seed).2.2 = .error e) ∧ (updateAeid env ks mem aeid seed).1 = []) := by
  have h1 : (if ks.aeid.isSome then verifySeed env mem.enc mem.seed else .ok ()) = .ok () := by
    split
    · rename_i ha; rw [he]; exact (hf ha).verify ha
    · rfl
  have hen : nextEnc env ks mem aeid = aeid.map env.boxA := by
    unfold nextEnc
    split
    · rfl
    · split
      · rename_i heq; rw [he, ← heq]
      · rfl
  have hdn : mem.dec = none → ks.aeid = none := by
    intro h; rw [h] at hd; simpa using hd
  unfold updateAeid
  rw [h1, hen]
  dsimp only
  refine ⟨fun hfit => ?_, fun hnf ha hnone => ?_⟩
  · have h2 : (if aeid.isSome ∧ aeid ≠ ks.aeid then verifySeed env (aeid.map env.boxA) seed else .ok ()) = .ok () := by
      split
      · rename_i ha; exact hfit.verify ha.1
      · rfl
    rw [h2]
    dsimp only
    have hr := reencrypt_shut (aeid := aeid) hkept hs hd hsalt (fun h => by
      rcases hp with hp | hp | hp
      · rw [hdn h] at hp; simp at hp
      · exact .inl (by rw [hp]; rfl)
      · exact .inr hp) rfl
    generalize reencrypt env ks mem (aeid.map env.boxA) aeid = r at hr
    rcases r with ⟨w, r⟩
    obtain ⟨rfl, h3, h4, h5⟩ := hr
    exact ⟨rfl, h3, h4, h5⟩
  · have hc : aeid.isSome ∧ aeid ≠ ks.aeid := ⟨ha, by rw [hnone]; intro hn; rw [hn] at ha; simp at ha⟩
    rw [if_pos hc]
    cases hv : verifySeed env (aeid.map env.boxA) seed with
    | error e => exact ⟨⟨e, rfl⟩, rfl⟩
    | ok u =>
      exfalso
      apply hnf
      obtain ⟨a, rfl⟩ := Option.isSome_iff_exists.1 ha
      unfold verifySeed at hv
      split at hv
      · simp at hv
      · simp at hv; exact .inr ⟨a, _, rfl, rfl, hv⟩

theorem openWr_salt (ks : Ks) (pidx : Nat) (algo : Algo) (salt tier : Nat) :
    (ks.applyAll (openWr ks pidx algo salt tier)).salt ≠ none ∧ (ks.salt ≠ none → (ks.applyAll (openWr ks pidx algo salt tier)).salt = ks.salt) := by
  cases ks with
  | mk aeid px al sa ti a b c d e f =>
  cases px <;> cases al <;> cases sa <;> cases ti <;> simp [openWr, Ks.apply]

theorem EncInv.open {env : Env} {n : Node} (hkept : Kept n.ks) (h : EncInv env n) {seed aeid : Option Nat} {pidx : Nat} {algo : Algo} {salt tier : Nat}
    (hp : (Call.openM seed aeid pidx algo salt tier).proper env n) : EncInv env (n.step env (.call (.openM seed aeid pidx algo salt tier))).1 := by
  have hp : n.ks.aeid.isSome ∨ ((aeid = none → seed = none) ∧ (aeid.isSome → n.ks.Bare)) := hp
  obtain ⟨e1, e2, e3⟩ := openWr_stores n.ks pidx algo salt tier
  obtain ⟨s1, s2⟩ := openWr_salt n.ks pidx algo salt tier
  have hb : (n.ks.applyAll (openWr n.ks pidx algo salt tier)).aeid.map env.boxA = n.ks.aeid.map env.boxA := by rw [e3]
  have hsh : Shut env (n.ks.aeid.map env.boxA) (n.ks.applyAll (openWr n.ks pidx algo salt tier)) := by
    refine h.shut.applyAll fun w hw => ?_
    rcases openWr_cases hw with rfl | rfl | ⟨rfl, hn⟩ | rfl
    · trivial
    · trivial
    · cases ha : n.ks.aeid with
      | none => exact ⟨salt, rfl⟩
      | some a => exact absurd hn (h.shut.salted (by rw [ha]; rfl))
    · trivial
  have hk1 : Kept (n.ks.applyAll (openWr n.ks pidx algo salt tier)) := hkept.applyAll fun w hw => by
    rcases openWr_cases hw with rfl | rfl | ⟨rfl, _⟩ | rfl <;> trivial
  have hstep : (n.step env (.call (.openM seed aeid pidx algo salt tier))).1 =
      ⟨n.ks.applyAll (openMgr env n.ks seed aeid pidx algo salt tier).1, match (openMgr env n.ks seed aeid pidx algo salt tier).2.2 with
        | .ok _ => some (openMgr env n.ks seed aeid pidx algo salt tier).2.1
        | .error _ => none⟩ := rfl
  rw [hstep, openMgr_eq]
  cases ha : n.ks.aeid with
  | none =>
    dsimp only
    have e3' := e3
    rw [ha] at e3' hp hsh
    have hp := hp.resolve_left (by simp)
    have hu := updateAeid_shut (mem := ⟨seed, none, none⟩) (aeid := aeid) (seed := seed) hk1 (by rw [e3']; exact hsh) s1 (by rw [e3']; rfl)
      (by rw [e3']; simp) (by rw [e3']; rfl) (by
        cases aeid with
        | none => exact .inr (.inl rfl)
        | some a => exact .inr (.inr ⟨by rw [e2]; exact (hp.2 rfl).1, by rw [e1]; exact (hp.2 rfl).2⟩))
    generalize updateAeid env (n.ks.applyAll (openWr n.ks pidx algo salt tier)) ⟨seed, none, none⟩ aeid seed = r at hu
    rcases r with ⟨wu, mem, r⟩
    dsimp only at hu ⊢
    rw [applyAll_append]
    by_cases hfit : Fits env aeid seed
    · obtain ⟨h1, h2, h3, h4⟩ := hu.1 hfit
      rw [Prod.mk.injEq] at h1
      obtain ⟨rfl, rfl⟩ := h1
      refine ⟨by show Shut env (Option.map env.boxA (Ks.aeid _)) _; rw [h3]; exact h2, fun mem hm => ?_⟩
      simp at hm; subst hm
      exact ⟨h4, by show _ = Option.map env.boxA (Ks.aeid _); rw [h3], by show Fits env (Ks.aeid _) _; rw [h3]; exact hfit, rfl⟩
    · have hs : aeid.isSome := by
        cases aeid with
        | none => exact absurd (.inl ⟨rfl, hp.1 rfl⟩) hfit
        | some a => rfl
      obtain ⟨⟨e, he⟩, hw⟩ := hu.2 hfit hs e3'
      subst hw; subst he
      refine ⟨by show Shut env (Option.map env.boxA (Ks.aeid _)) _; rw [applyAll_nil, e3']; exact hsh, fun mem hm => by simp at hm⟩
  | some a =>
    dsimp only
    rw [ha] at e3 hsh
    have hsh' : Shut env (Option.map env.boxA (n.ks.applyAll (openWr n.ks pidx algo salt tier)).aeid) (n.ks.applyAll (openWr n.ks pidx algo salt tier)) := by
      rw [e3]; exact hsh
    cases hv : verifySeed env (some (env.boxA a)) seed with
    | error e => exact ⟨hsh', fun mem hm => by simp at hm⟩
    | ok u =>
      refine ⟨hsh', fun mem hm => ?_⟩
      simp at hm; subst hm
      refine ⟨s1, by show _ = Option.map env.boxA (n.ks.applyAll (openWr n.ks pidx algo salt tier)).aeid; rw [e3]; rfl, ?_, rfl⟩
      show Fits env (n.ks.applyAll (openWr n.ks pidx algo salt tier)).aeid seed
      rw [e3]
      unfold verifySeed at hv
      split at hv
      · simp at hv
      · simp at hv; exact .inr ⟨a, _, rfl, rfl, hv⟩

/-- Calls on identifiers write secrets in the form for the authentication identifier and leave the general entries the invariant speaks of. -/
theorem exec_suits {env : Env} {n : Node} (h : EncInv env n) {c : Call} (hc : (∀ s a p g x t, c ≠ .openM s a p g x t) ∧ ∀ a s, c ≠ .updateAeid a s)
    (hp : c.proper env n) {w : Wr} (hw : w ∈ (exec env n c).1) : w.suits env (n.ks.aeid.map env.boxA) := by
  cases c with
  | openM s a p g x t => exact absurd rfl (hc.1 s a p g x t)
  | updateAeid a s => exact absurd rfl (hc.2 a s)
  | incept a => obtain ⟨mem, hm, hw⟩ := withMgr_wr hw; rw [← (h.mgr mem hm).2.1]; exact incept_suits hw
  | rotate p a => obtain ⟨mem, hm, hw⟩ := withMgr_wr hw; rw [← (h.mgr mem hm).2.1]; exact rotate_suits hw
  | replay p x y => obtain ⟨mem, hm, hw⟩ := withMgr_wr hw; exact replay_suits hw
  | move a b => obtain ⟨mem, hm, hw⟩ := withMgr_wr hw; exact move_suits h.shut hw
  | sign a b d => obtain ⟨mem, hm, hw⟩ := withMgr_wr hw; simp at hw
  | ingest a =>
    obtain ⟨mem, hm, hw⟩ := withMgr_wr hw
    have hn : n.ks.aeid = none := hp
    have he := (h.mgr mem hm).2.1
    rw [hn] at he ⊢
    obtain ⟨p, _, _, ha⟩ := ingest_takes (env := env) (ks := n.ks) (mem := mem) (a := a)
    have hab : w.about p none := by
      rcases ha w hw with h | h
      · rw [he] at h; exact h
      · exact h
    refine hab.suits fun k q hq => ?_
    subst hq
    have := ingest_prms hw
    rw [he] at this; exact this

theorem exec_salt {env : Env} {n : Node} {c : Call} (hc : (∀ s a p g x t, c ≠ .openM s a p g x t) ∧ ∀ a s, c ≠ .updateAeid a s)
    {w : Wr} (hw : w ∈ (exec env n c).1) : w.isAeid = false ∧ ∀ s, w ≠ .salt s := by
  have habout : ∀ {p e}, w.about p e → w.isAeid = false ∧ ∀ s, w ≠ .salt s := by
    intro p e h; cases w <;> simp [Wr.about, Wr.isAeid] at *
  have hturns : ∀ {p e}, w.turns p e → w.isAeid = false ∧ ∀ s, w ≠ .salt s := by
    intro p e h; cases w <;> simp [Wr.turns, Wr.isAeid] at *
  cases c with
  | openM s a p g x t => exact absurd rfl (hc.1 s a p g x t)
  | updateAeid a s => exact absurd rfl (hc.2 a s)
  | incept a =>
    obtain ⟨mem, hm, hw⟩ := withMgr_wr hw
    obtain ⟨p, _, _, ha⟩ := incept_about (env := env) (ks := n.ks) (mem := mem) (a := a)
    exact habout (ha w hw)
  | rotate p a => obtain ⟨mem, hm, hw⟩ := withMgr_wr hw; exact hturns (rotate_turns hw)
  | replay p x y => obtain ⟨mem, hm, hw⟩ := withMgr_wr hw; exact hturns (replay_turns hw)
  | sign a b d => obtain ⟨mem, hm, hw⟩ := withMgr_wr hw; simp at hw
  | ingest a =>
    obtain ⟨mem, hm, hw⟩ := withMgr_wr hw
    obtain ⟨p, _, _, ha⟩ := ingest_takes (env := env) (ks := n.ks) (mem := mem) (a := a)
    rcases ha w hw with h | h <;> exact habout h
  | move old new =>
    obtain ⟨mem, hm, hw⟩ := withMgr_wr hw
    rcases move_cases n.ks old new with ⟨r, hr, _⟩ | ⟨prm, sit, wp, o⟩
    · rw [hr] at hw; simp at hw
    · have hwp : ∀ {w : Wr}, w ∈ wp → w.isAeid = false ∧ ∀ s, w ≠ .salt s := by
        intro w hw
        rw [o.hwp] at hw
        obtain ⟨j, l, _, rfl⟩ := movePubs_mem hw
        exact ⟨rfl, by simp⟩
      rcases o.outcome with ⟨_, ho⟩ | ⟨e, _, ho⟩ <;> rw [ho] at hw <;>
        simp only [List.mem_append, List.mem_cons, List.not_mem_nil, or_false] at hw
      · rcases hw with ((rfl | rfl | rfl | rfl) | h) | rfl | rfl <;> first | exact hwp h | exact ⟨rfl, by simp⟩
      · rcases hw with (rfl | rfl | rfl | rfl) | h <;> first | exact hwp h | exact ⟨rfl, by simp⟩

theorem applyAll_salt {ks : Ks} {ws : List Wr} (h : ∀ w ∈ ws, ∀ s, w ≠ .salt s) : (ks.applyAll ws).salt = ks.salt := by
  refine applyAll_ind (P := fun k => k.salt = ks.salt) (fun w hw k hk => ?_) rfl
  cases w with
  | salt s => exact absurd rfl (h _ hw s)
  | pubsPut a b c => simp only [Ks.apply]; split <;> exact hk
  | _ => exact hk

/-- Some of the writes of such a call. -/
theorem EncInv.some {env : Env} {n : Node} (h : EncInv env n) {c : Call}
    (hc : (∀ s a p g x t, c ≠ .openM s a p g x t) ∧ ∀ a s, c ≠ .updateAeid a s) (hp : c.proper env n) {ws : List Wr} (hs : ∀ w ∈ ws, w ∈ (exec env n c).1)
    {mem : Option Mem} (hm : mem = none ∨ mem = n.mem) : EncInv env ⟨n.ks.applyAll ws, mem⟩ := by
  have ha : (n.ks.applyAll ws).aeid = n.ks.aeid := applyAll_aeid fun w hw => (exec_salt hc (hs w hw)).1
  have hsa : (n.ks.applyAll ws).salt = n.ks.salt := applyAll_salt fun w hw => (exec_salt hc (hs w hw)).2
  refine ⟨?_, fun m hmm => ?_⟩
  · show Shut env (Option.map env.boxA (n.ks.applyAll ws).aeid) (n.ks.applyAll ws)
    rw [ha]
    exact h.shut.applyAll fun w hw => exec_suits h hc hp (hs w hw)
  · rcases hm with rfl | rfl
    · simp at hmm
    · show (n.ks.applyAll ws).salt ≠ none ∧ _ = Option.map env.boxA (n.ks.applyAll ws).aeid ∧ Fits env (n.ks.applyAll ws).aeid _ ∧ _
      rw [ha, hsa]
      exact h.mgr m hmm

theorem exec_mem {env : Env} {n : Node} {c : Call} (hc : (∀ s a p g x t, c ≠ .openM s a p g x t) ∧ ∀ a s, c ≠ .updateAeid a s) :
    (exec env n c).2.1 = n.mem := by
  have h : ∀ f : Mem → List Wr × Mem × Res, (∀ m, (f m).2.1 = m) → (withMgr n f).2.1 = n.mem := by
    intro f hf
    rcases withMgr_cases n f with ⟨hm, he⟩ | ⟨mem, hm, he⟩ <;> rw [he, hm]
    simp [hf]
  cases c with
  | openM s a p g x t => exact absurd rfl (hc.1 s a p g x t)
  | updateAeid a s => exact absurd rfl (hc.2 a s)
  | _ => exact h _ fun m => rfl

theorem EncInv.step {env : Env} {n : Node} (hk : Kept n.ks) (h : EncInv env n) {i : Inp} (hp : i.tidy env n) : EncInv env (n.step env i).1 := by
  have other : ∀ c, ((∀ s a p g x t, c ≠ .openM s a p g x t) ∧ ∀ a s, c ≠ .updateAeid a s) → c.proper env n → EncInv env (n.step env (.call c)).1 := by
    intro c hc hp
    exact h.some hc hp (fun w hw => hw) (.inr (exec_mem hc))
  have crash : ∀ c k, ((∀ s a p g x t, c ≠ .openM s a p g x t) ∧ ∀ a s, c ≠ .updateAeid a s) → c.proper env n → EncInv env (n.step env (.crash c k)).1 := by
    intro c k hc hp
    exact h.some hc hp (fun w hw => List.mem_of_mem_take hw) (.inl rfl)
  cases i with
  | crash c k =>
    cases c with
    | openM s a p g x t => exact absurd hp (by simp [Inp.tidy])
    | updateAeid a s => exact absurd hp (by simp [Inp.tidy])
    | incept a => exact crash _ _ (by simp) hp
    | rotate p a => exact crash _ _ (by simp) hp
    | replay p a b => exact crash _ _ (by simp) hp
    | ingest a => exact crash _ _ (by simp) hp
    | move a b => exact crash _ _ (by simp) hp
    | sign a b c => exact crash _ _ (by simp) hp
  | call c =>
    cases c with
    | openM s a p g x t => exact h.open hk hp
    | updateAeid a s =>
      have hp : Fits env a s ∧ (n.ks.aeid.isSome ∨ a = none ∨ n.ks.Bare) := hp
      rcases withMgr_cases n (fun mem => ((updateAeid env n.ks mem a s).1, (updateAeid env n.ks mem a s).2.1, .ofUnit (updateAeid env n.ks mem a s).2.2)) with ⟨hm, he⟩ | ⟨mem, hm, he⟩
      · have : (n.step env (.call (.updateAeid a s))).1 = n := by
          show Node.mk (n.ks.applyAll (exec env n (.updateAeid a s)).1) (exec env n (.updateAeid a s)).2.1 = n
          rw [show exec env n (.updateAeid a s) = _ from he]
          cases n; simp at hm ⊢; exact hm.symm
        rw [this]; exact h
      · obtain ⟨m1, m2, m3, m4⟩ := h.mgr mem hm
        obtain ⟨h1, h2, h3, h4⟩ := (updateAeid_shut (aeid := a) (seed := s) hk h.shut m1 m2 (fun _ => m3) (by rw [m4]; exact m3.box) hp.2).1 hp.1
        have hst : (n.step env (.call (.updateAeid a s))).1 = ⟨n.ks.applyAll (updateAeid env n.ks mem a s).1, Option.some (updateAeid env n.ks mem a s).2.1⟩ := by
          show Node.mk (n.ks.applyAll (exec env n (.updateAeid a s)).1) (exec env n (.updateAeid a s)).2.1 = _
          rw [show exec env n (.updateAeid a s) = _ from he]
        rw [hst]
        refine ⟨by show Shut env (Option.map env.boxA (Ks.aeid _)) _; rw [h3]; exact h2, fun mem' hm' => ?_⟩
        rw [h1] at hm'
        simp at hm'; subst hm'
        exact ⟨h4, by show _ = Option.map env.boxA (Ks.aeid _); rw [h3], by show Fits env (Ks.aeid _) _; rw [h3]; exact hp.1, rfl⟩
    | incept a => exact other _ (by simp) hp
    | rotate p a => exact other _ (by simp) hp
    | replay p a b => exact other _ (by simp) hp
    | ingest a => exact other _ (by simp) hp
    | move a b => exact other _ (by simp) hp
    | sign a b c => exact other _ (by simp) hp

theorem EncInv.start {env : Env} : EncInv env .start :=
  ⟨⟨⟨by simp [Node.start, Ks.empty], by simp [Node.start, Ks.empty], by simp [Node.start, Ks.empty]⟩, by simp [Node.start, Ks.empty], by simp [Node.start, Ks.empty]⟩, by simp [Node.start]⟩

/-- Induction over a run whose inputs meet a condition. -/
theorem along_ind {env : Env} {P : Node → Prop} {C : Node → Inp → Prop} (hs : ∀ n i, P n → C n i → P (n.step env i).1) :
    ∀ {is : List Inp} {n : Node}, P n → Along env C n is → P (n.run env is).1
  | [], _, h, _ => h
  | i :: rest, n, h, hc => along_ind hs (is := rest) (hs n i h hc.1) hc.2

theorem along_enc {env : Env} {is : List Inp} (h : Along env (Inp.tidy env) .start is) :
    Kept (Node.start.run env is).1.ks ∧ EncInv env (Node.start.run env is).1 :=
  along_ind (P := fun n => Kept n.ks ∧ EncInv env n) (fun _ i hn hi => ⟨hn.1.step i, hn.2.step hn.1 hi⟩) ⟨Kept.start, .start⟩ h

/-! ## The theorems -/

/-- **C74, at rest.** If encryption is set up before keys are made and is not changed without fitting seeds, then at any time every private key and every
salt in the key store is encrypted for the authentication identifier of the key store (or in plain text while it has none). -/
theorem c74_at_rest_partial {env : Env} {is : List Inp} (h : Along env (Inp.tidy env) .start is) :
    Locked ((Node.start.run env is).1.ks.aeid.map env.boxA) (Node.start.run env is).1.ks :=
  (along_enc h).2.shut.locked

/-- **C74, wrong seed.** Whatever happened before, a key store with an authentication identifier opens only with a seed that fits it: any other is refused
and leaves no manager. -/
theorem c74_wrong_seed {env : Env} (n : Node) {a : Nat} (ha : n.ks.aeid = some a) (seed aeid : Option Nat) (pidx : Nat) (algo : Algo) (salt tier : Nat)
    (hs : ∀ s, seed = some s → env.boxS s ≠ env.boxA a) :
    (n.step env (.call (.openM seed aeid pidx algo salt tier))).2 = some (.err .auth) ∧
      (n.step env (.call (.openM seed aeid pidx algo salt tier))).1.mem = none := by
  have hv : verifySeed env (some (env.boxA a)) seed = .error .auth := by
    unfold verifySeed
    cases seed with
    | none => rfl
    | some s => simp [hs s rfl]
  have ho : (openMgr env n.ks seed aeid pidx algo salt tier).2.2 = .error .auth := by
    rw [openMgr_eq, ha]
    dsimp only
    rw [hv]
  constructor
  · show some (Res.ofUnit (openMgr env n.ks seed aeid pidx algo salt tier).2.2) = _
    rw [ho]; rfl
  · show (match (openMgr env n.ks seed aeid pidx algo salt tier).2.2 with
        | .ok _ => some (openMgr env n.ks seed aeid pidx algo salt tier).2.1
        | .error _ => none) = none
    rw [ho]

theorem signLoop_plain (signers : List Nat) : ∀ j, signLoop [] [] signers j = .ok (signers.mapIdx fun i k => ⟨k, j + i, some (j + i)⟩) := by
  induction signers with
  | nil => intro j; rfl
  | cons k rest ih =>
    intro j
    unfold signLoop
    rw [ih (j + 1)]
    simp only [if_true]
    have h1 : ¬ ((j : Int) < 0) := by omega
    rw [if_neg h1]
    simp only [Option.any_some, decide_eq_true_eq]
    rw [if_neg h1]
    simp only [List.mapIdx_cons, Option.map_some, Int.toNat_natCast, Nat.add_zero]
    congr 2
    apply List.ext_getElem?
    intro i
    simp only [List.getElem?_mapIdx]
    cases rest[i]? with
    | none => rfl
    | some x => simp; omega

theorem sign_stored {env : Env} {n : Node} (hk : Kept n.ks) (h : EncInv env n) {mem : Mem} (hm : n.mem = some mem) {pubs : List Nat}
    (hp : ∀ k ∈ pubs, n.ks.pris.at' k ≠ none) : sign env n.ks mem pubs [] [] = .ok (pubs.mapIdx fun i k => ⟨k, i, some i⟩) := by
  obtain ⟨m1, m2, m3, m4⟩ := h.mgr mem hm
  have hr : readPris env n.ks mem pubs = .ok pubs := by
    refine readPris_present (fun ha => ?_) fun k hkk => ?_
    · rcases m3 with ⟨h1, _⟩ | ⟨a, s, _, h2, _⟩
      · rw [h1] at ha; simp at ha
      · rw [m4, h2]; rfl
    · obtain ⟨s, hs⟩ := Option.ne_none_iff_exists'.1 (hp k hkk)
      refine ⟨s, hs, ?_⟩
      rw [h.shut.locked.pris k s hs, unlock_lock (by rw [m4]; exact m3.box)]
  unfold sign
  rw [hr]
  simp only [ne_eq, not_true_eq_false, false_and, if_false]
  rw [signLoop_plain]
  simp

/-- **C74, right seed.** As `c74_at_rest_partial`; after a restart with a fitting seed the manager opens, signs with every private key in the key store, and reads
the root salt. -/
theorem c74_right_seed_partial {env : Env} {is : List Inp} (h : Along env (Inp.tidy env) .start is) {a s : Nat}
    (ha : (Node.start.run env is).1.ks.aeid = some a) (hs : env.boxS s = env.boxA a) (aeid : Option Nat) (pidx : Nat) (algo : Algo) (salt tier : Nat) :
    let n := (Node.start.run env is).1
    let m := n.step env (.call (.openM (some s) aeid pidx algo salt tier))
    m.2 = some .done ∧ (∃ mem, m.1.mem = some mem ∧ ∃ x, readSalt env m.1.ks mem = .ok (some (.plain x))) ∧
      ∀ pubs, (∀ k ∈ pubs, n.ks.pris.at' k ≠ none) →
        (m.1.step env (.call (.sign pubs [] []))).2 = some (.sigs (pubs.mapIdx fun i k => ⟨k, i, some i⟩)) := by
  obtain ⟨hk, he⟩ := along_enc h
  generalize (Node.start.run env is).1 = n at hk he ha
  intro n' m
  have hv : verifySeed env (some (env.boxA a)) (some s) = .ok () := by simp [verifySeed, hs]
  have ho : openMgr env n.ks (some s) aeid pidx algo salt tier = (openWr n.ks pidx algo salt tier, ⟨some s, some (env.boxA a), some s⟩, .ok ()) := by
    rw [openMgr_eq, ha]
    dsimp only
    rw [hv]
  have hm : m = (⟨n.ks.applyAll (openWr n.ks pidx algo salt tier), some ⟨some s, some (env.boxA a), some s⟩⟩, some .done) := by
    show ((⟨n.ks.applyAll (openMgr env n.ks (some s) aeid pidx algo salt tier).1, match (openMgr env n.ks (some s) aeid pidx algo salt tier).2.2 with
        | .ok _ => some (openMgr env n.ks (some s) aeid pidx algo salt tier).2.1
        | .error _ => none⟩ : Node), some (Res.ofUnit (openMgr env n.ks (some s) aeid pidx algo salt tier).2.2)) = _
    rw [ho]; rfl
  have hi : EncInv env m.1 := he.open hk (by exact .inl (by rw [ha]; rfl))
  have hk' : Kept m.1.ks := hk.step _
  refine ⟨by rw [hm], ⟨_, by rw [hm], ?_⟩, fun pubs hp => ?_⟩
  · obtain ⟨t, ht⟩ := Option.ne_none_iff_exists'.1 (hi.mgr ⟨some s, some (env.boxA a), some s⟩ (by rw [hm])).1
    obtain ⟨x, hx⟩ := hi.shut.locked.salt t ht
    refine ⟨x, ?_⟩
    unfold readSalt
    dsimp only
    rw [ht]
    dsimp only
    rw [hx, unlock_lock]
    have : m.1.ks.aeid = some a := by rw [hm]; exact (openWr_stores n.ks pidx algo salt tier).2.2.trans ha
    rw [this]; simp [hs]
  · have := sign_stored hk' hi (mem := ⟨some s, some (env.boxA a), some s⟩) (by rw [hm]) (pubs := pubs) (fun k hkk => by
      rw [hm]
      show (n.ks.applyAll (openWr n.ks pidx algo salt tier)).pris.at' k ≠ none
      rw [(openWr_stores n.ks pidx algo salt tier).1]
      exact hp k hkk)
    show some (exec env m.1 (.sign pubs [] [])).2.2 = _
    have hm2 : m.1.mem = some ⟨some s, some (env.boxA a), some s⟩ := by rw [hm]
    simp only [exec, withMgr, hm2]
    rw [this]; rfl

end Verif.Mgr
