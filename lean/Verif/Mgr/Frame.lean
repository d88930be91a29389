import Verif.Mgr.Cases

/-! # What calls write: kinds of writes, and stored private keys stay under their public keys -/

namespace Verif.Mgr

open Verif.Kel (upd)

theorem honest_puts {enc : Option Nat} {l : List Nat} {w : Wr} (h : w ∈ puts enc l) : w.honest := by
  obtain ⟨k, _, rfl⟩ := mem_puts h
  exact lock_holds enc k

/-- Writes that touch identifier stores of `p` only, and private keys only by storing. -/
def Wr.about (p : Nat) (enc : Option Nat) : Wr → Prop
  | .pres k _ | .prms k _ | .sits k _ | .pubsPut k _ _ => k = p
  | .prisPut k v => v = lock enc k
  | .pidx _ => True
  | _ => False

theorem mem_inceptAll {enc : Option Nat} {cr : Creator} {pidx pre : Nat} {pubs nxts : List Nat} {w : Wr}
    (h : w ∈ inceptAll enc cr pidx pre pubs nxts) : w.about pre enc := by
  simp only [inceptAll, List.mem_append, List.mem_cons, List.not_mem_nil, or_false] at h
  rcases h with ((((rfl | rfl | rfl | rfl) | h) | rfl) | h) | rfl
  · rfl
  · rfl
  · trivial
  · rfl
  · obtain ⟨k, _, rfl⟩ := mem_puts h; rfl
  · rfl
  · obtain ⟨k, _, rfl⟩ := mem_puts h; rfl
  · rfl

theorem Wr.about.honest {p : Nat} {enc : Option Nat} {w : Wr} (h : w.about p enc) : w.honest := by
  cases w with
  | prisPut k v => simp only [Wr.about] at h; rw [h]; exact lock_holds enc k
  | prisPin k v => exact absurd h (by simp [Wr.about])
  | _ => trivial

theorem Wr.about.sitKey {p q : Nat} {enc : Option Nat} {w : Wr} (h : w.about p enc) (hq : q ≠ p) : w.sitKey ≠ some q := by
  cases w <;> simp [Wr.about, Wr.sitKey] at *
  rw [h]; exact Ne.symm hq

theorem Wr.about.prmKey {p q : Nat} {enc : Option Nat} {w : Wr} (h : w.about p enc) (hq : q ≠ p) : w.prmKey ≠ some q := by
  cases w <;> simp [Wr.about, Wr.prmKey] at *
  rw [h]; exact Ne.symm hq

/-- The writes of an inception. -/
theorem incept_about {env : Env} {ks : Ks} {mem : Mem} {a : InceptArgs} :
    ∃ p, ((incept env ks mem a).1 ≠ [] → ks.pres p = none) ∧
      ((∃ w ∈ (incept env ks mem a).1, w.sitKey ≠ none ∨ w.prmKey ≠ none ∨ w.pubKey ≠ none) → ks.prms.at' p = none) ∧ ∀ w ∈ (incept env ks mem a).1, w.about p mem.enc := by
  rcases incept_cases env ks mem a with ⟨e, h⟩ | ⟨t, pidx, cr, icodes, ncodes, _, _, _, _, _, h⟩
  · rw [h]; exact ⟨0, by simp, by simp, by simp⟩
  · rw [h]
    have o := inceptWr_out env ks mem cr pidx (cr.create env a.rnd icodes pidx 0 0 a.tr a.temp)
      (cr.create env (fun i => a.rnd (icodes.length + i)) ncodes pidx 1 icodes.length a.tr a.temp)
    exact ⟨_, o.fresh, o.clean, fun w hw => mem_inceptAll (o.part.subset hw)⟩

theorem mem_rotateAll {enc : Option Nat} {pre : Nat} {ps : Sit} {nxts : List Nat} {erase : Bool} {w : Wr}
    (h : w ∈ rotateAll enc pre ps nxts erase) :
    w = Wr.sits pre ⟨ps.new, ps.nxt, ⟨nxts, ps.nxt.ridx + 1, ps.nxt.kidx + ps.nxt.pubs.length⟩⟩ ∨ w ∈ puts enc nxts ∨
      w = .pubsPut pre (ps.nxt.ridx + 1) nxts ∨ ∃ k ∈ ps.old.pubs, w = .prisRem k := by
  simp only [rotateAll, List.mem_append, List.mem_cons, List.not_mem_nil, or_false] at h
  rcases h with ((h | h) | h) | h
  · exact .inl h
  · exact .inr (.inl h)
  · exact .inr (.inr (.inl h))
  · split at h
    · obtain ⟨k, hk, rfl⟩ := List.mem_map.1 h
      exact .inr (.inr (.inr ⟨k, hk, rfl⟩))
    · simp at h

/-- The writes of a rotation or replay of `p`. -/
def Wr.turns (p : Nat) (enc : Option Nat) : Wr → Prop
  | .sits k _ | .pubsPut k _ _ => k = p
  | .prisPut k v => v = lock enc k
  | .prisRem _ => True
  | _ => False

theorem Wr.turns.honest {p : Nat} {enc : Option Nat} {w : Wr} (h : w.turns p enc) : w.honest := by
  cases w with
  | prisPut k v => simp only [Wr.turns] at h; rw [h]; exact lock_holds enc k
  | prisPin k v => exact absurd h (by simp [Wr.turns])
  | _ => trivial

theorem Wr.turns.sitKey {p q : Nat} {enc : Option Nat} {w : Wr} (h : w.turns p enc) (hq : q ≠ p) : w.sitKey ≠ some q := by
  cases w <;> simp [Wr.turns, Wr.sitKey] at *
  rw [h]; exact Ne.symm hq

theorem Wr.turns.prmKey {p : Nat} {enc : Option Nat} {w : Wr} (h : w.turns p enc) : w.prmKey = none := by
  cases w <;> simp [Wr.turns, Wr.prmKey] at *

theorem rotateAll_turns {enc : Option Nat} {pre : Nat} {ps : Sit} {nxts : List Nat} {erase : Bool} {w : Wr}
    (h : w ∈ rotateAll enc pre ps nxts erase) : w.turns pre enc := by
  rcases mem_rotateAll h with rfl | h | rfl | ⟨k, _, rfl⟩
  · rfl
  · obtain ⟨k, _, rfl⟩ := mem_puts h; rfl
  · rfl
  · trivial

theorem rotate_turns {env : Env} {ks : Ks} {mem : Mem} {pre : Nat} {a : RotateArgs} {w : Wr} (h : w ∈ (rotate env ks mem pre a).1) :
    w.turns pre mem.enc := by
  rcases rotate_cases env ks mem pre a with ⟨e, he⟩ | ⟨prm, ps, v, nxts, o⟩
  · rw [he] at h; simp at h
  · exact rotateAll_turns (o.part.subset h)

theorem replay_turns {env : Env} {ks : Ks} {mem : Mem} {pre : Nat} {adv er : Bool} {w : Wr} (h : w ∈ (replay env ks mem pre adv er).1) :
    w.turns pre mem.enc := by
  rcases replay_cases env ks mem pre adv er with ⟨e, he⟩ | ⟨prm, ps, v, _, _, ⟨_, pubs, _, _, he⟩ | ⟨_, _, he⟩⟩
  · rw [he] at h; simp at h
  · rw [he] at h
    rcases List.mem_cons.1 h with rfl | h
    · rfl
    · split at h
      · obtain ⟨k, _, rfl⟩ := List.mem_map.1 h; trivial
      · simp at h
  · rw [he] at h; simp at h

theorem ingestLoop_about {env : Env} {enc : Option Nat} {iridx pre : Nat} : ∀ {secs : List (List Nat)} {ridx kidx : Nat} {sit : Option Sit} {w : Wr},
    w ∈ (ingestLoop env enc iridx pre secs ridx kidx sit).1 → w.about pre enc
  | [], _, _, _, _, h => by simp [ingestLoop] at h
  | pubs :: rest, ridx, kidx, sit, w, h => by
    unfold ingestLoop at h
    have hput : ∀ {w : Wr}, w ∈ (putPris env enc pubs).1 → w.about pre enc := by
      intro w hw
      rcases putPris_cases env enc pubs with ⟨hp, _⟩ | ⟨j, _, hp, _⟩ <;> rw [hp] at hw <;> obtain ⟨k, _, rfl⟩ := mem_puts hw <;> rfl
    generalize hp : putPris env enc pubs = pp at h hput
    rcases pp with ⟨wp, e | u⟩
    · exact hput h
    · dsimp only at h hput
      have hw : ∀ {w : Wr}, w ∈ (if ridx = iridx - 1 then (wp ++ [Wr.pubsPut pre ridx pubs] ++
            [.sits pre ⟨if iridx = 0 then .empty else ⟨pubs, ridx, kidx⟩, .empty, .empty⟩], some (⟨if iridx = 0 then .empty else ⟨pubs, ridx, kidx⟩, .empty, .empty⟩ : Sit))
          else (wp ++ [Wr.pubsPut pre ridx pubs], sit)).1 → w.about pre enc := by
        intro w hw
        split at hw
        · simp only [List.mem_append, List.mem_cons, List.not_mem_nil, or_false] at hw
          rcases hw with (hw | rfl) | rfl
          · exact hput hw
          · rfl
          · rfl
        · simp only [List.mem_append, List.mem_cons, List.not_mem_nil, or_false] at hw
          rcases hw with hw | rfl
          · exact hput hw
          · rfl
      generalize hq : (if ridx = iridx - 1 then (wp ++ [Wr.pubsPut pre ridx pubs] ++
            [.sits pre ⟨if iridx = 0 then .empty else ⟨pubs, ridx, kidx⟩, .empty, .empty⟩], some (⟨if iridx = 0 then .empty else ⟨pubs, ridx, kidx⟩, .empty, .empty⟩ : Sit))
          else (wp ++ [Wr.pubsPut pre ridx pubs], sit)) = q at h hw
      rcases q with ⟨wq, sq⟩
      dsimp only at h hw
      split at h
      · split at h
        · exact hw h
        · simp only [List.mem_append, List.mem_cons, List.not_mem_nil, or_false] at h
          rcases h with (h | rfl) | h
          · exact hw h
          · rfl
          · exact ingestLoop_about h
      · split at h
        · split at h
          · exact hw h
          · simp only [List.mem_append, List.mem_cons, List.not_mem_nil, or_false] at h
            rcases h with (h | rfl) | h
            · exact hw h
            · rfl
            · exact ingestLoop_about h
        · simp only [List.mem_append] at h
          rcases h with h | h
          · exact hw h
          · exact ingestLoop_about h

/-- Writes of `ingest`: as of an inception, but some private keys may be in plain text. -/
def Wr.takes (p : Nat) (enc : Option Nat) (w : Wr) : Prop := w.about p enc ∨ w.about p none

theorem ingest_takes {env : Env} {ks : Ks} {mem : Mem} {a : IngestArgs} :
    ∃ p, ((∃ w ∈ (ingest env ks mem a).1, w.sitKey ≠ none ∨ w.prmKey ≠ none ∨ w.presKey ≠ none ∨ w.pubKey ≠ none) → ks.pres p = none) ∧
      ((∃ w ∈ (ingest env ks mem a).1, w.sitKey ≠ none ∨ w.prmKey ≠ none ∨ w.pubKey ≠ none) → ks.prms.at' p = none) ∧ ∀ w ∈ (ingest env ks mem a).1, w.takes p mem.enc := by
  have hpn : ∀ {l : List Nat} {p : Nat} {w : Wr}, w ∈ (putPris env none l).1 → w.takes p mem.enc := by
    intro l p w hw
    rw [putPris_none] at hw
    obtain ⟨k, _, rfl⟩ := mem_puts hw
    exact .inr rfl
  unfold ingest
  split
  · exact ⟨0, by simp, by simp, by simp⟩
  split
  · exact ⟨0, by simp, by simp, by simp⟩
  split
  · exact ⟨0, by simp, by simp, by simp⟩
  split
  · exact ⟨0, by simp, by simp, by simp⟩
  split
  · refine ⟨0, ?_, ?_, fun w hw => hpn hw⟩
    · rintro ⟨w, hw, h⟩
      rw [putPris_none] at hw
      obtain ⟨k, _, rfl⟩ := mem_puts hw
      simp [Wr.sitKey, Wr.prmKey, Wr.presKey, Wr.pubKey] at h
    · rintro ⟨w, hw, h⟩
      rw [putPris_none] at hw
      obtain ⟨k, _, rfl⟩ := mem_puts hw
      simp [Wr.sitKey, Wr.prmKey, Wr.pubKey] at h
  · exact ⟨0, by simp, by simp, by simp⟩
  rename_i pre _ _ hsecs
  split
  · exact ⟨0, by simp, by simp, by simp⟩
  split
  · exact ⟨0, by simp, by simp, by simp⟩
  rename_i hpres
  have hpres : ks.pres pre = none := by simpa using hpres
  split
  · refine ⟨pre, fun _ => hpres, by simp [Wr.sitKey, Wr.prmKey, Wr.pubKey], ?_⟩
    intro w hw
    simp at hw; subst hw; exact .inl rfl
  rename_i hprms
  refine ⟨pre, fun _ => hpres, fun _ => by simpa using hprms, ?_⟩
  dsimp only
  have hl := @ingestLoop_about env mem.enc a.iridx pre a.secs 0 0 (ks.sits pre)
  generalize hr : ingestLoop env mem.enc a.iridx pre a.secs 0 0 (ks.sits pre) = r at hl
  rcases r with ⟨wl, e | ⟨ridx, kidx, sit⟩⟩
  · intro w hw
    simp only [List.mem_append, List.mem_cons, List.not_mem_nil, or_false] at hw
    rcases hw with (rfl | rfl | rfl) | hw
    · exact .inl rfl
    · exact .inl rfl
    · exact .inl trivial
    · exact .inl (hl hw)
  · dsimp only at hl ⊢
    have base : ∀ {x : Prm} {y : Nat} {l l' : List Nat} (w : Wr), w ∈ [Wr.pres pre pre, .prms pre x, .pidx y] ++ wl ++ (putPris env none l).1 ++ [.pubsPut pre ridx l'] → w.takes pre mem.enc := by
      intro x y l l' w hw
      simp only [List.mem_append, List.mem_cons, List.not_mem_nil, or_false] at hw
      rcases hw with (((rfl | rfl | rfl) | hw) | hw) | rfl
      · exact .inl rfl
      · exact .inl rfl
      · exact .inl trivial
      · exact .inl (hl hw)
      · exact hpn hw
      · exact .inl rfl
    split
    · split
      · exact base
      · intro w hw
        rw [List.mem_append] at hw
        rcases hw with hw | hw
        · exact base w hw
        · simp at hw; subst hw; exact .inl rfl
    · exact base

theorem move_honest {ks : Ks} {old new : Nat} {w : Wr} (h : w ∈ (move ks old new).1) : w.honest := by
  rcases move_cases ks old new with ⟨r, hr, _⟩ | ⟨prm, sit, wp, o⟩
  · rw [hr] at h; simp at h
  · have hwp : ∀ {w : Wr}, w ∈ wp → w.honest := by
      intro w hw
      rw [o.hwp] at hw
      obtain ⟨j, l, _, rfl⟩ := movePubs_mem hw
      trivial
    rcases o.outcome with ⟨_, ho⟩ | ⟨e, _, ho⟩ <;> rw [ho] at h <;>
      simp only [List.mem_append, List.mem_cons, List.not_mem_nil, or_false] at h
    · rcases h with ((rfl | rfl | rfl | rfl) | h) | rfl | rfl <;> first | exact hwp h | trivial
    · rcases h with (rfl | rfl | rfl | rfl) | h <;> first | exact hwp h | trivial

/-- Writes of opening and of changes of the authentication identifier: general entries, and new forms of what is there. -/
def Wr.reforms (ks : Ks) : Wr → Prop
  | .aeid _ | .pidx _ | .algo _ | .salt _ | .tier _ => True
  | .prms k p => ∃ q s x enc, ks.prms.at' k = some q ∧ q.salt = some s ∧ s.holds x ∧ p = { q with salt := some (lock enc x) }
  | .prisPin k v => ks.pris.at' k ≠ none ∧ v.holds k
  | _ => False

theorem Wr.reforms.honest {ks : Ks} {w : Wr} (h : w.reforms ks) : w.honest := by
  cases w <;> first | trivial | exact h.2 | exact absurd h (by simp [Wr.reforms])

theorem reencPrms_reforms {env : Env} {ks : Ks} {dec enc : Option Nat} : ∀ {l : List Nat} {w : Wr}, w ∈ (reencPrms env ks dec enc l).1 → w.reforms ks
  | [], _, h => by simp [reencPrms] at h
  | k :: rest, w, h => by
    unfold reencPrms at h
    split at h
    · exact reencPrms_reforms h
    rename_i prm hprm
    split at h
    · exact reencPrms_reforms h
    rename_i s hs
    split at h
    · simp at h
    rename_i x hx
    rcases List.mem_cons.1 h with rfl | h
    · exact ⟨prm, s, x, enc, hprm, hs, (unlock_ok hx).imp (fun h => h.1) (fun ⟨d, _, h⟩ => ⟨_, h⟩), rfl⟩
    · exact reencPrms_reforms h

theorem reencPris_reforms {env : Env} {ks : Ks} (hk : Kept ks) {dec enc : Option Nat} :
    ∀ {l : List Nat} {w : Wr}, w ∈ (reencPris env ks dec enc l).1 → w.reforms ks
  | [], _, h => by simp [reencPris] at h
  | k :: rest, w, h => by
    unfold reencPris at h
    split at h
    · exact reencPris_reforms hk h
    rename_i s hs
    split at h
    · simp at h
    rename_i x hx
    split at h
    · simp at h
    rcases List.mem_cons.1 h with rfl | h
    · refine ⟨by simp [hs], ?_⟩
      rw [unlock_holds hx (hk.pris k s hs)]; exact lock_holds enc k
    · exact reencPris_reforms hk h

theorem reencrypt_reforms {env : Env} {ks : Ks} (hk : Kept ks) {mem : Mem} {enc aeid : Option Nat} {w : Wr}
    (h : w ∈ (reencrypt env ks mem enc aeid).1) : w.reforms ks := by
  unfold reencrypt at h
  split at h
  · simp at h
  rename_i t ht
  dsimp only at h
  have hs : ∀ {w : Wr}, w ∈ (match t with | none => [] | some t => [Wr.salt (saltOut enc t)]) → w.reforms ks := by
    intro w hw
    split at hw
    · simp at hw
    · simp at hw; subst hw; trivial
  split at h
  · rw [List.mem_append] at h
    rcases h with h | h
    · exact hs h
    · simp at h; subst h; trivial
  have hp := @reencPrms_reforms env ks mem.dec enc ks.prms.dom
  generalize reencPrms env ks mem.dec enc ks.prms.dom = rp at h hp
  rcases rp with ⟨wp, e | u⟩
  · simp only [List.mem_append] at h
    rcases h with h | h
    · exact hs h
    · exact hp h
  have hq := @reencPris_reforms env ks hk mem.dec enc ks.pris.dom
  generalize reencPris env ks mem.dec enc ks.pris.dom = rq at h hq
  rcases rq with ⟨wq, e | u⟩
  · simp only [List.mem_append] at h
    rcases h with (h | h) | h
    · exact hs h
    · exact hp h
    · exact hq h
  · simp only [List.mem_append, List.mem_cons, List.not_mem_nil, or_false] at h
    rcases h with ((h | h) | h) | rfl
    · exact hs h
    · exact hp h
    · exact hq h
    · trivial

theorem updateAeid_wr {env : Env} {ks : Ks} {mem : Mem} {aeid seed : Option Nat} :
    (updateAeid env ks mem aeid seed).1 = [] ∨ ∃ enc, (updateAeid env ks mem aeid seed).1 = (reencrypt env ks mem enc aeid).1 := by
  unfold updateAeid
  split
  · exact .inl rfl
  dsimp only
  split
  · exact .inl rfl
  refine .inr ⟨nextEnc env ks mem aeid, ?_⟩
  generalize reencrypt env ks mem _ aeid = r
  rcases r with ⟨w, e | u⟩ <;> rfl

theorem updateAeid_reforms {env : Env} {ks : Ks} (hk : Kept ks) {mem : Mem} {aeid seed : Option Nat} {w : Wr}
    (h : w ∈ (updateAeid env ks mem aeid seed).1) : w.reforms ks := by
  rcases updateAeid_wr (env := env) (ks := ks) (mem := mem) (aeid := aeid) (seed := seed) with he | ⟨enc, he⟩ <;> rw [he] at h
  · simp at h
  · exact reencrypt_reforms hk h

/-- The first writes of opening a manager. -/
def openWr (ks : Ks) (pidx : Nat) (algo : Algo) (salt tier : Nat) : List Wr :=
  (if ks.pidx.isNone then [Wr.pidx pidx] else []) ++ (if ks.algo.isNone then [.algo algo] else []) ++
    (if ks.salt.isNone then [.salt (.plain salt)] else []) ++ (if ks.tier.isNone then [.tier tier] else [])

theorem openWr_cases {ks : Ks} {pidx : Nat} {algo : Algo} {salt tier : Nat} {w : Wr} (h : w ∈ openWr ks pidx algo salt tier) :
    w = .pidx pidx ∨ w = .algo algo ∨ (w = .salt (.plain salt) ∧ ks.salt = none) ∨ w = .tier tier := by
  unfold openWr at h
  simp only [List.mem_append] at h
  rcases h with ((h | h) | h) | h <;> split at h <;> simp at h <;> subst h
  · exact .inl rfl
  · exact .inr (.inl rfl)
  · rename_i hs; exact .inr (.inr (.inl ⟨rfl, by simpa using hs⟩))
  · exact .inr (.inr (.inr rfl))

theorem openMgr_eq (env : Env) (ks : Ks) (seed aeid : Option Nat) (pidx : Nat) (algo : Algo) (salt tier : Nat) :
    openMgr env ks seed aeid pidx algo salt tier = match ks.aeid with
      | none => match updateAeid env (ks.applyAll (openWr ks pidx algo salt tier)) ⟨seed, none, none⟩ aeid seed with
        | (wu, mem, r) => (openWr ks pidx algo salt tier ++ wu, mem, r)
      | some a => match verifySeed env (some (env.boxA a)) seed with
        | .error e => (openWr ks pidx algo salt tier, ⟨seed, some (env.boxA a), none⟩, .error e)
        | .ok _ => (openWr ks pidx algo salt tier, ⟨seed, some (env.boxA a), seed⟩, .ok ()) := rfl

/-- The first writes leave the stores of identifiers and keys. -/
theorem openWr_stores (ks : Ks) (pidx : Nat) (algo : Algo) (salt tier : Nat) :
    (ks.applyAll (openWr ks pidx algo salt tier)).pris = ks.pris ∧ (ks.applyAll (openWr ks pidx algo salt tier)).prms = ks.prms ∧
      (ks.applyAll (openWr ks pidx algo salt tier)).aeid = ks.aeid := by
  refine applyAll_ind (P := fun k => k.pris = ks.pris ∧ k.prms = ks.prms ∧ k.aeid = ks.aeid) ?_ ⟨rfl, rfl, rfl⟩
  intro w hw k hk
  rcases openWr_cases hw with rfl | rfl | ⟨rfl, _⟩ | rfl <;> exact hk

theorem openMgr_reforms {env : Env} {ks : Ks} (hk : Kept ks) {seed aeid : Option Nat} {pidx : Nat} {algo : Algo} {salt tier : Nat} {w : Wr}
    (h : w ∈ (openMgr env ks seed aeid pidx algo salt tier).1) : w.reforms ks := by
  have h0 : ∀ {w : Wr}, w ∈ openWr ks pidx algo salt tier → w.reforms ks := by
    intro w hw
    rcases openWr_cases hw with rfl | rfl | ⟨rfl, _⟩ | rfl <;> trivial
  obtain ⟨e1, e2, _⟩ := openWr_stores ks pidx algo salt tier
  have hk' : Kept (ks.applyAll (openWr ks pidx algo salt tier)) := hk.applyAll fun w hw => (h0 hw).honest
  rw [openMgr_eq] at h
  split at h
  · have hu := @updateAeid_reforms env _ hk' ⟨seed, none, none⟩ aeid seed
    generalize updateAeid env _ _ aeid seed = r at h hu
    rcases r with ⟨wu, mem, r⟩
    simp only [List.mem_append] at h
    rcases h with h | h
    · exact h0 h
    · have := hu h
      cases w <;> simp only [Wr.reforms, e1, e2] at this ⊢ <;> exact this
  · split at h <;> exact h0 h

theorem withMgr_cases (n : Node) (f : Mem → List Wr × Mem × Res) :
    (n.mem = none ∧ withMgr n f = ([], none, .err .closed)) ∨ ∃ mem, n.mem = some mem ∧ withMgr n f = ((f mem).1, some (f mem).2.1, (f mem).2.2) := by
  unfold withMgr
  cases h : n.mem with
  | none => exact .inl ⟨rfl, rfl⟩
  | some mem => exact .inr ⟨mem, rfl, rfl⟩

/-- Writes of a method. -/
theorem withMgr_wr {n : Node} {f : Mem → List Wr × Mem × Res} {w : Wr} (h : w ∈ (withMgr n f).1) : ∃ mem, n.mem = some mem ∧ w ∈ (f mem).1 := by
  rcases withMgr_cases n f with ⟨_, he⟩ | ⟨mem, hm, he⟩
  · rw [he] at h; simp at h
  · rw [he] at h; exact ⟨mem, hm, h⟩

theorem exec_honest {env : Env} {n : Node} (hk : Kept n.ks) (c : Call) {w : Wr} (h : w ∈ (exec env n c).1) : w.honest := by
  cases c with
  | openM s a p g x t => exact (openMgr_reforms hk h).honest
  | incept a =>
    obtain ⟨mem, _, h⟩ := withMgr_wr h
    obtain ⟨p, _, _, ha⟩ := incept_about (env := env) (ks := n.ks) (mem := mem) (a := a)
    exact (ha w h).honest
  | rotate pre a => obtain ⟨mem, _, h⟩ := withMgr_wr h; exact (rotate_turns h).honest
  | replay pre x y => obtain ⟨mem, _, h⟩ := withMgr_wr h; exact (replay_turns h).honest
  | ingest a =>
    obtain ⟨mem, _, h⟩ := withMgr_wr h
    obtain ⟨p, _, _, ha⟩ := ingest_takes (env := env) (ks := n.ks) (mem := mem) (a := a)
    rcases ha w h with h | h <;> exact h.honest
  | move old new => obtain ⟨mem, _, h⟩ := withMgr_wr h; exact move_honest h
  | updateAeid aeid seed => obtain ⟨mem, _, h⟩ := withMgr_wr h; exact (updateAeid_reforms hk h).honest
  | sign pubs i o => obtain ⟨mem, _, h⟩ := withMgr_wr h; simp at h

/-- The writes an input makes. -/
def Inp.writes (env : Env) (n : Node) : Inp → List Wr
  | .call c => (exec env n c).1
  | .crash c k => (exec env n c).1.take k

theorem step_ks (env : Env) (n : Node) (i : Inp) : (n.step env i).1.ks = n.ks.applyAll (i.writes env n) := by
  cases i <;> rfl

theorem writes_sub {env : Env} {n : Node} {i : Inp} {w : Wr} (h : w ∈ i.writes env n) : w ∈ (exec env n i.of).1 := by
  cases i with
  | call c => exact h
  | crash c k => exact List.mem_of_mem_take h

theorem Kept.step {env : Env} {n : Node} (hk : Kept n.ks) (i : Inp) : Kept (n.step env i).1.ks := by
  rw [step_ks]
  exact hk.applyAll fun w hw => exec_honest hk i.of (writes_sub hw)

theorem Kept.start : Kept Node.start.ks := ⟨by simp [Node.start, Ks.empty], by simp [Node.start, Ks.empty], by simp [Node.start, Ks.empty]⟩

/-- Induction over a run with its history. -/
theorem run_ind {env : Env} {P : Node → Hist → Prop} (h0 : P .start [])
    (hs : ∀ n h i, P n h → P (n.step env i).1 (h ++ [(i, (n.step env i).2)])) {h : Hist} {n : Node} (hh : Happened env h n) : P n h := by
  obtain ⟨is, he⟩ := hh
  have : ∀ (is : List Inp) (n : Node) (h : Hist), P n h → P (n.run env is).1 (h ++ (n.run env is).2) := by
    intro is
    induction is with
    | nil => intro n h hp; simpa [Node.run] using hp
    | cons i rest ih =>
      intro n h hp
      have := ih _ _ (hs n h i hp)
      simpa [Node.run] using this
  have := this is .start [] h0
  rw [he] at this
  simpa using this

theorem told_append (h : Hist) (x : Inp × Option Res) : told (h ++ [x]) = Told.next (told h) x := by simp [told, List.foldl_append]
theorem shown_append (h : Hist) (x : Inp × Option Res) : shown (h ++ [x]) = Shown.next (shown h) x := by simp [shown, List.foldl_append]

theorem Happened.kept {env : Env} {h : Hist} {n : Node} (hh : Happened env h n) : Kept n.ks :=
  run_ind (P := fun n _ => Kept n.ks) Kept.start (fun _ _ i hk => hk.step i) hh

end Verif.Mgr
