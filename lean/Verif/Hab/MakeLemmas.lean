import Verif.Hab.KeyLemmas

/-!
# The key store when a habitat is made
-/

namespace Verif.Hab

open Verif.Mgr

/-- The first keys of a habitat are there. -/
structure Begun (env : Mgr.Env) (M X : List Nat) (ks ks' : Ks) (mem : Mem) (pubs nxts : List Nat) : Prop where
  nonempty : pubs ≠ []
  fresh : ks.pres (pubs.headD 0) = none
  inv : KsInv env (M ++ (pubs ++ nxts)) X ks' mem
  prms : ks'.prms.at' (pubs.headD 0) ≠ none
  sits : ks'.sits (pubs.headD 0) = some ⟨.empty, ⟨pubs, 0, 0⟩, ⟨nxts, 1, pubs.length⟩⟩
  rest : ∀ q, q ≠ pubs.headD 0 → Rest ks ks' q
  pres : ∀ q, ks.pres q ≠ none → ks'.pres q ≠ none
  pres' : ∀ q, q ≠ pubs.headD 0 → ks.pres q = none → ks'.pres q = none
  later : ∀ j, 1 < j → ks'.pubs (pubs.headD 0) j = none

theorem expand_length {n : Int} {c : Nat} {l : Int} {r : List Nat} (h : expand [] n c l = .ok r) : r.length = n.toNat := expand_nil_length h

theorem makeKeys_cases {env : Env} {w : World} {M X : List Nat} (hk : KsInv env.mgr M X w.ks w.mem) {a : MakeArgs} (hc : (makeKeys env w a).2 ≠ .error .code)
    (hn : (M ++ storedKeys (makeKeys env w a).1).Nodup) :
    (∃ x, makeKeys env w a = ([], .error x)) ∨ ∃ pubs nxts, (makeKeys env w a).2 = .ok ⟨pubs, nxts.map env.mgr.dig⟩ ∧
      storedKeys (makeKeys env w a).1 = pubs ++ nxts ∧
      Begun env.mgr M X w.ks (w.ks.applyAll (makeKeys env w a).1) w.mem pubs nxts := by
  obtain ⟨ia, hia⟩ : ∃ ia, makeKeys env w a = Mgr.incept env.mgr w.ks w.mem ia := ⟨_, rfl⟩
  rw [hia] at hc hn ⊢
  rcases incept_whole hk.known hc with ⟨e, he⟩ | ⟨pidx, cr, pubs, nxts, h1, h2, h3, h4⟩
  · exact .inl ⟨e, he⟩
  refine .inr ⟨pubs, nxts, by rw [h4], by rw [h4]; exact storedKeys_inceptAll, ?_⟩
  have hex : Mgr.exec env.mgr ⟨w.ks, some w.mem⟩ (.incept ia) = ((Mgr.incept env.mgr w.ks w.mem ia).1, some w.mem, Res.ofKeys (Mgr.incept env.mgr w.ks w.mem ia).2) := rfl
  have hex1 : (Mgr.exec env.mgr ⟨w.ks, some w.mem⟩ (.incept ia)).1 = inceptAll w.mem.enc cr pidx (pubs.headD 0) pubs nxts := by rw [hex, h4]
  have hprms : (w.ks.applyAll (inceptAll w.mem.enc cr pidx (pubs.headD 0) pubs nxts)).prms.at' (pubs.headD 0) ≠ none := by
    rw [inceptAll_prms]; simp
  have hsits := inceptAll_sits (ks := w.ks) (enc := w.mem.enc) (cr := cr) (pidx := pidx) (pre := pubs.headD 0) (pubs := pubs) (nxts := nxts)
  have hrest : ∀ q, q ≠ pubs.headD 0 → Rest w.ks (w.ks.applyAll (inceptAll w.mem.enc cr pidx (pubs.headD 0) pubs nxts)) q :=
    Rest.other fun w hw q hq => about_keys (mem_inceptAll hw) hq
  have hlater : ∀ j, 1 < j → (w.ks.applyAll (inceptAll w.mem.enc cr pidx (pubs.headD 0) pubs nxts)).pubs (pubs.headD 0) j = none := by
    intro j hj
    cases hs : (w.ks.applyAll (inceptAll w.mem.enc cr pidx (pubs.headD 0) pubs nxts)).pubs (pubs.headD 0) j with
    | none => rfl
    | some l =>
      rcases applyAll_pubs_val hs with h | h
      · exact absurd h1 (hk.known _ (.inr (.inr ⟨j, by rw [h]; simp⟩)))
      · have := inceptAll_pubsW h; omega
  have hinv := hk.step (c := .incept ia) (.inl ⟨ia, rfl⟩) (by rw [hex, h4]; simp [Res.ofKeys]) (by rw [hex]; exact hn) (by
    rw [hex1]
    intro q hq
    by_cases hqp : q = pubs.headD 0
    · rw [hqp]; exact hprms
    · intro h0; exact hk.lost q hq ((hrest q hqp).prms.1 h0)) (by
    rw [hex1]
    intro q s hq1 hq2 j hj
    by_cases hqp : q = pubs.headD 0
    · subst hqp
      rw [hsits] at hq2
      injection hq2 with hq2
      subst hq2
      dsimp only at hj
      exact hlater j (by omega)
    · have r := hrest q hqp
      rw [r.pubs]
      exact hk.stop q s (fun h0 => hq1 (r.prms.2 h0)) (by rw [← r.sits]; exact hq2) j hj)
  rw [hex1, storedKeys_inceptAll] at hinv
  have he1 : (Mgr.incept env.mgr w.ks w.mem ia).1 = inceptAll w.mem.enc cr pidx (pubs.headD 0) pubs nxts := by rw [h4]
  rw [he1]
  refine ⟨h3, h1, hinv, hprms, hsits, hrest, fun q hq => applyAll_pres_some hq, fun q hq h0 => ?_, hlater⟩
  rw [applyAll_pres, h0]
  intro x hx
  have := mem_inceptAll hx
  cases x <;> simp [Wr.about, Wr.presKey] at this ⊢
  rw [this]; exact fun h => hq (by simpa using h.symm)

/-- The key sequence has a new name. -/
structure Renamed (env : Mgr.Env) (M X : List Nat) (ks ks' : Ks) (mem : Mem) (old new : Nat) (s : Sit) : Prop where
  inv : KsInv env M X ks' mem
  prms : ks'.prms.at' new ≠ none
  sits : ks'.sits new = some s
  rest : ∀ q, q ≠ old → q ≠ new → Rest ks ks' q
  pres : ∀ q, ks.pres q ≠ none → ks'.pres q ≠ none
  taken : ks'.pres new ≠ none
  pubs : ∀ j l, ks'.pubs new j = some l → ks.pubs old j = some l

theorem storedKeys_move {ks : Ks} {old new : Nat} : storedKeys (Mgr.move ks old new).1 = [] := by
  rw [List.eq_nil_iff_forall_not_mem]
  intro k hk
  obtain ⟨v, hv⟩ := mem_storedKeys.1 hk
  rcases move_cases ks old new with ⟨r, hr, _⟩ | ⟨prm, sit, wp, m⟩
  · rw [hr] at hv; simp at hv
  · have hwp : Wr.prisPut k v ∉ wp := by
      intro hx
      rw [m.hwp] at hx
      obtain ⟨_, _, _, he⟩ := movePubs_mem hx
      cases he
    rcases m.outcome with ⟨_, ho⟩ | ⟨e, _, ho⟩ <;> rw [ho] at hv <;> simp [hwp] at hv

theorem move_ok {env : Mgr.Env} {ks : Ks} {mem : Mem} {M X : List Nat} (hk : KsInv env M X ks mem) (hnM : M.Nodup) {old new : Nat} {s : Sit}
    (hs : ks.sits old = some s) (hp : ks.prms.at' old ≠ none) (hX : old ∉ X) :
    (∃ x, Mgr.move ks old new = ([], .error x)) ∨ ((Mgr.move ks old new).2 = .ok () ∧ (old = new ∨ ks.pres new = none) ∧
      Renamed env M X ks (ks.applyAll (Mgr.move ks old new).1) mem old new s) := by
  rcases move_cases ks old new with ⟨r, hr, hrr⟩ | ⟨prm, sit, wp, m⟩
  · cases r with
    | error x => exact .inl ⟨x, hr⟩
    | ok u =>
      have := hrr rfl
      subst this
      rw [hr]
      refine .inr ⟨rfl, .inl rfl, hk, hp, hs, fun q _ _ => ⟨rfl, Iff.rfl, rfl⟩, fun q hq => hq, hk.known old (.inl hp), fun _ _ h => h⟩
  · have e := eff_moved hk.known m
    have hst := storedKeys_move (ks := ks) (old := old) (new := new)
    obtain ⟨hs1, hs2, hs3⟩ := move_sits m
    have hsit := m.hsit
    rw [hs] at hsit
    injection hsit with hsit
    subst hsit
    have hnone : ∀ j, ks.pubs new j = none := fun j => by
      cases h : ks.pubs new j with
      | none => rfl
      | some l => exact absurd m.pnew (hk.known new (.inr (.inr ⟨j, by rw [h]; simp⟩)))
    have ho : Mgr.move ks old new = ([Wr.prms new prm, .prmsRem old, .sits new s, .sitsRem old] ++ wp ++ [.pres old new, .pres new new], .ok ()) := by
      rcases m.outcome with ⟨_, ho⟩ | ⟨e, he, _⟩
      · exact ho
      · rw [movePubs_ok hnone] at he; simp at he
    have hwp : ∀ {w : Wr}, w ∈ wp → ∃ j l, ks.pubs old j = some l ∧ w = .pubsPut new j l := by
      intro w hw
      rw [m.hwp] at hw
      exact movePubs_mem hw
    have hmem : ∀ {w : Wr}, w ∈ (Mgr.move ks old new).1 →
        w = .prms new prm ∨ w = .prmsRem old ∨ w = .sits new s ∨ w = .sitsRem old ∨ (∃ j l, ks.pubs old j = some l ∧ w = .pubsPut new j l) ∨
          w = .pres old new ∨ w = .pres new new := by
      intro w hw
      rw [ho] at hw
      simp only [List.mem_append, List.mem_cons, List.not_mem_nil, or_false] at hw
      rcases hw with ((h | h | h | h) | h) | h | h
      · exact .inl h
      · exact .inr (.inl h)
      · exact .inr (.inr (.inl h))
      · exact .inr (.inr (.inr (.inl h)))
      · exact .inr (.inr (.inr (.inr (.inl (hwp h)))))
      · exact .inr (.inr (.inr (.inr (.inr (.inl h)))))
      · exact .inr (.inr (.inr (.inr (.inr (.inr h)))))
    have hrest : ∀ q, q ≠ old → q ≠ new → Rest ks (ks.applyAll (Mgr.move ks old new).1) q := by
      intro q h1 h2
      refine Rest.of fun w hw => ?_
      rcases hmem hw with rfl | rfl | rfl | rfl | ⟨j', l', h', rfl⟩ | rfl | rfl <;> simp [Wr.sitKey, Wr.prmKey, Wr.pubKey] <;> omega
    have hpubs : ∀ j l, (ks.applyAll (Mgr.move ks old new).1).pubs new j = some l → ks.pubs old j = some l := by
      intro j l hj
      rcases applyAll_pubs_val hj with h | h
      · rw [hnone] at h; simp at h
      · rcases hmem h with h | h | h | h | ⟨j', l', h', h⟩ | h | h <;> cases h
        exact h'
    have hprms := moved_prms m
    have htak : (ks.applyAll (Mgr.move ks old new).1).pres new ≠ none := pres_written (by rw [ho]; simp : Wr.pres new new ∈ _)
    have hinv := hk.step (c := .move old new) (.inr (.inl ⟨old, new, rfl⟩)) (by
        show Res.ofUnit (Mgr.move ks old new).2 ≠ _
        rw [ho]; simp [Res.ofUnit]) (by
        show (M ++ storedKeys (Mgr.move ks old new).1).Nodup
        rw [hst, List.append_nil]; exact hnM) (by
        show ∀ q ∈ X, (ks.applyAll (Mgr.move ks old new).1).prms.at' q ≠ none
        intro q hq
        by_cases hqn : q = new
        · rw [hqn, hprms]; simp
        · intro h0
          exact hk.lost q hq ((hrest q (fun (h : q = old) => hX (h ▸ hq)) hqn).prms.1 h0)) (by
        show ∀ p s, (ks.applyAll (Mgr.move ks old new).1).prms.at' p ≠ none → (ks.applyAll (Mgr.move ks old new).1).sits p = some s →
          ∀ j, s.nxt.ridx + 1 < j → (ks.applyAll (Mgr.move ks old new).1).pubs p j = none
        intro q t hq1 hq2 j hj
        by_cases hqn : q = new
        · subst hqn
          rw [hs1] at hq2
          injection hq2 with hq2
          subst hq2
          cases hl : (ks.applyAll (Mgr.move ks old q).1).pubs q j with
          | none => rfl
          | some l =>
            have := hpubs j l hl
            rw [hk.stop old s hp hs j hj] at this
            simp at this
        · by_cases hqo : q = old
          · subst hqo; rw [hs2] at hq2; simp at hq2
          · have r := hrest q hqo hqn
            rw [r.pubs]
            exact hk.stop q t (fun h0 => hq1 (r.prms.2 h0)) (by rw [← r.sits]; exact hq2) j hj)
    have hex1 : (Mgr.exec env ⟨ks, some mem⟩ (.move old new)).1 = (Mgr.move ks old new).1 := rfl
    rw [hex1, hst, List.append_nil] at hinv
    exact .inr ⟨by rw [ho], .inr m.pnew, hinv, by rw [hprms]; simp, hs1, hrest, fun q hq => applyAll_pres_some hq, htak, hpubs⟩

/-- A sequence can get a name nothing is stored under. -/
theorem move_live {ks : Ks} (hk : Known ks) {old new : Nat} {s : Sit} (hs : ks.sits old = some s) (hp : ks.prms.at' old ≠ none)
    (hnew : old = new ∨ ks.pres new = none) : (Mgr.move ks old new).2 = .ok () := by
  unfold Mgr.move
  by_cases he : old = new
  · rw [if_pos he]
  have hnew := hnew.resolve_left he
  have h1 : ks.pres old ≠ none := hk old (.inl hp)
  have h2 : ks.prms.at' new = none := by
    cases h : ks.prms.at' new with
    | none => rfl
    | some v => exact absurd hnew (hk new (.inl (by rw [h]; simp)))
  have h3 : ks.sits new = none := by
    cases h : ks.sits new with
    | none => rfl
    | some v => exact absurd hnew (hk new (.inr (.inl (by rw [h]; simp))))
  have h4 : ∀ j, ks.pubs new j = none := fun j => by
    cases h : ks.pubs new j with
    | none => rfl
    | some l => exact absurd hnew (hk new (.inr (.inr ⟨j, by rw [h]; simp⟩)))
  obtain ⟨prm, hprm⟩ := Option.ne_none_iff_exists'.1 hp
  obtain ⟨pv, hpv⟩ := Option.ne_none_iff_exists'.1 h1
  rw [if_neg he, hprm, h2, hs, h3, if_neg (by simp [hpv, hnew])]
  simp only [Option.isSome_none, Bool.false_eq_true, if_false]
  have := movePubs_ok (ks := ks) (old := old) (new := new) h4 (ks.top old) 0
  generalize movePubs ks old new (ks.top old) 0 = r at this
  obtain ⟨wp, r⟩ := r
  dsimp only at this
  subst this
  rfl

end Verif.Hab
