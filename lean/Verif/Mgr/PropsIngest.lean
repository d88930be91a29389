import Verif.Mgr.PropsKeys

/-!
# C77: an ingested key sequence is replayed exactly
-/

namespace Verif.Mgr

open Verif.Kel (upd)

/-- The key sequence `all` of `pre` stands at set `i`. -/
structure StandsAt (n : Node) (pre : Nat) (all : List (List Nat)) (i : Nat) : Prop where
  mem : ∃ mem, n.mem = some mem ∧ mem.dec = none
  aeid : n.ks.aeid = none
  prms : n.ks.prms.at' pre ≠ none
  sit : ∃ s, n.ks.sits pre = some s ∧ (s.old.pubs = [] ∨ ∃ j, j + 1 = i ∧ all[j]? = some s.old.pubs) ∧ all[i]? = some s.new.pubs ∧ all[i + 1]? = some s.nxt.pubs ∧ s.nxt.ridx = i + 1
  pubs : ∀ j, n.ks.pubs pre j = all[j]?
  pris : ∀ j l, i ≤ j → all[j]? = some l → ∀ k ∈ l, n.ks.pris.at' k = some (.plain k)

theorem StandsAt.read {env : Env} {n : Node} {pre : Nat} {all : List (List Nat)} {i : Nat} (h : StandsAt n pre all i) {mem : Mem} (hd : mem.dec = none) {j : Nat} {l : List Nat}
    (hj : i ≤ j) (hl : all[j]? = some l) : readPris env n.ks mem l = .ok l := by
  refine readPris_present (fun ha => by rw [h.aeid] at ha; simp at ha) fun k hk => ⟨_, h.pris j l hj hl k hk, ?_⟩
  rw [hd]; rfl

/-- One replay: the next set and the digests of the set after it, or the end. -/
theorem StandsAt.once {env : Env} {n : Node} {pre : Nat} {all : List (List Nat)} {i : Nat} (h : StandsAt n pre all i) (hn : all.flatten.Nodup) (er : Bool) :
    (∀ l nx, all[i + 1]? = some l → all[i + 2]? = some nx → (n.step env (.call (.replay pre true er))).2 = some (.keys ⟨l, nx.map env.dig⟩) ∧
        StandsAt (n.step env (.call (.replay pre true er))).1 pre all (i + 1)) ∧
      (all[i + 2]? = none → n.step env (.call (.replay pre true er)) = (n, some (.err .index))) := by
  obtain ⟨mem, hm, hd⟩ := h.mem
  obtain ⟨prm, hp⟩ := Option.ne_none_iff_exists'.1 h.prms
  obtain ⟨s, s1, s2, s3, s4, s5⟩ := h.sit
  have hex : exec env n (.replay pre true er) = ((replay env n.ks mem pre true er).1, some mem, .ofKeys (replay env n.ks mem pre true er).2) := by
    simp only [exec, withMgr, hm]
  constructor
  · intro l nx h1 h2
    rw [s4] at h1
    simp at h1
    have hr : replay env n.ks mem pre true er = (.sits pre ⟨s.new, s.nxt, ⟨nx, i + 2, s.nxt.kidx + s.nxt.pubs.length⟩⟩ ::
        (if er then s.old.pubs.map .prisRem else []), .ok ⟨l, nx.map env.dig⟩) := by
      unfold replay
      rw [hp, s1]
      dsimp only
      rw [if_pos rfl, s5, h.pubs, show i + 1 + 1 = i + 2 from rfl, h2]
      dsimp only
      rw [h.read hd (by omega) s4, h1]
    show some (exec env n (.replay pre true er)).2.2 = _ ∧ StandsAt ⟨n.ks.applyAll (exec env n (.replay pre true er)).1, (exec env n (.replay pre true er)).2.1⟩ _ _ _
    rw [hex, hr]
    dsimp only
    have hno : ∀ w ∈ Wr.sits pre ⟨s.new, s.nxt, ⟨nx, i + 2, s.nxt.kidx + s.nxt.pubs.length⟩⟩ :: (if er then s.old.pubs.map .prisRem else []),
        w.turns pre none := by
      intro w hw
      rcases List.mem_cons.1 hw with rfl | hw
      · rfl
      · split at hw
        · obtain ⟨k, _, rfl⟩ := List.mem_map.1 hw; trivial
        · simp at hw
    have htail : ∀ w ∈ (if er then s.old.pubs.map Wr.prisRem else []), ∃ k ∈ s.old.pubs, w = .prisRem k := by
      intro w hw
      split at hw
      · obtain ⟨k, hk, rfl⟩ := List.mem_map.1 hw; exact ⟨k, hk, rfl⟩
      · simp at hw
    refine ⟨rfl, ⟨⟨mem, rfl, hd⟩, ?_, ?_, ?_, fun j => ?_, fun j l' hj hl' k hk => ?_⟩⟩
    · show (n.ks.applyAll _).aeid = none
      rw [applyAll_aeid fun w hw => by have := hno w hw; cases w <;> simp_all [Wr.turns, Wr.isAeid]]
      exact h.aeid
    · show (n.ks.applyAll _).prms.at' pre ≠ none
      rw [applyAll_prms fun w hw => by rw [(hno w hw).prmKey]; simp]
      exact h.prms
    · refine ⟨⟨s.new, s.nxt, ⟨nx, i + 2, s.nxt.kidx + s.nxt.pubs.length⟩⟩, ?_, .inr ⟨i, rfl, s3⟩, s4, h2, rfl⟩
      show ((n.ks.apply _).applyAll _).sits pre = _
      rw [applyAll_sits fun w hw => by obtain ⟨k, _, rfl⟩ := htail w hw; simp [Wr.sitKey]]
      simp [Ks.apply]
    · show (n.ks.applyAll _).pubs pre j = _
      rw [applyAll_pubs, h.pubs]
      intro w hw
      rcases List.mem_cons.1 hw with rfl | hw
      · simp [Wr.pubKey]
      · obtain ⟨k, _, rfl⟩ := htail w hw; simp [Wr.pubKey]
    · show (n.ks.applyAll _).pris.at' k = _
      rw [applyAll_pris]
      · exact h.pris j l' (by omega) hl' k hk
      · intro w hw
        rcases List.mem_cons.1 hw with rfl | hw
        · simp [Wr.priKey]
        · obtain ⟨q, hq, rfl⟩ := htail w hw
          simp only [Wr.priKey, ne_eq, Option.some.injEq]
          rintro rfl
          rcases s2 with s2 | ⟨m, hm, s2⟩
          · rw [s2] at hq; simp at hq
          · have := nodup_flatten_idx hn s2 hl' hq hk
            omega
  · intro h2
    have hr : replay env n.ks mem pre true er = ([], .error .index) := by
      unfold replay
      rw [hp, s1]
      dsimp only
      rw [if_pos rfl, s5, h.pubs, show i + 1 + 1 = i + 2 from rfl, h2]
    show ((⟨n.ks.applyAll (exec env n (.replay pre true er)).1, (exec env n (.replay pre true er)).2.1⟩ : Node), some (exec env n (.replay pre true er)).2.2) = _
    rw [hex, hr]
    cases n
    simp only at hm
    subst hm
    rfl

theorem StandsAt.replays {env : Env} {pre : Nat} {all : List (List Nat)} (hn : all.flatten.Nodup) : ∀ (es : List Bool) {n : Node} {i : Nat}, StandsAt n pre all i →
    ((n.run env (es.map fun er => .call (.replay pre true er))).2.map (·.2) = replayed env all es.length i) ∧
      ∃ i', StandsAt (n.run env (es.map fun er => .call (.replay pre true er))).1 pre all i' ∧ (i' = i + es.length ∨ all[i' + 2]? = none)
  | [], n, i, h => ⟨rfl, i, h, .inl rfl⟩
  | er :: es, n, i, h => by
    obtain ⟨r1, r2⟩ := h.once hn (env := env) er
    obtain ⟨s, _, _, _, s4, _⟩ := h.sit
    cases hx : all[i + 2]? with
    | none =>
      have r2 := r2 hx
      obtain ⟨q1, i', q2, q3⟩ := StandsAt.replays hn es h (env := env)
      have he : (n.run env ((er :: es).map fun er => .call (.replay pre true er))) =
          ((n.run env (es.map fun er => .call (.replay pre true er))).1,
            (.call (.replay pre true er), some (.err .index)) :: (n.run env (es.map fun er => .call (.replay pre true er))).2) := by
        simp only [List.map_cons, Node.run, r2]
      rw [he]
      refine ⟨?_, i', q2, ?_⟩
      · simp only [List.map_cons, q1, List.length_cons, replayed, s4, hx]
      · rcases q3 with rfl | q3
        · exact .inr (by rw [List.getElem?_eq_none_iff] at hx ⊢; omega)
        · exact .inr q3
    | some nx =>
      obtain ⟨r3, r4⟩ := r1 _ nx s4 hx
      obtain ⟨q1, i', q2, q3⟩ := StandsAt.replays hn es r4 (env := env)
      refine ⟨?_, i', q2, ?_⟩
      · simp only [List.map_cons, Node.run, q1, r3, List.length_cons, replayed, s4, hx]
      · rcases q3 with rfl | q3
        · exact .inl (by simp; omega)
        · exact .inr q3

theorem along_known {env : Env} {is : List Inp} (h : Along env (Inp.safe env) .start is) :
    Kept (Node.start.run env is).1.ks ∧ EncInv env (Node.start.run env is).1 ∧ Known (Node.start.run env is).1.ks :=
  along_ind (P := fun n => Kept n.ks ∧ EncInv env n ∧ Known n.ks) (fun n i hn hi => ⟨hn.1.step i, hn.2.1.step hn.1 hi.1.tidy,
    hn.2.2.next (safe_eff hn.1 hn.2.2 hn.2.1 hi) (fun p hp => by cases i <;> exact applyAll_pres_some hp)⟩) ⟨Kept.start, .start, by intro p; simp [Node.start, Ks.empty]⟩ h

/-- **C77.** After a safe run, if a key sequence is ingested in which no key occurs twice, starting at a set that was given, then its key sets and the created one are
replayed in order, each with the digests of the next, from the starting set on, with any choice of erasures; when the last set is the next one, replays
report the end and leave the key store and the manager as they are.

Missing: encrypted key stores (false, `c74_ingest_plain`), starting positions past the last given set (`c71_ingest_end`), sequences with a key twice. -/
theorem c77_replayed_partial {env : Env} {is : List Inp} (h : Along env (Inp.safe env) .start is) {a : IngestArgs}
    (hs : (Inp.call (.ingest a)).safe env (Node.start.run env is).1) {pre : Nat} {v : List (List Nat)}
    (hr : ((Node.start.run env is).1.step env (.call (.ingest a))).2 = some (.ingested pre v))
    (hn : (storedKeys (exec env (Node.start.run env is).1 (.ingest a)).1).Nodup) :
    v = a.secs ∧ ∃ created, created.length = a.ncount ∧ ∀ es : List Bool,
      let n := ((Node.start.run env is).1.step env (.call (.ingest a))).1
      let m := n.run env (es.map fun er => .call (.replay pre true er))
      m.2.map (·.2) = replayed env (a.secs ++ [created]) es.length a.iridx ∧
        (a.secs.length ≤ a.iridx + es.length + 1 → ∀ er, m.1.step env (.call (.replay pre true er)) = (m.1, some (.err .index))) := by
  obtain ⟨hk, he, hkn⟩ := along_known h
  generalize (Node.start.run env is).1 = n at *
  have hae : n.ks.aeid = none := hs.1
  have hr : some (exec env n (.ingest a)).2.2 = some (.ingested pre v) := hr
  simp only [Option.some.injEq] at hr
  cases hm : n.mem with
  | none => simp [exec, withMgr, hm] at hr
  | some mem =>
    have hex : exec env n (.ingest a) = ((ingest env n.ks mem a).1, some mem, .ofIngest (ingest env n.ks mem a).2) := by
      simp only [exec, withMgr, hm]
    rw [hex] at hr hn
    dsimp only at hr hn
    obtain ⟨m1, m2, m3, m4⟩ := he.mgr mem hm
    have hnone : mem.enc = none := by rw [m2, hae]; rfl
    have hdec : mem.dec = none := by
      rcases m3 with ⟨_, h2⟩ | ⟨x, s, h1, _⟩
      · rw [m4, h2]
      · rw [hae] at h1; simp at h1
    rcases ingest_out (env := env) (ks := n.ks) hnone (a := a) with ⟨e, hx, _⟩ | hx
    · rw [hx] at hr; simp [Res.ofIngest] at hr
    · obtain ⟨pre', all, s, h1, o⟩ := hx (hs.2.2 a rfl)
      rw [h1] at hr
      simp only [Res.ofIngest, Res.ingested.injEq] at hr
      obtain ⟨rfl, rfl⟩ := hr
      refine ⟨rfl, ?_⟩
      obtain ⟨created, hcl, hall⟩ := o.last
      refine ⟨created, hcl, fun es => ?_⟩
      intro n' m
      rw [o.stored] at hn
      have hst : StandsAt n' pre' all a.iridx := by
        show StandsAt ⟨n.ks.applyAll (exec env n (.ingest a)).1, (exec env n (.ingest a)).2.1⟩ pre' all a.iridx
        rw [hex]
        dsimp only
        have hfirst := o.first
        obtain ⟨prm, pidx, rest, f1, _, f3⟩ := hfirst
        refine ⟨⟨mem, rfl, hdec⟩, ?_, ?_, ⟨s, o.sits, ?_, o.new, o.nxt, o.ridx⟩, o.pubs (hkn.noSit o.pres).2.2, ?_⟩
        · show (n.ks.applyAll _).aeid = none
          rw [applyAll_aeid fun w hw => by have := o.about w hw; cases w <;> simp_all [Wr.about, Wr.isAeid]]
          exact hae
        · show (n.ks.applyAll _).prms.at' pre' ≠ none
          rw [f1]
          show (((((n.ks.apply (.pres pre' pre')).apply (.prms pre' prm)).apply (.pidx pidx)).applyAll rest)).prms.at' pre' ≠ none
          rw [applyAll_prms fun w hw => by rw [f3 w hw]; simp]
          simp [Ks.apply, tbl_pin_at]
        · have := o.old
          split at this
          · exact .inl this
          · exact .inr ⟨a.iridx - 1, by omega, this⟩
        · intro j l _ hl k hkk
          have hkm : k ∈ storedKeys (ingest env n.ks mem a).1 := by
            rw [o.stored]; exact List.mem_flatten.2 ⟨l, List.mem_of_getElem? hl, hkk⟩
          have hin : (n.ks.applyAll (ingest env n.ks mem a).1).pris.at' k ≠ none := applyAll_pris_stored hkm (about_norem o.about k)
          obtain ⟨sc, hsc⟩ := Option.ne_none_iff_exists'.1 hin
          have hlock := (he.step hk (i := .call (.ingest a)) hs.1.tidy).shut.locked.pris k sc
          have hks : (n.step env (.call (.ingest a))).1.ks = n.ks.applyAll (ingest env n.ks mem a).1 := by
            show n.ks.applyAll (exec env n (.ingest a)).1 = _
            rw [hex]
          rw [hks] at hlock
          have hae' : (n.ks.applyAll (ingest env n.ks mem a).1).aeid = none := by
            rw [applyAll_aeid fun w hw => by have := o.about w hw; cases w <;> simp_all [Wr.about, Wr.isAeid]]
            exact hae
          rw [hae'] at hlock
          show (n.ks.applyAll _).pris.at' k = _
          rw [hsc, hlock hsc]; rfl
      obtain ⟨q1, i', q2, q3⟩ := hst.replays hn es (env := env)
      refine ⟨?_, fun hlen er => ?_⟩
      · rw [← hall]; exact q1
      · refine (q2.once hn er).2 ?_
        rcases q3 with rfl | q3
        · rw [hall, List.getElem?_eq_none_iff]; simp; omega
        · exact q3

end Verif.Mgr
