import Verif.Mgr.PropsKeys

/-!
# C75: what an interrupted rotation leaves
-/

namespace Verif.Mgr

open Verif.Kel (upd)

theorem run_append {env : Env} : ∀ (xs ys : List Inp) (n : Node), n.run env (xs ++ ys) = (((n.run env xs).1.run env ys).1, (n.run env xs).2 ++ ((n.run env xs).1.run env ys).2)
  | [], _, _ => rfl
  | x :: xs, ys, n => by simp only [List.cons_append, Node.run, run_append xs ys]

theorem along_append {env : Env} {P : Node → Inp → Prop} : ∀ {xs ys : List Inp} {n : Node}, Along env P n (xs ++ ys) ↔ Along env P n xs ∧ Along env P (n.run env xs).1 ys
  | [], _, _ => by simp [Along, Node.run]
  | x :: xs, ys, n => by simp only [List.cons_append, Along, Node.run, along_append (xs := xs), and_assoc]

theorem madeBy_append {env : Env} : ∀ {xs ys : List Inp} {n : Node}, madeBy env n (xs ++ ys) = madeBy env n xs ++ madeBy env (n.run env xs).1 ys
  | [], _, _ => by simp [madeBy, Node.run]
  | x :: xs, ys, n => by simp only [List.cons_append, madeBy, Node.run, madeBy_append (xs := xs), List.append_assoc]

/-- What a part of the writes of a rotation leaves of the situation. -/
theorem rotated_sit {ks : Ks} {enc : Option Nat} {pre : Nat} {ps : Sit} {nxts : List Nat} {er : Bool} (hs : ks.sits pre = some ps) {ws : List Wr}
    (hw : ws <+: rotateAll enc pre ps nxts er) :
    ∃ s, (ks.applyAll ws).sits pre = some s ∧ (s.new = ps.new ∨ s.new = ps.nxt) := by
  cases ws with
  | nil => exact ⟨ps, hs, .inl rfl⟩
  | cons w rest =>
    unfold rotateAll at hw
    rw [List.append_assoc, List.append_assoc, List.singleton_append, List.cons_prefix_cons] at hw
    obtain ⟨rfl, hrest⟩ := hw
    refine ⟨⟨ps.new, ps.nxt, ⟨nxts, ps.nxt.ridx + 1, ps.nxt.kidx + ps.nxt.pubs.length⟩⟩, ?_, .inr rfl⟩
    show ((ks.apply _).applyAll rest).sits pre = _
    rw [applyAll_sits]
    · simp [Ks.apply]
    · intro w hw
      have := hrest.subset hw
      simp only [List.mem_append, List.mem_cons, List.not_mem_nil, or_false] at this
      rcases this with h | rfl | h
      · obtain ⟨k, _, rfl⟩ := mem_puts h; simp [Wr.sitKey]
      · simp [Wr.sitKey]
      · split at h
        · obtain ⟨k, _, rfl⟩ := List.mem_map.1 h; simp [Wr.sitKey]
        · simp at h

/-- **C75, an interrupted rotation.** As `c71_sign_partial`; if the rotation of an identifier whose keys are known for sure is interrupted anywhere and the manager is
restarted, then the keys in use are those before the rotation or those it was to reveal, `replay` without advance tells which, and the manager
signs with them. Missing: further rotations, which can be blocked (`c75_rotate_blocked`), and other calls. -/
theorem c75_rotate_partial {env : Env} {is : List Inp} {pre : Nat} {a : RotateArgs} {j : Nat} {seed aeid : Option Nat} {px : Nat} {al : Algo} {sa ti : Nat} {k : Keys}
    (h : Along env (Inp.safe env) .start (is ++ [.crash (.rotate pre a) j, .call (.openM seed aeid px al sa ti)]))
    (hn : (madeBy env .start (is ++ [.crash (.rotate pre a) j, .call (.openM seed aeid px al sa ti)])).Nodup)
    (ht : firm (Node.start.run env is).2 pre = some k)
    (hm : (Node.start.run env (is ++ [.crash (.rotate pre a) j, .call (.openM seed aeid px al sa ti)])).1.mem ≠ none) (er : Bool) :
    let n := (Node.start.run env (is ++ [.crash (.rotate pre a) j, .call (.openM seed aeid px al sa ti)])).1
    ∃ k', (n.step env (.call (.replay pre false er))).2 = some (.keys k') ∧ (k'.verfers = k.verfers ∨ k'.verfers.map env.dig = k.digers) ∧
      (n.step env (.call (.sign k'.verfers [] []))).2 = some (.sigs (wanted k'.verfers [] [])) := by
  have s2 := sound_run h hn
  have ha := along_append.1 h
  have s0 : Sound env (Node.start.run env is).1 (Node.start.run env is).2 (madeBy env .start is) := by
    refine sound_run ha.1 ?_
    rw [madeBy_append] at hn
    exact (List.nodup_append.1 hn).1
  intro n
  change n.mem ≠ none at hm
  have hnd : n = (((Node.start.run env is).1.step env (.crash (.rotate pre a) j)).1.step env (.call (.openM seed aeid px al sa ti))).1 := by
    show (Node.start.run env _).1 = _
    rw [run_append]; rfl
  have s2 : Sound env n _ _ := s2
  generalize (Node.start.run env is).1 = n0 at *
  generalize (Node.start.run env is).2 = h0 at *
  generalize madeBy env .start is = M0 at *
  obtain ⟨ps, p1, p2, p3⟩ := s0.ready pre k ht
  obtain ⟨t1, t2⟩ := (s0.told pre k (s0.le pre k ht)).2 ps p2
  -- after the interruption
  have hmid : ∃ s, (n0.step env (.crash (.rotate pre a) j)).1.ks.sits pre = some s ∧ (s.new = ps.new ∨ s.new = ps.nxt) ∧
      (n0.step env (.crash (.rotate pre a) j)).1.ks.prms.at' pre ≠ none ∧
      ∀ q, q ∈ s.new.pubs → (n0.step env (.crash (.rotate pre a) j)).1.ks.pris.at' q ≠ none := by
    show ∃ s, (n0.ks.applyAll ((exec env n0 (.rotate pre a)).1.take j)).sits pre = some s ∧ (s.new = ps.new ∨ s.new = ps.nxt) ∧
      (n0.ks.applyAll ((exec env n0 (.rotate pre a)).1.take j)).prms.at' pre ≠ none ∧
      ∀ q, q ∈ s.new.pubs → (n0.ks.applyAll ((exec env n0 (.rotate pre a)).1.take j)).pris.at' q ≠ none
    have none : ∃ s, (n0.ks.applyAll []).sits pre = some s ∧ (s.new = ps.new ∨ s.new = ps.nxt) ∧ (n0.ks.applyAll []).prms.at' pre ≠ none ∧
        ∀ q, q ∈ s.new.pubs → (n0.ks.applyAll []).pris.at' q ≠ none :=
      ⟨ps, p2, .inl rfl, p1, fun q hq => p3 q (.inl hq)⟩
    rcases withMgr_cases n0 (fun mem => ((rotate env n0.ks mem pre a).1, mem, .ofKeys (rotate env n0.ks mem pre a).2)) with ⟨_, hw⟩ | ⟨mem, hm', hw⟩
    · simp only [exec, hw, List.take_nil]; exact none
    · simp only [exec, hw]
      rcases rotate_cases env n0.ks mem pre a with ⟨e, he⟩ | ⟨prm, ps', v, nxts, o⟩
      · rw [he]; simp only [List.take_nil]; exact none
      · have : ps' = ps := by have := o.hsit; rw [p2] at this; simpa using this.symm
        subst this
        have hpart : (rotate env n0.ks mem pre a).1.take j <+: rotateAll mem.enc pre ps' nxts a.erase := (List.take_prefix _ _).trans o.part
        obtain ⟨s, q1, q2⟩ := rotated_sit p2 hpart
        have hturn : ∀ w ∈ (rotate env n0.ks mem pre a).1.take j, w.turns pre mem.enc := fun w hw => rotateAll_turns (hpart.subset hw)
        refine ⟨s, q1, q2, ?_, fun q hq => ?_⟩
        · rw [applyAll_prms fun w hw => by rw [(hturn w hw).prmKey]; simp]
          exact p1
        · have hq' : InLot n0.ks pre 1 q ∨ InLot n0.ks pre 2 q := by
            rcases q2 with q2 | q2 <;> rw [q2] at hq
            · exact .inl ⟨ps', p1, p2, hq⟩
            · exact .inr ⟨ps', p1, p2, hq⟩
          refine applyAll_pris_kept ?_ fun hr => ?_
          · rcases q2 with q2 | q2 <;> rw [q2] at hq
            · exact p3 q (.inl hq)
            · exact p3 q (.inr hq)
          · have hold : q ∈ ps'.old.pubs := rotateAll_rem (hpart.subset hr)
            rcases hq' with hl | hl
            · have := (s0.lots.apart hl (⟨ps', p1, p2, hold⟩ : InLot n0.ks pre 0 q)).2; omega
            · have := (s0.lots.apart hl (⟨ps', p1, p2, hold⟩ : InLot n0.ks pre 0 q)).2; omega
  obtain ⟨s, m1, m2, m3, m4⟩ := hmid
  -- after the restart
  have hkm : Kept (n0.step env (.crash (.rotate pre a) j)).1.ks := s0.kept.step _
  generalize (n0.step env (.crash (.rotate pre a) j)).1 = n1 at *
  have hks : n.ks = n1.ks.applyAll (openMgr env n1.ks seed aeid px al sa ti).1 := by rw [hnd]; rfl
  have href : ∀ w ∈ (openMgr env n1.ks seed aeid px al sa ti).1, w.reforms n1.ks := fun w hw => openMgr_reforms hkm hw
  have hrest : Rest n1.ks n.ks pre := by rw [hks]; exact Rest.reforms href pre
  have f1 : n.ks.sits pre = some s := by rw [hrest.sits]; exact m1
  have f2 : n.ks.prms.at' pre ≠ none := fun hc => m3 (hrest.prms.1 hc)
  have f3 : ∀ q ∈ s.new.pubs, n.ks.pris.at' q ≠ none := fun q hq => by
    rw [hks]
    exact applyAll_pris_kept (m4 q hq) fun hr => absurd (href _ hr) (by simp [Wr.reforms])
  obtain ⟨mem, hm⟩ := Option.ne_none_iff_exists'.1 hm
  obtain ⟨prm, hprm⟩ := Option.ne_none_iff_exists'.1 f2
  have hsign := sign_stored s2.kept s2.enc hm f3
  have hread : readPris env n.ks mem s.new.pubs = .ok s.new.pubs := by
    unfold sign at hsign
    cases hr : readPris env n.ks mem s.new.pubs with
    | error e => rw [hr] at hsign; simp at hsign
    | ok xs => rw [(readPris_ok s2.kept hr).1]
  have hrep : (replay env n.ks mem pre false er).2 = .ok ⟨s.new.pubs, s.nxt.pubs.map env.dig⟩ := by
    unfold replay
    rw [hprm, f1]
    dsimp only
    rw [if_neg (by simp), hread]
  refine ⟨⟨s.new.pubs, s.nxt.pubs.map env.dig⟩, ?_, ?_, ?_⟩
  · show some (exec env n (.replay pre false er)).2.2 = _
    simp only [exec, withMgr, hm]
    rw [hrep]; rfl
  · rcases m2 with m2 | m2
    · exact .inl (by rw [m2]; exact t1)
    · exact .inr (by rw [m2]; exact t2)
  · show some (exec env n (.sign s.new.pubs [] [])).2.2 = _
    simp only [exec, withMgr, hm]
    rw [hsign]
    simp [Res.ofSigs, wanted]

end Verif.Mgr
