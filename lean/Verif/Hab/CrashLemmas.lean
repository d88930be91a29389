import Verif.Hab.PropsFail

/-!
# Rotations that are interrupted
-/

namespace Verif.Hab

open Verif.Mgr

/-- The key store after some of the writes of `advance`. -/
def partly (env : Env) (w : World) (p : Nat) (nc : Int) (a : RotateArgs) (n : Nat) : Ks := w.ks.applyAll ((advance env w p nc a).1.take n)

structure Ahead (w : World) (p : Nat) (ps : Sit) (L : List Nat) (ks : Ks) : Prop where
  rest : ∀ q, q ≠ p → Rest w.ks ks q
  prms : ∀ q, ks.prms.at' q = w.ks.prms.at' q
  pres : ∀ q, ks.pres q = w.ks.pres q
  sits : ∃ kx, ks.sits p = some ⟨ps.new, ps.nxt, ⟨L, ps.nxt.ridx + 1, kx⟩⟩
  kept : ∀ k, w.ks.pris.at' k ≠ none → ks.pris.at' k ≠ none

theorem Advanced.partly {env : Env} {w : World} {M X : List Nat} (hk : KsInv env.mgr M X w.ks w.mem) {p : Nat} {nc : Int} {a : RotateArgs} {ps : Sit} {L : List Nat}
    (h : Advanced env w p nc a ps L) (hn : (M ++ storedKeys (advance env w p nc a).1).Nodup) {n : Nat} (hpos : 1 ≤ n) :
    Ahead w p ps L (partly env w p nc a n) ∧ KsInv env.mgr (M ++ storedKeys (advance env w p nc a).1) (p :: X) (partly env w p nc a n) w.mem := by
  obtain ⟨c, hpl, hc⟩ := h.call false
  simp only [Bool.false_eq_true, if_false, List.append_nil] at hc
  have ht : ∀ x ∈ (advance env w p nc a).1.take n, ∃ e, x.turns p e := fun x hx => h.turns x (List.mem_of_mem_take hx)
  have hrest : ∀ q, q ≠ p → Rest w.ks (Hab.partly env w p nc a n) q := by
    intro q hq
    refine Rest.other (fun x hx r hr => ?_) q hq
    obtain ⟨e, he⟩ := ht x hx
    cases x <;> simp [Wr.turns, Wr.sitKey, Wr.prmKey, Wr.pubKey] at he hr
    · rw [← hr, he]
    · rw [← hr, he]
  have hprms : ∀ q, (Hab.partly env w p nc a n).prms.at' q = w.ks.prms.at' q := by
    intro q
    refine applyAll_prms fun x hx => ?_
    obtain ⟨e, he⟩ := ht x hx
    rw [he.prmKey]; simp
  have hpres : ∀ q, (Hab.partly env w p nc a n).pres q = w.ks.pres q := by
    intro q
    refine applyAll_pres fun x hx => ?_
    obtain ⟨e, he⟩ := ht x hx
    cases x <;> simp [Wr.turns, Wr.presKey] at he ⊢
  have hgbl : (Hab.partly env w p nc a n).gbls = w.ks.gbls := by
    refine applyAll_gbls fun x hx => ?_
    obtain ⟨e, he⟩ := ht x hx
    cases x <;> simp [Wr.turns, Wr.gbl] at he ⊢
  obtain ⟨tail, htail, hsh⟩ : ∃ tail, (advance env w p nc a).1 = .sits p ⟨ps.new, ps.nxt, ⟨L, ps.nxt.ridx + 1, ps.nxt.kidx + ps.nxt.pubs.length⟩⟩ :: tail ∧
      ∀ x ∈ tail, x.sitKey = none ∧ (∀ k, x ≠ .prisRem k) ∧ ∀ q j l, x = .pubsPut q j l → j = ps.nxt.ridx + 1 := by
    rcases h.how with ⟨_, h1, _⟩ | ⟨_, _, _, h1, _⟩
    · exact ⟨[], by rw [h1]; simp [replayAll], by simp⟩
    · refine ⟨puts w.mem.enc L ++ [.pubsPut p (ps.nxt.ridx + 1) L], by rw [h1]; simp [rotateAll], ?_⟩
      intro x hx
      rcases List.mem_append.1 hx with hx | hx
      · obtain ⟨k, _, rfl⟩ := mem_puts hx; simp [Wr.sitKey]
      · simp at hx; subst hx; simp [Wr.sitKey]
  obtain ⟨m, rfl⟩ : ∃ m, n = m + 1 := ⟨n - 1, by omega⟩
  have hpart : Hab.partly env w p nc a (m + 1) = (w.ks.apply (.sits p ⟨ps.new, ps.nxt, ⟨L, ps.nxt.ridx + 1, ps.nxt.kidx + ps.nxt.pubs.length⟩⟩)).applyAll (tail.take m) := by
    unfold Hab.partly
    rw [htail]; rfl
  have hsit : (Hab.partly env w p nc a (m + 1)).sits p = some ⟨ps.new, ps.nxt, ⟨L, ps.nxt.ridx + 1, ps.nxt.kidx + ps.nxt.pubs.length⟩⟩ := by
    rw [hpart, applyAll_sits]
    · simp [Ks.apply]
    · intro x hx
      rw [(hsh x (List.mem_of_mem_take hx)).1]; simp
  have hkept : ∀ k, w.ks.pris.at' k ≠ none → (Hab.partly env w p nc a (m + 1)).pris.at' k ≠ none := by
    intro k hk1
    rw [hpart]
    refine applyAll_pris_kept (by simpa [Ks.apply] using hk1) fun hx => ?_
    exact (hsh _ (List.mem_of_mem_take hx)).2.1 k rfl
  have hpubs : ∀ q j, j ≠ ps.nxt.ridx + 1 → w.ks.pubs q j = none → (Hab.partly env w p nc a (m + 1)).pubs q j = none := by
    intro q j hj h0
    cases hl : (Hab.partly env w p nc a (m + 1)).pubs q j with
    | none => rfl
    | some l =>
      exfalso
      rw [hpart] at hl
      rcases applyAll_pubs_val hl with hc | hc
      · have hc : w.ks.pubs q j = some l := hc
        rw [h0] at hc; simp at hc
      · exact hj ((hsh _ (List.mem_of_mem_take hc)).2.2 q j l rfl)
  have hs : (Inp.crash c (m + 1)).safe env.mgr ⟨w.ks, some w.mem⟩ := by
    refine ⟨?_, by show (Mgr.exec env.mgr ⟨w.ks, some w.mem⟩ c).2.2 ≠ _; rw [hc]; simp, ?_⟩
    · rcases h.how with _ | _ <;> rcases hpl with ⟨a, rfl⟩ | ⟨o, m, rfl⟩ | ⟨p, a, rfl⟩ | ⟨p, x, y, rfl⟩ <;> try trivial
      all_goals
        exfalso
        have := congrArg (fun x => x.2.2) hc
        simp only [Mgr.exec, withMgr, Res.ofUnit] at this
        split at this <;> simp at this
    · intro a' ha
      rcases hpl with ⟨a, rfl⟩ | ⟨o, m, rfl⟩ | ⟨p, a, rfl⟩ | ⟨p, x, y, rfl⟩ <;> simp [Inp.of] at ha
  have hstep : (Mgr.Node.step env.mgr ⟨w.ks, some w.mem⟩ (.crash c (m + 1))).1.ks = Hab.partly env w p nc a (m + 1) := by
    show w.ks.applyAll ((Mgr.exec env.mgr ⟨w.ks, some w.mem⟩ c).1.take (m + 1)) = _
    rw [hc]; rfl
  have e := safe_eff (n := ⟨w.ks, some w.mem⟩) hk.kept hk.known hk.enc hs
  rw [hstep] at e
  have hst : storedKeys (Mgr.exec env.mgr ⟨w.ks, some w.mem⟩ (Inp.crash c (m + 1)).of).1 = storedKeys (advance env w p nc a).1 := by
    show storedKeys (Mgr.exec env.mgr ⟨w.ks, some w.mem⟩ c).1 = _
    rw [hc]
  rw [hst] at e
  have h2 : EncInv env.mgr (Mgr.Node.step env.mgr ⟨w.ks, some w.mem⟩ (.crash c (m + 1))).1 := hk.enc.step hk.kept hs.1.tidy
  refine ⟨⟨hrest, hprms, hpres, ⟨_, hsit⟩, hkept⟩, ?_⟩
  have hg : (Hab.partly env w p nc a (m + 1)).aeid = w.ks.aeid ∧ (Hab.partly env w p nc a (m + 1)).salt = w.ks.salt := by
    simp only [Ks.gbls, Prod.mk.injEq] at hgbl
    exact ⟨hgbl.1, hgbl.2.2.2.1⟩
  have hlost : ∀ q ∈ p :: X, (Hab.partly env w p nc a (m + 1)).prms.at' q ≠ none := by
    intro q hq
    rw [hprms]
    rcases List.mem_cons.1 hq with rfl | hq
    · exact h.prms
    · exact hk.lost q hq
  refine ⟨?_, ⟨?_, ?_⟩, ?_, ?_, ?_, hlost, ?_, ?_⟩
  · rw [← hstep]; exact hk.kept.step _
  · have := h2.shut; rw [hstep] at this; exact this
  · intro mem hm
    have := hk.enc.mgr mem hm
    show (Hab.partly env w p nc a (m + 1)).salt ≠ none ∧ mem.enc = (Hab.partly env w p nc a (m + 1)).aeid.map env.mgr.boxA ∧
      Fits env.mgr (Hab.partly env w p nc a (m + 1)).aeid mem.seed ∧ mem.dec = mem.seed
    rw [hg.1, hg.2]; exact this
  · exact hk.known.next e fun q hq => by rw [hpres]; exact hq
  · have := Algos.step (n := ⟨w.ks, some w.mem⟩) hk.kept hk.enc hk.algos hs
    rw [hstep] at this; exact this
  · exact hk.lots.next hn e
  · refine hk.whole.next hk.known hk.lots hn (fun q hq hx => hq (List.mem_cons_of_mem _ hx)) (fun q hq => hlost q (List.mem_cons_of_mem _ hq)) ?_ e
    intro _ _ _ q hq
    exact (hrest q (fun (he : q = p) => hq (by rw [he]; simp))).sits
  · intro q s hq1 hq2 j hj
    by_cases hqp : q = p
    · subst hqp
      rw [hsit] at hq2
      injection hq2 with hq2
      subst hq2
      dsimp only at hj
      exact hpubs q j (by omega) (hk.stop q ps h.prms h.sits j (by omega))
    · have r := hrest q hqp
      rw [r.pubs]
      exact hk.stop q s (by rw [← hprms]; exact hq1) (by rw [← r.sits]; exact hq2) j hj

end Verif.Hab
