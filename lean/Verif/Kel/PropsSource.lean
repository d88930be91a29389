import Verif.Kel.Source

/-! # C30 over histories -/

namespace Verif.Kel

/-- **C30, histories.** The host owns `p` throughout (it is among its identifiers, is not a group, and the configuration is never
changed). If every message carrying the event `e` of `p` came from a remote source, whatever else arrived, was retried from
escrow or was approved in between, and no other event was ever accepted at the number of `e`, then `e` is not in the log of `p`.
Missing: when another event is accepted at that number, the duplicity escrow marks `e` as local (`c30_laundered`). -/
theorem c30_history_partial {env : Env} {U : Event → Prop} (hnc : NoColl U) (ps gs : List Id) (m : Id → Option Id) (h : List Inp)
    (hd : Delivers U h) (e : Event) (he : U e) (hown : e.pre ∈ ps) (hgrp : e.pre ∉ gs)
    (hcfg : ∀ i, i ∈ h → ∀ ps gs m, i ≠ .config ps gs m)
    (hrem : ∀ x ss ws c eager isLocal, Inp.event x ss ws c eager isLocal ∈ h → x.said = e.said → isLocal = false)
    (honly : ∀ x, Accepted ((Node.start ps gs m).run env h).db e.pre x → x.sn = e.sn → x = e) :
    e.said ∉ ((Node.start ps gs m).run env h).db.fels e.pre := by
  obtain ⟨h', h1, h2, h3⟩ := expand env (fun i => Apart e i ∧ ∀ x, i.delivers = some x → U x)
    (fun kind stale x => ⟨⟨fun _ _ _ hc => absurd hc (by simp), fun _ _ _ _ _ _ hc => absurd hc (by simp)⟩,
      fun _ hc => absurd hc (by simp [Inp.delivers])⟩) h (Node.start ps gs m) (fun i hi => ⟨⟨hcfg i hi, by
        intro x ss ws c eager isLocal hx _ hs; subst hx; exact hrem x ss ws c eager isLocal hi hs⟩, hd i hi⟩)
  have hr : Reached env U (Node.start ps gs m) := ⟨ps, gs, m, [], by intro i hi; simp at hi, rfl⟩
  have hdel : Delivers U h' := fun i hi x hx => (h1 i hi).2 x hx
  have hf : OnlyRemote (Node.start ps gs m) e := by
    refine ⟨?_, ?_, ?_⟩
    · simp [Node.owned, Node.start, hown, hgrp]
    · simp [Node.start, Db.empty]
    · simp [Node.start, Db.empty]
  rw [← h3] at honly ⊢
  refine (hf.smalls hnc he h' _ hr hdel h2 (fun i hi => (h1 i hi).1) ?_).out
  intro d hdm
  obtain ⟨hdf, x, hx, hs⟩ := (((hr.run hdel).inv hnc).mem _ _ _).1 hdm
  obtain ⟨_, hsd, _⟩ := (hr.run hdel).evtU _ _ _ hx
  rw [← hsd, honly x ⟨by rw [hsd]; exact hdf, by rw [hsd]; exact hx⟩ hs]

namespace DemoSrc

/-- Own identifier 1; its inception is local, its first interaction arrives only from a remote source, then again and from escrow. -/
def hist : List Inp :=
  [Demo8.mine Demo.icp 101, Demo.recv Demo.ixn1 101, .pass .outOfOrder (fun _ => false), Demo.recv Demo.ixn1 101,
   .pass .partialSigs (fun _ => false)]

/-- The hypotheses are met, and the interaction would have been accepted from a local source. -/
example : (Demo8.node.run Demo.env hist).db.fels 1 = [10] ∧
    (Demo8.node.run Demo.env (hist ++ [Demo8.mine Demo.ixn1 101])).db.fels 1 = [10, 11] := by decide +kernel

example : (11 : Dig) ∉ (Demo8.node.run Demo.env hist).db.fels 1 := by
  refine c30_history_partial (U := fun x => x = Demo.icp ∨ x = Demo.ixn1) ?_ [1] [] (fun _ => none) hist ?_ Demo.ixn1 (.inr rfl) ?_ ?_
    ?_ ?_ ?_
  · rintro x y (rfl | rfl) (rfl | rfl) h <;> first | rfl | exact absurd h (by decide)
  · intro i hi x hx
    simp [hist, Demo8.mine, Demo.recv] at hi
    rcases hi with rfl | rfl | rfl | rfl | rfl <;> simp [Inp.delivers] at hx <;> simp [hx]
  · decide
  · decide
  · intro i hi ps gs m hc; subst hc; simp [hist, Demo8.mine, Demo.recv] at hi
  · intro x ss ws c eager isLocal hi hs
    simp [hist, Demo8.mine, Demo.recv] at hi
    rcases hi with hi | hi
    · obtain ⟨rfl, _⟩ := hi; exact absurd hs (by decide)
    · exact hi.2.2.2.2.2
  · intro x hx hs
    have hf : (Demo8.node.run Demo.env hist).db.fels 1 = [10] := by decide +kernel
    have h0 : (Demo8.node.run Demo.env hist).db.evts 1 10 = some Demo.icp := by decide +kernel
    have h1 : x.said ∈ (Demo8.node.run Demo.env hist).db.fels 1 := hx.1
    rw [hf] at h1
    have h1 : x.said = 10 := by simpa using h1
    have h2 : (Demo8.node.run Demo.env hist).db.evts 1 x.said = some x := hx.2
    rw [h1, h0] at h2; injection h2 with h2; subst h2
    exact absurd hs (by decide)

end DemoSrc

end Verif.Kel
