import Verif.Hab.CrashLemmas

/-!
# Properties of habitats: interrupted rotations
-/

namespace Verif.Hab

open Verif.Kel
open Verif.Thold (Thold Sith)

/-- Keys of the list open no digests but their own. -/
def Apart (env : Env) (l : List Nat) : Prop := ∀ x ∈ l, ∀ y ∈ l, env.kel.commits x (env.mgr.dig y) = true → x = y

/-- The keys of the key sequence get ahead of the log. -/
theorem Inv.crash {env : Env} {U : Event → Prop} {M : List Nat} {w : World} (hnc : NoColl U) (h : Inv env U M [] w) {p : Id} {k : Kever} {a : RotateArgs}
    (hp : p ∈ w.node.prefixes) (hk : w.node.kevers p = some k) {keys : Mgr.Keys} (hok : (advance env w p (a.ncount.getD k.ndigs.length) a).2 = .ok keys)
    (hn : (M ++ madeBy env w (.rotate p a)).Nodup) (hap : Apart env (M ++ madeBy env w (.rotate p a))) {n : Nat} (hpos : 1 ≤ n) :
    Inv env U (M ++ madeBy env w (.rotate p a)) [p] (crashRotate env w p a n) := by
  have hmade : madeBy env w (.rotate p a) = Mgr.storedKeys (advance env w p (a.ncount.getD k.ndigs.length) a).1 := by simp [madeBy, hk]
  rw [hmade] at hn hap ⊢
  rcases advance_cases h.ks (by rw [hok]; simp) with ⟨x, hx⟩ | ⟨ps, L, adv⟩
  · rw [hx] at hok; simp at hok
  obtain ⟨ah, ki⟩ := adv.partly h.ks hn hpos
  have hw : crashRotate env w p a n = { w with ks := partly env w p (a.ncount.getD k.ndigs.length) a n } := by
    unfold crashRotate
    rw [hk]
    dsimp only
    rw [restart_eq hnc h.reached]
    rfl
  rw [hw]
  refine ⟨ki, h.reached, fun q hq => ⟨by rw [ah.pres]; exact (h.own q hq).1, (h.own q hq).2⟩, fun q hq => by simp at hq; rw [hq]; exact hp, fun q hq k' hk' => ?_⟩
  obtain ⟨s, h1, h2, sane, h3, _⟩ := h.state q hq k' hk'
  by_cases hqp : q = p
  · subst hqp
    have : s = ps := by have := adv.sits; rw [h2] at this; injection this
    subst this
    obtain ⟨kx, hsx⟩ := ah.sits
    refine ⟨_, by rw [ah.prms]; exact h1, hsx, sane, fun hx => absurd (List.mem_singleton.2 rfl) hx, fun _ x hx d hd => ?_⟩
    obtain ⟨_, hnd⟩ := h3 (by simp)
    rw [hnd] at hd
    obtain ⟨y, hy, rfl⟩ := List.mem_map.1 hd
    have l1 : Mgr.InLot (partly env w q (a.ncount.getD k.ndigs.length) a n) q 2 x := ⟨_, by rw [ah.prms]; exact h1, hsx, hx⟩
    have l2 : Mgr.InLot (partly env w q (a.ncount.getD k.ndigs.length) a n) q 1 y := ⟨_, by rw [ah.prms]; exact h1, hsx, hy⟩
    cases hcm : env.kel.commits x (env.mgr.dig y) with
    | false => rfl
    | true =>
      have := hap x (ki.lots.made l1) y (ki.lots.made l2) hcm
      subst this
      exact absurd (ki.lots.apart l1 l2).2 (by simp)
  · have r := ah.rest q hqp
    refine ⟨s, by rw [ah.prms]; exact h1, by rw [r.sits]; exact h2, sane, fun _ => h3 (by simp), fun hx => absurd (List.mem_singleton.1 hx) hqp⟩

/-- While the key sequence of `p` is ahead, no rotation of `p` succeeds, and its keys and commitments stay. -/
theorem Inv.stuck {env : Env} {U : Event → Prop} {M : List Nat} {w : World} (hl : Laws env) {p : Id} (h : Inv env U M [p] w) {a : RotateArgs}
    (fit : Fit env U w (.rotate p a)) (hn : (M ++ madeBy env w (.rotate p a)).Nodup) : ∃ x, (exec env w (.rotate p a)).2 = .error x := by
  have hp := fit.own p rfl
  have hex : exec env w (.rotate p a) = Hab.rotate env w p a := rfl
  cases hk : w.node.kevers p with
  | none => exact ⟨.attr, by rw [hex]; unfold Hab.rotate; rw [hk]⟩
  | some k =>
  cases rotate_did hl h hp hk fit hn with
  | noKeys x made none eq => exact ⟨_, by rw [hex, eq]⟩
  | refused ps L adv x why eq => exact ⟨_, by rw [hex, eq]⟩
  | done ps L adv e n fn wits cuts adds mine built took node g1 g2 g3 sat eq => exact absurd (List.mem_singleton.2 rfl) mine

/-- C136, the point of no return. When the process stops in a rotation after the key store wrote the new situation and before the event is logged, then the
identifier can never be rotated again: in every later history every rotation of it raises. -/
theorem c136_stuck {env : Env} {U : Event → Prop} (hl : Laws env) (hnc : NoColl U) {w0 w w' : World} {M M' : List Nat} (h0 : Start env w0) (h : Hist env U w0 M w)
    (p : Id) (a : RotateArgs) (fit : Fit env U w (.rotate p a)) (k : Kever) (hk : w.node.kevers p = some k) (keys : Mgr.Keys)
    (hok : (advance env w p (a.ncount.getD k.ndigs.length) a).2 = .ok keys) (n : Nat) (hpos : 1 ≤ n) (hap : Apart env (M ++ madeBy env w (.rotate p a)))
    (h' : Hist env U (crashRotate env w p a n) M' w') (b : RotateArgs) (fit' : Fit env U w' (.rotate p b))
    (hn : (M ++ madeBy env w (.rotate p a) ++ M' ++ madeBy env w' (.rotate p b)).Nodup) :
    ∃ x, (exec env w' (.rotate p b)).2 = .error x := by
  have hn1 := (List.nodup_append.1 hn).1
  have hn2 := (List.nodup_append.1 hn1).1
  have hi := (Inv.start (U := U) h0).hist hl hnc h (by simpa using (List.nodup_append.1 hn2).1)
  rw [List.nil_append] at hi
  have hi1 := hi.crash hnc (fit.own p rfl) hk hok hn2 hap hpos
  have hi2 := hi1.hist hl hnc h' hn1
  exact hi2.stuck hl fit' hn

/-- C136, before. When the process stops before the key store wrote anything, everything is as before. -/
theorem c136_before_partial {env : Env} {U : Event → Prop} (hl : Laws env) (hnc : NoColl U) {w0 w : World} {M : List Nat} (h0 : Start env w0) (h : Hist env U w0 M w) (hn : M.Nodup)
    (p : Id) (a : RotateArgs) : crashRotate env w p a 0 = w := by
  have hi := (Inv.start (U := U) h0).hist hl hnc h (by simpa using hn)
  unfold crashRotate
  split
  · rfl
  · rw [restart_eq hnc hi.reached]; rfl

theorem removal_less {ks : Mgr.Ks} {l : List Nat} {x : Nat} (h : (ks.applyAll (l.map .prisRem)).pris.at' x ≠ none) : ks.pris.at' x ≠ none ∧ x ∉ l := by
  refine ⟨fun h0 => h ?_, fun hx => h (Mgr.removed hx)⟩
  refine Mgr.applyAll_ind (P := fun k => k.pris.at' x = none) (fun w hw k hk => ?_) h0
  obtain ⟨y, _, rfl⟩ := List.mem_map.1 hw
  simp only [Mgr.Ks.apply]
  by_cases hxy : x = y
  · subst hxy; simp [Mgr.Tbl.rem, upd]
  · simp [Mgr.Tbl.rem, upd, hxy, hk]

/-- C136, after. When the process stops after the event was logged, while the keys before the last ones are erased, then key store and log agree on the new keys. -/
theorem c136_after_partial {env : Env} {U : Event → Prop} (hl : Laws env) (hnc : NoColl U) {w0 w : World} {M : List Nat} (h0 : Start env w0) (h : Hist env U w0 M w)
    (p : Id) (a : RotateArgs) (fit : Fit env U w (.rotate p a)) (hn : (M ++ madeBy env w (.rotate p a)).Nodup) (e : Event) (he : (exec env w (.rotate p a)).2 = .ok e) (n : Nat) :
    ∃ k, (crashErase env w p a n).node.kevers p = some k ∧ k.serder = e ∧ InSync env (crashErase env w p a n) p k := by
  have hs : ∃ rest : List Nat, (crashErase env w p a n).ks.applyAll (rest.map .prisRem) = (exec env w (.rotate p a)).1.ks ∧
      (crashErase env w p a n).node = (exec env w (.rotate p a)).1.node.restart := by
    have hex : exec env w (.rotate p a) = rotate env w p a := rfl
    rw [hex] at he ⊢
    unfold rotate at he ⊢
    unfold crashErase
    cases hk : w.node.kevers p with
    | none => rw [hk] at he; simp at he
    | some k =>
      rw [hk] at he
      dsimp only at he ⊢
      generalize advance env w p (a.ncount.getD k.ndigs.length) a = r at he ⊢
      obtain ⟨ws, r⟩ := r
      cases r with
      | error x => simp at he
      | ok keys =>
        dsimp only at he ⊢
        generalize baseRotate env { w with ks := w.ks.applyAll ws } k keys a = r2 at he ⊢
        obtain ⟨w1, r2⟩ := r2
        cases r2 with
        | error x => simp at he
        | ok e' =>
          dsimp only
          refine ⟨(oldKeys w.ks p).drop n, ?_, rfl⟩
          rw [← Mgr.applyAll_append, ← List.map_take, ← List.map_append, List.take_append_drop]
  obtain ⟨rest, hs1, hs2⟩ := hs
  have hi' : Inv env U ([] ++ (M ++ madeBy env w (.rotate p a))) [] (exec env w (.rotate p a)).1 := (Inv.start (U := U) h0).hist hl hnc (.call _ h fit) hn
  rw [restart_eq hnc hi'.reached] at hs2
  obtain ⟨ev, il⟩ := (c131_result_partial hl hnc h0 h _ fit hn).1 e he
  have hpre : e.pre = p := by
    have hi := (Inv.start (U := U) h0).hist hl hnc h (by simpa using (List.nodup_append.1 hn).1)
    cases hk : w.node.kevers p with
    | none => simp [eventOf, hk] at ev
    | some k =>
      simp only [eventOf, hk] at ev
      split at ev
      · simp at ev
      rename_i keys _
      cases hr : rotEvent env k keys a with
      | error x => rw [hr] at ev; simp [Except.toOption] at ev
      | ok e' =>
        rw [hr] at ev
        simp [Except.toOption] at ev
        subst ev
        obtain ⟨s, _, _, sane, _⟩ := hi.state p (fit.own p rfl) k hk
        exact (rotEvent_says hr).1.pre.trans sane.pre
  obtain ⟨k, hk1, hk2, _⟩ := il.state
  have hown := il.own
  rw [hpre] at hk1 hown
  have hsync := c130_sync_partial hl hnc h0 (.call _ h fit) hn p hown k hk1
  have hsits : (exec env w (.rotate p a)).1.ks.sits = (crashErase env w p a n).ks.sits := by
    rw [← hs1]
    funext q
    refine Mgr.applyAll_sits fun x hx => ?_
    obtain ⟨y, _, rfl⟩ := List.mem_map.1 hx
    simp [Mgr.Wr.sitKey]
  have hpris : ∀ x, (exec env w (.rotate p a)).1.ks.pris.at' x ≠ none → (crashErase env w p a n).ks.pris.at' x ≠ none := by
    intro x hx
    rw [← hs1] at hx
    exact (removal_less hx).1
  obtain ⟨s, g1, g2, g3, g4⟩ := hsync.keys
  exact ⟨k, by rw [hs2]; exact hk1, hk2, ⟨⟨s, by rw [← hsits]; exact g1, g2, g3, fun x hx => hpris x (g4 x hx)⟩, fun x hx => hpris x (hsync.current x hx)⟩⟩

end Verif.Hab
