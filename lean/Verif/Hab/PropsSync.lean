import Verif.Hab.LiveLemmas

/-!
# Properties of habitats: key store and log agree, what a call reports is what happened

`Verif.Hab.Spec` has the vocabulary. `Hist` ranges over all histories of calls, arriving messages and restarts of a host that starts empty.
-/

namespace Verif.Hab

open Verif.Kel
open Verif.Thold (Thold Sith)

/-- C130. In every history, key store and log agree on each of the host's identifiers that has a key state: its keys are those the key store uses for signing, the next keys
of the key store are those committed to, and the private keys of all of them are stored. Missing: calls with fewer weights than keys, for which it fails
(`c130_short_weights`). -/
theorem c130_sync_partial {env : Env} {U : Event → Prop} (hl : Laws env) (hnc : NoColl U) {w0 w : World} {M : List Nat} (h0 : Start env w0) (h : Hist env U w0 M w)
    (hn : M.Nodup) (p : Id) (hp : p ∈ w.node.prefixes) (k : Kever) (hk : w.node.kevers p = some k) : InSync env w p k := by
  have hi := (Inv.start (U := U) h0).hist hl hnc h (by simpa using hn)
  obtain ⟨s, h1, h2, sane, h3, _⟩ := hi.state p hp k hk
  obtain ⟨h4, h5⟩ := h3 (by simp)
  exact ⟨⟨s, h2, h4, h5, fun x hx => hi.ks.whole p 2 x (by simp) (by omega) ⟨s, h1, h2, hx⟩⟩,
    fun x hx => hi.ks.whole p 1 x (by simp) (by omega) ⟨s, h1, h2, by rw [← h4] at hx; exact hx⟩⟩

/-- The event was taken: it is the last one of the log of its identifier and of the key state, and nothing else was added to any log. -/
structure InLog (w w' : World) (e : Event) : Prop where
  own : e.pre ∈ w'.node.prefixes
  state : ∃ k, w'.node.kevers e.pre = some k ∧ k.serder = e ∧ k.sn = e.sn
  others : ∀ q, q ≠ e.pre → w'.node.kevers q = w.node.kevers q
  fels : ∀ q, w'.node.db.fels q = if q = e.pre then w.node.db.fels e.pre ++ [e.said] else w.node.db.fels q
  stored : w'.node.db.evts e.pre e.said = some e

/-- C131. When a call returns an event, then this event was built by the call and is in the log and the key state; when it raises, then database and key states are as before.
Missing: calls with fewer weights than keys (`c131_short_weights`). -/
theorem c131_result_partial {env : Env} {U : Event → Prop} (hl : Laws env) (hnc : NoColl U) {w0 w : World} {M : List Nat} (h0 : Start env w0) (h : Hist env U w0 M w)
    (c : Call) (fit : Fit env U w c) (hn : (M ++ madeBy env w c).Nodup) :
    (∀ e, (exec env w c).2 = .ok e → eventOf env w c = some e ∧ InLog w (exec env w c).1 e) ∧
    (∀ x, (exec env w c).2 = .error x → (exec env w c).1.node.db = w.node.db ∧ (exec env w c).1.node.kevers = w.node.kevers) := by
  have hi := (Inv.start (U := U) h0).hist hl hnc h (by simpa using (List.nodup_append.1 hn).1)
  have hi' : Inv env U ([] ++ M ++ madeBy env w c) [] (exec env w c).1 := by
    rw [List.append_assoc]; exact (Inv.start (U := U) h0).hist hl hnc (.call c h fit) hn
  have mk : ∀ {m : Node} {e : Event} {k1 : Kever}, Took m e k1 ((exec env w c).1.node, .ok ()) → m.kevers = w.node.kevers → m.db = w.node.db →
      e.pre ∈ m.prefixes → k1.serder = e → k1.sn = e.sn → InLog w (exec env w c).1 e := by
    intro m e k1 t h1 h2 h3 h4 h5
    have hkv : (exec env w c).1.node.kevers = upd w.node.kevers e.pre (some k1) := by rw [← h1]; exact t.kevers
    have hfe : (exec env w c).1.node.db.fels = upd w.node.db.fels e.pre (w.node.db.fels e.pre ++ [e.said]) := by rw [← h2]; exact t.fels
    have hk1 : (exec env w c).1.node.kevers e.pre = some k1 := by rw [hkv]; simp [upd]
    refine ⟨by rw [show (exec env w c).1.node.prefixes = m.prefixes from t.prefixes]; exact h3, ⟨k1, hk1, h4, h5⟩, fun q hq => by rw [hkv, upd, if_neg hq], fun q => ?_, ?_⟩
    · rw [hfe, upd]
    · have := (hi'.reached.keys hnc _ _ hk1).acc.2
      rw [h4] at this; exact this
  cases c with
  | make a =>
    have hex : exec env w (.make a) = make env w a := rfl
    cases make_did hl hi fit (by simpa using hn) with
    | noKeys x made none eq => rw [hex, eq]; exact ⟨by simp, fun _ _ => ⟨rfl, rfl⟩⟩
    | unfinished ks' inv frame x why eq => rw [hex, eq]; exact ⟨by simp, fun _ _ => ⟨rfl, rfl⟩⟩
    | refused ks' inv frame e ev fresh taken x why eq => rw [hex, eq]; exact ⟨by simp, fun _ _ => ⟨rfl, rfl⟩⟩
    | done ks' inv frame pubs nxts keys e built fresh taken prms sits clear n k1 took node sane hkeys hnd hserder name eq =>
      have ev : eventOf env w (.make a) = some e := by simp [eventOf, keys, built, Except.toOption]
      have hn1 : (exec env w (.make a)).1.node = n := by rw [hex, eq]
      have hres : (exec env w (.make a)).2 = .ok e := by rw [hex, eq]
      rw [hres]
      refine ⟨fun e' he => ?_, by simp⟩
      injection he with he
      subst he
      obtain ⟨k2, t1, t2, t3⟩ := took.logged.2.2.2
      have t1 : n.kevers e.pre = some k2 := t1
      rw [show n.kevers = _ from took.kevers, upd, if_pos rfl] at t1
      injection t1 with t1
      subst t1
      exact ⟨ev, mk (m := entered env w.node e.pre) (hn1.symm ▸ took) rfl rfl (by simp [entered, Node.step, mem_ioAdd]) t3 t2⟩
  | rotate p a =>
    have hex : exec env w (.rotate p a) = rotate env w p a := rfl
    have hp := fit.own p rfl
    cases hk : w.node.kevers p with
    | none =>
      have h2 : exec env w (.rotate p a) = (w, .error .attr) := by rw [hex]; unfold Hab.rotate; rw [hk]
      rw [h2]; exact ⟨by simp, fun _ _ => ⟨rfl, rfl⟩⟩
    | some k =>
    cases rotate_did hl hi hp hk fit (by simpa using hn) with
    | noKeys x made none eq => rw [hex, eq]; exact ⟨by simp, fun _ _ => ⟨rfl, rfl⟩⟩
    | refused ps L adv x why eq => rw [hex, eq]; exact ⟨by simp, fun _ _ => ⟨rfl, rfl⟩⟩
    | done ps L adv e n fn wits cuts adds mine built took node g1 g2 g3 sat eq =>
      obtain ⟨says, _⟩ := rotEvent_says built
      obtain ⟨s, h1, h2, sane, h3, h4⟩ := hi.state p hp k hk
      have hpre : e.pre = p := says.pre.trans sane.pre
      have ev : eventOf env w (.rotate p a) = some e := by simp [eventOf, hk, adv.ok, built, Except.toOption]
      have hn1 : (exec env w (.rotate p a)).1.node = n := by rw [hex, eq]
      have hres : (exec env w (.rotate p a)).2 = .ok e := by rw [hex, eq]
      rw [hres]
      refine ⟨fun e' he => ?_, by simp⟩
      injection he with he
      subst he
      exact ⟨ev, mk (hn1.symm ▸ took) rfl rfl (hpre ▸ hp) rfl rfl⟩
  | interact p seals anchors =>
    have hex : exec env w (.interact p seals anchors) = interact env w p seals anchors := rfl
    have hp := fit.own p rfl
    cases hk : w.node.kevers p with
    | none =>
      have h2 : exec env w (.interact p seals anchors) = (w, .error .attr) := by rw [hex]; unfold Hab.interact; rw [hk]
      rw [h2]; exact ⟨by simp, fun _ _ => ⟨rfl, rfl⟩⟩
    | some k =>
    cases interact_did (seals := seals) (anchors := anchors) hl hi hp hk with
    | refused x why eq => rw [hex, eq]; exact ⟨by simp, fun _ _ => ⟨rfl, rfl⟩⟩
    | done e n fn built took node eq =>
      obtain ⟨s, h1, h2, sane, h3, h4⟩ := hi.state p hp k hk
      obtain ⟨b1, b2, b3, b4, _⟩ := buildIxn_says built
      have hpre : e.pre = p := b2.trans sane.pre
      have ev : eventOf env w (.interact p seals anchors) = some e := by simp [eventOf, hk, built, Except.toOption]
      have hn1 : (exec env w (.interact p seals anchors)).1.node = n := by rw [hex, eq]
      have hres : (exec env w (.interact p seals anchors)).2 = .ok e := by rw [hex, eq]
      rw [hres]
      refine ⟨fun e' he => ?_, by simp⟩
      injection he with he
      subst he
      exact ⟨ev, mk (hn1.symm ▸ took) rfl rfl (hpre ▸ hp) rfl rfl⟩

end Verif.Hab
