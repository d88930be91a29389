import Verif.Hab.PropsSync

/-!
# Properties of habitats: which calls succeed
-/

namespace Verif.Hab

open Verif.Kel
open Verif.Thold (Thold Sith)

/-- Keys are keys the node can use. -/
def GoodKeys (env : Env) (l : List Nat) : Prop := ∀ x ∈ l, env.kel.okKey x = true

/-- C132, rotations: a rotation returns exactly the event it builds; whatever the builder lets pass, one's own node takes. -/
theorem c132_rotate {env : Env} {U : Event → Prop} (hl : Laws env) (hnc : NoColl U) {w0 w : World} {M : List Nat} (h0 : Start env w0) (h : Hist env U w0 M w)
    (p : Id) (a : RotateArgs) (fit : Fit env U w (.rotate p a)) (hn : (M ++ madeBy env w (.rotate p a)).Nodup) (hM : GoodKeys env M) (ha : GoodKeys env a.rot.adds) (e : Event) :
    (exec env w (.rotate p a)).2 = .ok e ↔ eventOf env w (.rotate p a) = some e := by
  refine ⟨fun he => ((c131_result_partial hl hnc h0 h _ fit hn).1 e he).1, fun he => ?_⟩
  have hi := (Inv.start (U := U) h0).hist hl hnc h (by simpa using (List.nodup_append.1 hn).1)
  have hex : exec env w (.rotate p a) = rotate env w p a := rfl
  have hp := fit.own p rfl
  cases hk : w.node.kevers p with
  | none => simp [eventOf, hk] at he
  | some k =>
  cases rotate_did hl hi hp hk fit (by simpa using hn) with
  | noKeys x made none eq => rw [none] at he; simp at he
  | done ps L adv e' n fn wits cuts adds mine built took node g1 g2 g3 sat eq =>
    have ev : eventOf env w (.rotate p a) = some e' := by simp [eventOf, hk, adv.ok, built, Except.toOption]
    rw [ev] at he
    injection he with he
    rw [hex, eq, he]
  | refused ps L adv x why eq =>
    exfalso
    have hb : rotEvent env k ⟨ps.nxt.pubs, L.map env.mgr.dig⟩ a = .ok e := by
      simp only [eventOf, hk, adv.ok] at he
      cases hr : rotEvent env k ⟨ps.nxt.pubs, L.map env.mgr.dig⟩ a with
      | error x => rw [hr] at he; simp [Except.toOption] at he
      | ok e' => rw [hr] at he; simp [Except.toOption] at he; rw [he]
    refine why e hb ?_
    obtain ⟨says, hrev⟩ := rotEvent_says hb
    obtain ⟨s, h1, h2, sane, h3, _⟩ := hi.state p hp k hk
    have : s = ps := by have := adv.sits; rw [h2] at this; injection this
    subst this
    obtain ⟨hnew, hnd⟩ := h3 (by simp)
    have hK := hi.reached.keys hnc p k hk
    have hpre : e.pre = p := says.pre.trans sane.pre
    have hkeys : e.keys = s.nxt.pubs := says.keys
    have hsat : Thold.satisfy e.kt (List.range e.keys.length) = true :=
      all_satisfy says.pos says.size fun cs hcs => ⟨says.wf cs hcs, fit.weights e cs he hcs⟩
    rw [hnd, revealed_all hl] at hrev
    have hne : k.ndigs ≠ [] := by
      rw [hnd]; intro hnil
      have : s.nxt.pubs = [] := by simpa using hnil
      exact range_ne hrev (by rw [this]; rfl)
    have hnext : Thold.satisfy k.nt (exposeds env.kel k.ndigs e.keys (allSigs env e.keys e)) = true := by
      rw [allSigs_exposed (by rw [hnd, hkeys]; simp), hnd, List.length_map]
      · exact hrev
      · intro i x d hx hd
        rw [hkeys] at hx
        rw [hnd, List.getElem?_map, hx] at hd
        simp only [Option.map_some, Option.some.injEq] at hd
        rw [← hd]; exact hl.opens x
    have hkok : ∀ x ∈ e.keys, env.kel.okKey x = true := by
      intro x hx
      rw [hkeys] at hx
      exact hM x (by simpa using hi.ks.lots.made (p := p) (i := 2) ⟨s, h1, h2, hx⟩)
    have hback : ∃ wits, deriveBacks k e = .ok (wits, e.cuts, e.adds) ∧ toadOk e.toad wits = true ∧ ∀ x ∈ wits, x ∈ k.wits ∨ x ∈ a.rot.adds := by
      unfold rotEvent at hb
      dsimp only at hb
      split at hb
      · cases hb
      split at hb
      · cases hb
      obtain ⟨_, hb⟩ := ite_err hb
      obtain ⟨wits, b1, b2, b3, _⟩ := buildRot_backs hb (by omega) (by split <;> simp)
      exact ⟨wits, b1, b2, b3⟩
    obtain ⟨wits, b1, b2, b3⟩ := hback
    exact own_rot_live hl.sigs (by rw [hpre]; exact hk) (by rw [hpre]; exact sane.pre) (by rw [hpre]; exact hi.owned hp) says.ilk says.sn says.prior
      (by rw [hpre]; exact sane.okPre) (by rw [hpre]; exact sane.trans hne) hne says.size hsat hnext hkok b1 b2
      (fun x hx => (b3 x hx).elim (sane.wits x) (ha x))

/-- C132, interactions: they succeed exactly if the identifier has a key state, was not abandoned and is not confined to establishment events. -/
theorem c132_interact {env : Env} {U : Event → Prop} (hl : Laws env) (hnc : NoColl U) {w0 w : World} {M : List Nat} (h0 : Start env w0) (h : Hist env U w0 M w) (hn : M.Nodup)
    (p : Id) (seals : List Seal) (anchors : Bool) (fit : Fit env U w (.interact p seals anchors)) :
    (∃ e, (exec env w (.interact p seals anchors)).2 = .ok e) ↔ ∃ k, w.node.kevers p = some k ∧ k.ndigs ≠ [] ∧ k.estOnly = false := by
  have hi := (Inv.start (U := U) h0).hist hl hnc h (by simpa using hn)
  have hex : exec env w (.interact p seals anchors) = interact env w p seals anchors := rfl
  have hp := fit.own p rfl
  cases hk : w.node.kevers p with
  | none => rw [hex]; unfold interact; rw [hk]; simp
  | some k =>
  obtain ⟨s, h1, h2, sane, h3, _⟩ := hi.state p hp k hk
  obtain ⟨hnew, hnd⟩ := h3 (by simp)
  have hK := hi.reached.keys hnc p k hk
  have hstored : ∀ x ∈ k.keys, w.ks.pris.at' x ≠ none := fun x hx => hi.ks.whole p 1 x (by simp) (by omega) ⟨s, h1, h2, by rw [← hnew] at hx; exact hx⟩
  cases interact_did (seals := seals) (anchors := anchors) hl hi hp hk with
  | refused x why eq =>
    rw [hex, eq]
    refine ⟨by simp, ?_⟩
    rintro ⟨k', hk', hne, heo⟩
    injection hk' with hk'
    subst hk'
    exfalso
    cases hb : buildIxn env k.pre k.serder.said (k.sn + 1) seals anchors with
    | error x => unfold buildIxn at hb; rw [if_neg (by omega)] at hb; cases hb
    | ok e =>
    obtain ⟨b1, b2, b3, b4, _⟩ := buildIxn_says hb
    have hpre : e.pre = p := b2.trans sane.pre
    exact why e hb hstored (own_ixn_live hl.sigs (by rw [hpre]; exact hk) (by rw [hpre]; exact sane.pre) (by rw [hpre]; exact hi.owned hp) b1 b3 b4
      (by rw [hpre]; exact sane.okPre) (by rw [hpre]; exact sane.trans hne) hne heo hK.size sane.sat (by intro h0; simpa [toadOk, h0] using hK.toad) sane.wits)
  | done e n fn built took node eq =>
    rw [hex, eq]
    refine ⟨fun _ => ⟨k, rfl, ?_⟩, fun _ => ⟨e, rfl⟩⟩
    obtain ⟨b1, b2, b3, b4, _⟩ := buildIxn_says built
    have hpre : e.pre = p := b2.trans sane.pre
    have hok : (w.node.processEvent env.kel e (allSigs env k.keys e) [] none false true).2 = .ok () := by
      by_cases hr : (w.node.processEvent env.kel e (allSigs env k.keys e) [] none false true).2 = .ok ()
      · exact hr
      · exfalso
        rcases own_ixn hl.sigs (n := w.node) (k := k) (e := e) (by rw [hpre]; exact hk) (by rw [hpre]; exact sane.pre) (by rw [hpre]; exact hi.owned hp) b1 b3 sane.sat with
          href | ⟨fn', took'⟩
        · have hss := signEvent_ok hi.ks hstored e
          obtain ⟨x, hx⟩ := publish_refused hss href
          have : interact env w p seals anchors = (w, .error x) := by
            unfold interact; rw [hk]; dsimp only; rw [built]; exact hx
          rw [eq] at this
          simp at this
        · exact hr took'.ok
    unfold Node.processEvent at hok
    rw [if_neg (by rw [hpre, sane.okPre]; simp), hpre, hk] at hok
    dsimp only at hok
    rw [if_neg (by rw [b1]; simp), if_neg (by omega), if_pos (.inl b3)] at hok
    unfold Node.update at hok
    split at hok
    · simp at hok
    rename_i htr
    rw [if_neg (by rw [hpre, sane.pre]; simp)] at hok
    simp only [b1] at hok
    unfold Node.updateIxn at hok
    split at hok
    · simp at hok
    rename_i heo
    refine ⟨?_, by simpa using heo⟩
    intro h0
    simp [Kever.transferable, h0] at htr

/-- C132, new identifiers: making a habitat succeeds exactly if the event was built, the name is free, and the key store has no keys under the new identifier. Digests can be
the prefixes of transferable identifiers. -/
theorem c132_make {env : Env} {U : Event → Prop} (hl : Laws env) (hnc : NoColl U) {w0 w : World} {M : List Nat} (h0 : Start env w0) (h : Hist env U w0 M w)
    (a : MakeArgs) (fit : Fit env U w (.make a)) (hn : (M ++ madeBy env w (.make a)).Nodup) (hM : GoodKeys env (madeBy env w (.make a))) (ha : GoodKeys env a.icp.wits)
    (hsaid : ∀ e, env.kel.okPre (env.said e) = true ∧ env.kel.transferable (env.said e) = true) (e : Event) :
    (exec env w (.make a)).2 = .ok e ↔ eventOf env w (.make a) = some e ∧ a.name ∉ w.names ∧ w.ks.pres e.pre = none := by
  have hi := (Inv.start (U := U) h0).hist hl hnc h (by simpa using (List.nodup_append.1 hn).1)
  have hex : exec env w (.make a) = make env w a := rfl
  cases make_did hl hi fit (by simpa using hn) with
  | noKeys x made none eq => rw [hex, eq, none]; simp
  | unfinished ks' inv frame x why eq =>
    rw [hex, eq]
    refine ⟨by simp, ?_⟩
    rintro ⟨g1, g2, g3⟩
    rcases why e g1 with h | h
    · exact absurd h g2
    · exact absurd g3 h
  | done ks' inv frame pubs nxts keys e' built fresh taken prms sits clear n k1 took node sane hkeys hnd hserder name eq =>
    have ev : eventOf env w (.make a) = some e' := by simp [eventOf, keys, built, Except.toOption]
    rw [hex, eq, ev]
    constructor
    · intro he
      injection he with he
      subst he
      exact ⟨rfl, name, fresh⟩
    · rintro ⟨he, _⟩
      injection he with he
      rw [he]
  | refused ks' inv frame e' ev fresh taken x why eq =>
    exfalso
    refine why ?_
    clear why
    have hmade : madeBy env w (.make a) = Mgr.storedKeys (makeKeys env w a).1 := rfl
    obtain ⟨f1, f2⟩ := fit.fresh a e' rfl ev
    have hc : (makeKeys env w a).2 ≠ .error .code := by
      intro hc
      simp [eventOf, hc] at ev
    rcases makeKeys_cases hi.ks hc (by rw [← hmade]; simpa using hn) with ⟨x, hx⟩ | ⟨pubs, nxts, hok, hst, bg⟩
    · simp [eventOf, hx] at ev
    have hb : icpEvent env ⟨pubs, nxts.map env.mgr.dig⟩ a = .ok e' := by
      simp only [eventOf, hok] at ev
      cases hr : icpEvent env ⟨pubs, nxts.map env.mgr.dig⟩ a with
      | error x => rw [hr] at ev; simp [Except.toOption] at ev
      | ok e' => rw [hr] at ev; simp [Except.toOption] at ev; rw [ev]
    have says := icpEvent_says hb
    have hsat : Thold.satisfy e'.kt (List.range e'.keys.length) = true :=
      all_satisfy says.pos says.size fun cs hcs => ⟨says.wf cs hcs, fit.weights e' cs ev hcs⟩
    have hown : (entered env w.node e'.pre).owned e'.pre = true := by simp [Node.owned, entered, Node.step, f2, mem_ioAdd]
    obtain ⟨m1, m2, m3, m4, m5, m6⟩ := icpEvent_more hsaid hb
    refine own_icp_live hl.sigs f1 hown (by rw [says.ilk, m1]) says.sn m4 m5 says.size hsat ?_ m2 m3 (by rw [m6]; exact ha)
    intro x hx
    rw [says.keys] at hx
    exact hM x (by rw [hmade, hst]; exact List.mem_append_left _ hx)

end Verif.Hab
