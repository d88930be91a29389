import Verif.Hab.BuildLemmas

/-!
# What holds of a host along its histories
-/

namespace Verif.Hab

open Verif.Kel
open Verif.Thold (Thold Sith)

/-- Key states of own identifiers. -/
structure Sane (env : Env) (p : Id) (k : Kever) : Prop where
  pre : k.pre = p
  sat : Thold.satisfy k.kt (List.range k.keys.length) = true
  nwf : ∀ cs, k.nt = .wtd cs → Verif.Thold.WellFormed cs
  nsize : Thold.size k.nt ≤ k.ndigs.length
  okPre : env.kel.okPre p = true
  trans : k.ndigs ≠ [] → env.kel.transferable p = true
  wits : ∀ w ∈ k.wits, env.kel.okKey w = true

/-- Key store and key state agree. -/
def Aligned (env : Env) (s : Mgr.Sit) (k : Kever) : Prop := s.new.pubs = k.keys ∧ k.ndigs = s.nxt.pubs.map env.mgr.dig

/-- The next keys of the key store open none of the digests of the key state. -/
def Astray (env : Env) (s : Mgr.Sit) (k : Kever) : Prop := ∀ x ∈ s.nxt.pubs, ∀ d ∈ k.ndigs, env.kel.commits x d = false

/-- `M` are the keys made so far, `X` the identifiers whose key store is ahead of the log. -/
structure Inv (env : Env) (U : Event → Prop) (M X : List Nat) (w : World) : Prop where
  ks : KsInv env.mgr M X w.ks w.mem
  reached : Reached env.kel U w.node
  own : ∀ p ∈ w.node.prefixes, w.ks.pres p ≠ none ∧ p ∉ w.node.groups
  lost : ∀ p ∈ X, p ∈ w.node.prefixes
  state : ∀ p ∈ w.node.prefixes, ∀ k, w.node.kevers p = some k →
    ∃ s, w.ks.prms.at' p ≠ none ∧ w.ks.sits p = some s ∧ Sane env p k ∧ (p ∉ X → Aligned env s k) ∧ (p ∈ X → Astray env s k)

theorem Laws.sigs {env : Env} (hl : Laws env) : SigLaw env := hl.verify

theorem signEvent_ok {env : Env} {M X : List Nat} {w : World} (h : KsInv env.mgr M X w.ks w.mem) {keys : List Id} (hk : ∀ x ∈ keys, w.ks.pris.at' x ≠ none) (e : Event) :
    signEvent env w keys e = .ok (allSigs env keys e) := by
  unfold signEvent
  rw [Mgr.sign_stored (n := ⟨w.ks, some w.mem⟩) h.kept h.enc rfl hk]
  simp only [allSigs, Except.ok.injEq, sigOf]
  apply List.ext_getElem?
  intro i
  simp only [List.getElem?_map, List.getElem?_mapIdx]
  cases keys[i]? <;> rfl

theorem Inv.owned {env : Env} {U : Event → Prop} {M X : List Nat} {w : World} (h : Inv env U M X w) {p : Id} (hp : p ∈ w.node.prefixes) : w.node.owned p = true := by
  simp [Node.owned, hp, (h.own p hp).2]

/-- Publishing an event the node refuses or takes. -/
theorem publish_refused {env : Env} {w : World} {keys : List Id} {e : Event} (hs : signEvent env w keys e = .ok (allSigs env keys e))
    (h : Refused w.node (w.node.processEvent env.kel e (allSigs env keys e) [] none false true)) : ∃ x, publish env w keys e = (w, .error x) := by
  obtain ⟨x, hx, ho⟩ := h
  refine ⟨.event x, ?_⟩
  unfold publish
  rw [hs]
  show process env w e _ = _
  unfold process
  rw [ho]
  simp [hx]

theorem publish_took {env : Env} {w : World} {keys : List Id} {e : Event} {k1 : Kever} (hs : signEvent env w keys e = .ok (allSigs env keys e))
    (h : Took w.node e k1 (w.node.processEvent env.kel e (allSigs env keys e) [] none false true)) :
    publish env w keys e = ({ w with node := (w.node.processEvent env.kel e (allSigs env keys e) [] none false true).1 }, .ok e) := by
  unfold publish
  rw [hs]
  show process env w e _ = _
  unfold process
  have := h.ok
  generalize w.node.processEvent env.kel e (allSigs env keys e) [] none false true = o at this
  obtain ⟨n, r⟩ := o
  dsimp only at this
  subst this
  rfl

/-- What a rotation did. -/
inductive RotDone (env : Env) (w : World) (p : Id) (k : Kever) (a : RotateArgs) (X : List Nat) : Prop
  | noKeys (x : Mgr.Err) (made : Mgr.storedKeys (advance env w p (a.ncount.getD k.ndigs.length) a).1 = []) (none : eventOf env w (.rotate p a) = .none) (eq : rotate env w p a = (w, .error (.mgr x)))
  | refused (ps : Mgr.Sit) (L : List Nat) (adv : Advanced env w p (a.ncount.getD k.ndigs.length) a ps L) (x : Fail)
      (why : ∀ e, rotEvent env k ⟨ps.nxt.pubs, L.map env.mgr.dig⟩ a = .ok e → (w.node.processEvent env.kel e (allSigs env e.keys e) [] none false true).2 ≠ .ok ())
      (eq : rotate env w p a = ({ w with ks := (turned env w p (a.ncount.getD k.ndigs.length) a ps false).apply (.sits p ps) }, .error x))
  | done (ps : Mgr.Sit) (L : List Nat) (adv : Advanced env w p (a.ncount.getD k.ndigs.length) a ps L) (e : Event) (n : Node) (fn : Nat) (wits cuts adds : List Id)
      (mine : p ∉ X) (built : rotEvent env k ⟨ps.nxt.pubs, L.map env.mgr.dig⟩ a = .ok e) (took : Took w.node e (k.rotated e fn wits cuts adds) (n, .ok ()))
      (node : n = w.node.step env.kel (.event e (allSigs env e.keys e) [] none false true))
      (okPre : env.kel.okPre p = true) (trans : env.kel.transferable p = true) (wok : ∀ x ∈ wits, env.kel.okKey x = true)
      (sat : Thold.satisfy e.kt (List.range e.keys.length) = true)
      (eq : rotate env w p a = ({ w with ks := turned env w p (a.ncount.getD k.ndigs.length) a ps true, node := n }, .ok e))

theorem rotate_did {env : Env} {U : Event → Prop} {M X : List Nat} {w : World} (hl : Laws env) (h : Inv env U M X w) {p : Id} {k : Kever} {a : RotateArgs}
    (hp : p ∈ w.node.prefixes) (hk : w.node.kevers p = some k) (fit : Fit env U w (.rotate p a)) (hn : (M ++ madeBy env w (.rotate p a)).Nodup) :
    RotDone env w p k a X := by
  have hex : exec env w (.rotate p a) = rotate env w p a := rfl
  have hc : (advance env w p (a.ncount.getD k.ndigs.length) a).2 ≠ .error .code := by
    intro hc
    refine fit.sealed ?_
    rw [hex]
    unfold rotate
    rw [hk]
    dsimp only
    generalize advance env w p (a.ncount.getD k.ndigs.length) a = r at hc
    obtain ⟨ws, r⟩ := r
    dsimp only at hc
    subst hc
    rfl
  have hmade : madeBy env w (.rotate p a) = Mgr.storedKeys (advance env w p (a.ncount.getD k.ndigs.length) a).1 := by simp [madeBy, hk]
  rw [hmade] at hn
  rcases advance_cases h.ks hc with ⟨x, hx⟩ | ⟨ps, L, adv⟩
  · refine .noKeys x (by rw [hx]; rfl) (by simp [eventOf, hk, hx]) ?_
    unfold rotate
    rw [hk]
    dsimp only
    rw [hx]
    rfl
  have hev : eventOf env w (.rotate p a) = (rotEvent env k ⟨ps.nxt.pubs, L.map env.mgr.dig⟩ a).toOption := by simp [eventOf, hk, adv.ok]
  have hrot : rotate env w p a = match baseRotate env { w with ks := turned env w p (a.ncount.getD k.ndigs.length) a ps false } k ⟨ps.nxt.pubs, L.map env.mgr.dig⟩ a with
      | (w1, .error x) => (putBack w.ks p w1, .error x)
      | (w1, .ok e) => ({ w1 with ks := w1.ks.applyAll (ps.old.pubs.map .prisRem) }, .ok e) := by
    unfold rotate
    rw [hk]
    dsimp only
    have h1 := adv.ok
    unfold turned oldKeys
    rw [adv.sits]
    generalize advance env w p (a.ncount.getD k.ndigs.length) a = r at h1
    obtain ⟨ws, r⟩ := r
    dsimp only at h1
    subst h1
    simp only [Bool.false_eq_true, if_false, List.append_nil]
    rfl
  have hback : ∀ x, baseRotate env { w with ks := turned env w p (a.ncount.getD k.ndigs.length) a ps false } k ⟨ps.nxt.pubs, L.map env.mgr.dig⟩ a =
      ({ w with ks := turned env w p (a.ncount.getD k.ndigs.length) a ps false }, .error x) →
      (∀ e, rotEvent env k ⟨ps.nxt.pubs, L.map env.mgr.dig⟩ a = .ok e → (w.node.processEvent env.kel e (allSigs env e.keys e) [] none false true).2 ≠ .ok ()) →
      RotDone env w p k a X := by
    intro x hx why
    refine .refused ps L adv x why ?_
    rw [hrot, hx]
    dsimp only
    unfold putBack
    rw [adv.sits]
  obtain ⟨s, h1, h2, sane, h3, h4⟩ := h.state p hp k hk
  have : s = ps := by rw [adv.sits] at h2; injection h2 with h2; exact h2.symm
  subst this
  cases hb : rotEvent env k ⟨s.nxt.pubs, L.map env.mgr.dig⟩ a with
  | error x =>
    refine hback x ?_ (fun e he => by rw [hb] at he; cases he)
    unfold baseRotate
    rw [hb]
  | ok e =>
    obtain ⟨says, hrev⟩ := rotEvent_says hb
    by_cases hX : p ∈ X
    · rw [revealed_none (h4 hX), satisfy_nil] at hrev; simp at hrev
    obtain ⟨hnew, hnd⟩ := h3 hX
    obtain ⟨tr, ki⟩ := adv.turn h.ks false hn
    have hkeys : e.keys = s.nxt.pubs := says.keys
    have hsign := signEvent_ok (w := { w with ks := turned env w p (a.ncount.getD k.ndigs.length) a s false }) ki (keys := s.nxt.pubs)
      (fun x hx => tr.kept x (by simp) (adv.read x hx)) e
    have hsat : Thold.satisfy e.kt (List.range e.keys.length) = true :=
      all_satisfy says.pos says.size fun cs hcs => ⟨says.wf cs hcs, fit.weights e cs (by rw [hev, hb]; rfl) hcs⟩
    have hpre : e.pre = p := says.pre.trans sane.pre
    have hnext : Thold.satisfy k.nt (exposeds env.kel k.ndigs e.keys (allSigs env e.keys e)) = true := by
      rw [allSigs_exposed (by rw [hnd, hkeys]; simp), hnd, List.length_map]
      · rw [hnd, revealed_all hl] at hrev
        exact hrev
      · intro i x d hx hd
        rw [hkeys] at hx
        rw [hnd, List.getElem?_map, hx] at hd
        simp only [Option.map_some, Option.some.injEq] at hd
        rw [← hd]; exact hl.opens x
    have hilk : e.ilk = .rot ∨ e.ilk = .drt := by rw [says.ilk]; split <;> simp
    have hbase : baseRotate env { w with ks := turned env w p (a.ncount.getD k.ndigs.length) a s false } k ⟨s.nxt.pubs, L.map env.mgr.dig⟩ a =
        publish env { w with ks := turned env w p (a.ncount.getD k.ndigs.length) a s false } s.nxt.pubs e := by
      unfold baseRotate
      rw [hb]
    rcases own_rot hl.sigs (n := w.node) (k := k) (e := e) (by rw [hpre]; exact hk) (by rw [hpre]; exact sane.pre) (by rw [hpre]; exact h.owned hp) hilk says.sn
      hsat hnext with href | ⟨fn, wits, cuts, adds, took, g1, g2, g3⟩
    · have hno : (w.node.processEvent env.kel e (allSigs env e.keys e) [] none false true).2 ≠ .ok () := by
        obtain ⟨x, _, hx⟩ := href
        rw [hx]; simp
      rw [hkeys] at href
      obtain ⟨x, hx⟩ := publish_refused hsign href
      exact hback x (by rw [hbase, hx]) (fun e' he => by rw [hb] at he; injection he with he; subst he; exact hno)
    · have hpub := publish_took hsign (by rw [hkeys] at took; exact took)
      refine .done s L adv e (w.node.processEvent env.kel e (allSigs env e.keys e) [] none false true).1 fn wits cuts adds hX hb ?_ rfl (by rw [← hpre]; exact g1)
        (by rw [← hpre]; exact g2) g3 hsat ?_
      · have := took.ok
        generalize w.node.processEvent env.kel e (allSigs env e.keys e) [] none false true = o at took this
        obtain ⟨n, r⟩ := o
        dsimp only at this
        subst this
        exact took
      · rw [hrot, hbase, hpub, hkeys]
        unfold turned
        simp [Mgr.applyAll_append]

theorem Inv.rotate {env : Env} {U : Event → Prop} {M X : List Nat} {w : World} (hl : Laws env) (h : Inv env U M X w) {p : Id} {a : RotateArgs}
    (fit : Fit env U w (.rotate p a)) (hn : (M ++ madeBy env w (.rotate p a)).Nodup) :
    Inv env U (M ++ madeBy env w (.rotate p a)) X (exec env w (.rotate p a)).1 := by
  have hp := fit.own p rfl
  cases hk : w.node.kevers p with
  | none =>
    have h1 : madeBy env w (.rotate p a) = [] := by simp [madeBy, hk]
    have h2 : (exec env w (.rotate p a)).1 = w := by show (Hab.rotate env w p a).1 = w; unfold Hab.rotate; rw [hk]
    rw [h1, h2, List.append_nil]; exact h
  | some k =>
  have hmade : madeBy env w (.rotate p a) = Mgr.storedKeys (advance env w p (a.ncount.getD k.ndigs.length) a).1 := by simp [madeBy, hk]
  have hdid := rotate_did hl h hp hk fit hn
  have hex : exec env w (.rotate p a) = Hab.rotate env w p a := rfl
  cases hdid with
  | noKeys x made none eq => rw [hex, eq, hmade, made, List.append_nil]; exact h
  | refused ps L adv x why eq =>
    rw [hex, eq, hmade]
    rw [hmade] at hn
    obtain ⟨b, ki⟩ := adv.back h.ks hn
    refine ⟨ki, h.reached, fun q hq => ⟨by rw [b.pres]; exact (h.own q hq).1, (h.own q hq).2⟩, h.lost, fun q hq k' hk' => ?_⟩
    obtain ⟨s, h1, h2, h3⟩ := h.state q hq k' hk'
    exact ⟨s, by rw [b.prms]; exact h1, by rw [b.sits]; exact h2, h3⟩
  | done ps L adv e n fn wits cuts adds mine built took node g1 g2 g3 sat eq =>
    rw [hex, eq, hmade]
    rw [hmade] at hn
    obtain ⟨t, ki⟩ := adv.turn h.ks true hn
    obtain ⟨says, _⟩ := rotEvent_says built
    obtain ⟨s, h1, h2, sane, h3, h4⟩ := h.state p hp k hk
    have hpre : e.pre = p := says.pre.trans sane.pre
    have hev : eventOf env w (.rotate p a) = some e := by simp [eventOf, hk, adv.ok, built, Except.toOption]
    have hpx : n.prefixes = w.node.prefixes := took.prefixes
    have hgx : n.groups = w.node.groups := took.groups
    have hkv : n.kevers = upd w.node.kevers p (some (k.rotated e fn wits cuts adds)) := by rw [← hpre]; exact took.kevers
    refine ⟨ki, ?_, ?_, ?_, ?_⟩
    · rw [node]
      have := h.reached.run (h' := [.event e (allSigs env e.keys e) [] none false true]) (by
        intro i hi x hx
        simp only [List.mem_singleton] at hi
        subst hi
        simp only [Inp.delivers, Option.some.injEq] at hx
        subst hx
        exact fit.known _ hev)
      exact this
    · intro q hq
      rw [hpx] at hq
      show _ ∧ q ∉ n.groups
      rw [t.pres, hgx]
      exact h.own q hq
    · intro q hq; show q ∈ n.prefixes; rw [hpx]; exact h.lost q hq
    · intro q hq k' hk'
      have hq : q ∈ w.node.prefixes := by rw [← hpx]; exact hq
      have hk' : n.kevers q = some k' := hk'
      rw [hkv] at hk'
      by_cases hqp : q = p
      · subst hqp
        simp only [upd, if_true, Option.some.injEq] at hk'
        subst hk'
        obtain ⟨kx, hkx⟩ := t.sits
        refine ⟨_, by rw [t.prms]; exact h1, hkx, ⟨sane.pre, sat, says.nwf, says.nsize, g1, fun _ => g2, g3⟩, fun _ => ⟨says.keys.symm, says.ndigs⟩, fun hx => absurd hx mine⟩
      · rw [upd, if_neg hqp] at hk'
        obtain ⟨s', h1', h2', h3'⟩ := h.state q hq k' hk'
        exact ⟨s', by rw [t.prms]; exact h1', by rw [(t.rest q hqp).sits]; exact h2', h3'⟩

/-- What an interaction did. -/
inductive IxnDone (env : Env) (w : World) (p : Id) (k : Kever) (seals : List Seal) (anchors : Bool) : Prop
  | refused (x : Fail) (why : ∀ e, buildIxn env k.pre k.serder.said (k.sn + 1) seals anchors = .ok e → (∀ x ∈ k.keys, w.ks.pris.at' x ≠ none) →
        (w.node.processEvent env.kel e (allSigs env k.keys e) [] none false true).2 ≠ .ok ())
      (eq : interact env w p seals anchors = (w, .error x))
  | done (e : Event) (n : Node) (fn : Nat) (built : buildIxn env k.pre k.serder.said (k.sn + 1) seals anchors = .ok e)
      (took : Took w.node e (k.interacted e fn) (n, .ok ())) (node : n = w.node.step env.kel (.event e (allSigs env k.keys e) [] none false true))
      (eq : interact env w p seals anchors = ({ w with node := n }, .ok e))

theorem interact_did {env : Env} {U : Event → Prop} {M X : List Nat} {w : World} (hl : Laws env) (h : Inv env U M X w) {p : Id} {k : Kever} {seals : List Seal}
    {anchors : Bool} (hp : p ∈ w.node.prefixes) (hk : w.node.kevers p = some k) : IxnDone env w p k seals anchors := by
  have hint : interact env w p seals anchors = match buildIxn env k.pre k.serder.said (k.sn + 1) seals anchors with
      | .error x => (w, .error x)
      | .ok e => publish env w k.keys e := by
    unfold interact; rw [hk]; rfl
  cases hb : buildIxn env k.pre k.serder.said (k.sn + 1) seals anchors with
  | error x => exact .refused x (fun e he => by rw [hb] at he; cases he) (by rw [hint, hb])
  | ok e =>
    rw [hb] at hint
    dsimp only at hint
    obtain ⟨s, h1, h2, sane, h3, h4⟩ := h.state p hp k hk
    obtain ⟨b1, b2, b3, b4, _⟩ := buildIxn_says hb
    have hpre : e.pre = p := b2.trans sane.pre
    cases hs : signEvent env w k.keys e with
    | error x =>
      refine .refused x (fun e' he hst => ?_) ?_
      · rw [signEvent_ok h.ks hst] at hs; cases hs
      rw [hint]
      unfold publish
      rw [hs]
    | ok ss =>
      have hstored : ∀ x ∈ k.keys, w.ks.pris.at' x ≠ none := by
        unfold signEvent at hs
        split at hs
        · cases hs
        rename_i l hl'
        unfold Mgr.sign at hl'
        split at hl'
        · cases hl'
        rename_i v hv
        exact (Mgr.readPris_ok h.ks.kept hv).2
      have hss := signEvent_ok h.ks hstored e
      rcases own_ixn hl.sigs (n := w.node) (k := k) (e := e) (by rw [hpre]; exact hk) (by rw [hpre]; exact sane.pre) (by rw [hpre]; exact h.owned hp) b1 b3 sane.sat with
        href | ⟨fn, took⟩
      · have hno : (w.node.processEvent env.kel e (allSigs env k.keys e) [] none false true).2 ≠ .ok () := by
          obtain ⟨x, _, hx⟩ := href
          rw [hx]; simp
        obtain ⟨x, hx⟩ := publish_refused hss href
        exact .refused x (fun e' he _ => by rw [hb] at he; injection he with he; subst he; exact hno) (by rw [hint, hx])
      · have hpub := publish_took hss took
        refine .done e (w.node.processEvent env.kel e (allSigs env k.keys e) [] none false true).1 fn hb ?_ rfl (by rw [hint, hpub])
        have := took.ok
        generalize w.node.processEvent env.kel e (allSigs env k.keys e) [] none false true = o at took this
        obtain ⟨n, r⟩ := o
        dsimp only at this
        subst this
        exact took

theorem Inv.interact {env : Env} {U : Event → Prop} {M X : List Nat} {w : World} (hl : Laws env) (h : Inv env U M X w) {p : Id} {seals : List Seal} {anchors : Bool}
    (fit : Fit env U w (.interact p seals anchors)) : Inv env U M X (exec env w (.interact p seals anchors)).1 := by
  have hp := fit.own p rfl
  have hex : exec env w (.interact p seals anchors) = Hab.interact env w p seals anchors := rfl
  cases hk : w.node.kevers p with
  | none =>
    have h2 : (exec env w (.interact p seals anchors)).1 = w := by rw [hex]; unfold Hab.interact; rw [hk]
    rw [h2]; exact h
  | some k =>
  cases interact_did (seals := seals) (anchors := anchors) hl h hp hk with
  | refused x why eq => rw [hex, eq]; exact h
  | done e n fn built took node eq =>
    rw [hex, eq]
    obtain ⟨s, h1, h2, sane, h3, h4⟩ := h.state p hp k hk
    obtain ⟨b1, b2, b3, b4, _⟩ := buildIxn_says built
    have hpre : e.pre = p := b2.trans sane.pre
    have hev : eventOf env w (.interact p seals anchors) = some e := by simp [eventOf, hk, built, Except.toOption]
    have hpx : n.prefixes = w.node.prefixes := took.prefixes
    have hgx : n.groups = w.node.groups := took.groups
    have hkv : n.kevers = upd w.node.kevers p (some (k.interacted e fn)) := by rw [← hpre]; exact took.kevers
    refine ⟨h.ks, ?_, ?_, ?_, ?_⟩
    · rw [node]
      have := h.reached.run (h' := [.event e (allSigs env k.keys e) [] none false true]) (by
        intro i hi x hx
        simp only [List.mem_singleton] at hi
        subst hi
        simp only [Inp.delivers, Option.some.injEq] at hx
        subst hx
        exact fit.known _ hev)
      exact this
    · intro q hq
      rw [hpx] at hq
      show _ ∧ q ∉ n.groups
      rw [hgx]
      exact h.own q hq
    · intro q hq; show q ∈ n.prefixes; rw [hpx]; exact h.lost q hq
    · intro q hq k' hk'
      have hq : q ∈ w.node.prefixes := by rw [← hpx]; exact hq
      have hk' : n.kevers q = some k' := hk'
      rw [hkv] at hk'
      by_cases hqp : q = p
      · subst hqp
        simp only [upd, if_true, Option.some.injEq] at hk'
        subst hk'
        exact ⟨s, h1, h2, ⟨sane.pre, sane.sat, sane.nwf, sane.nsize, sane.okPre, sane.trans, sane.wits⟩, h3, h4⟩
      · rw [upd, if_neg hqp] at hk'
        exact h.state q hq k' hk'

end Verif.Hab
