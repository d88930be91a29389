import Verif.Hab.InvLemmas

/-!
# Making habitats, and histories
-/

namespace Verif.Hab

open Verif.Kel
open Verif.Thold (Thold Sith)

/-- The node when the identifier `p` is one's own. -/
def entered (env : Env) (n : Node) (p : Id) : Node := n.step env.kel (.config (ioAdd n.prefixes p) n.groups n.mid)

/-- What the making of a habitat did. -/
inductive MakeDone (env : Env) (M X : List Nat) (w : World) (a : MakeArgs) : Prop
  | noKeys (x : Mgr.Err) (made : Mgr.storedKeys (makeKeys env w a).1 = []) (none : eventOf env w (.make a) = .none) (eq : make env w a = (w, .error (.mgr x)))
  | unfinished (ks' : Mgr.Ks) (inv : KsInv env.mgr (M ++ Mgr.storedKeys (makeKeys env w a).1) X ks' w.mem)
      (frame : ∀ q, w.ks.pres q ≠ none → Mgr.Rest w.ks ks' q ∧ ks'.pres q ≠ none) (x : Fail)
      (why : ∀ e, eventOf env w (.make a) = some e → a.name ∈ w.names ∨ w.ks.pres e.pre ≠ none) (eq : make env w a = ({ w with ks := ks' }, .error x))
  | refused (ks' : Mgr.Ks) (inv : KsInv env.mgr (M ++ Mgr.storedKeys (makeKeys env w a).1) X ks' w.mem)
      (frame : ∀ q, w.ks.pres q ≠ none → Mgr.Rest w.ks ks' q ∧ ks'.pres q ≠ none) (e : Event) (ev : eventOf env w (.make a) = some e)
      (fresh : w.ks.pres e.pre = none) (taken : ks'.pres e.pre ≠ none) (x : Fail)
      (why : ((entered env w.node e.pre).processEvent env.kel e (allSigs env e.keys e) [] none false true).2 ≠ .ok ())
      (eq : make env w a = ({ w with ks := ks', node := entered env w.node e.pre, names := w.names ++ [a.name] }, .error x))
  | done (ks' : Mgr.Ks) (inv : KsInv env.mgr (M ++ Mgr.storedKeys (makeKeys env w a).1) X ks' w.mem)
      (frame : ∀ q, w.ks.pres q ≠ none → Mgr.Rest w.ks ks' q ∧ ks'.pres q ≠ none) (pubs nxts : List Nat)
      (keys : (makeKeys env w a).2 = .ok ⟨pubs, nxts.map env.mgr.dig⟩) (e : Event) (built : icpEvent env ⟨pubs, nxts.map env.mgr.dig⟩ a = .ok e)
      (fresh : w.ks.pres e.pre = none) (taken : ks'.pres e.pre ≠ none) (prms : ks'.prms.at' e.pre ≠ none)
      (sits : ks'.sits e.pre = some ⟨.empty, ⟨pubs, 0, 0⟩, ⟨nxts, 1, pubs.length⟩⟩) (clear : ks'.pubs e.pre 2 = none) (n : Node) (k1 : Kever)
      (took : Took (entered env w.node e.pre) e k1 (n, .ok ()))
      (node : n = (entered env w.node e.pre).step env.kel (.event e (allSigs env e.keys e) [] none false true))
      (sane : Sane env e.pre k1) (hkeys : k1.keys = pubs) (hnd : k1.ndigs = nxts.map env.mgr.dig) (hserder : k1.serder = e) (name : a.name ∉ w.names)
      (eq : make env w a = ({ w with ks := ks', node := n, names := w.names ++ [a.name] }, .ok e))

theorem make_did {env : Env} {U : Event → Prop} {M X : List Nat} {w : World} (hl : Laws env) (h : Inv env U M X w) {a : MakeArgs}
    (fit : Fit env U w (.make a)) (hn : (M ++ madeBy env w (.make a)).Nodup) : MakeDone env M X w a := by
  have hmade : madeBy env w (.make a) = Mgr.storedKeys (makeKeys env w a).1 := rfl
  rw [hmade] at hn
  have hc : (makeKeys env w a).2 ≠ .error .code := by
    intro hc
    refine fit.sealed ?_
    show (make env w a).2 = _
    unfold make
    generalize makeKeys env w a = r at hc
    obtain ⟨ws, r⟩ := r
    dsimp only at hc
    subst hc
    rfl
  rcases makeKeys_cases h.ks hc hn with ⟨x, hx⟩ | ⟨pubs, nxts, hok, hst, bg⟩
  · refine .noKeys x (by rw [hx]; rfl) (by simp [eventOf, hx]) ?_
    unfold make
    rw [hx]
    rfl
  have hinv1 := bg.inv
  rw [← hst] at hinv1
  have hold : ∀ q, w.ks.pres q ≠ none → q ≠ pubs.headD 0 := fun q hq he => hq (by rw [he]; exact bg.fresh)
  have hframe1 : ∀ q, w.ks.pres q ≠ none → Mgr.Rest w.ks (w.ks.applyAll (makeKeys env w a).1) q ∧ (w.ks.applyAll (makeKeys env w a).1).pres q ≠ none :=
    fun q hq => ⟨bg.rest q (hold q hq), bg.pres q hq⟩
  have hm : make env w a = match icpEvent env ⟨pubs, nxts.map env.mgr.dig⟩ a with
      | .error x => ({ w with ks := w.ks.applyAll (makeKeys env w a).1 }, .error x)
      | .ok e => match Mgr.move (w.ks.applyAll (makeKeys env w a).1) (pubs.headD 0) e.pre with
        | (wm, .error x) => ({ w with ks := (w.ks.applyAll (makeKeys env w a).1).applyAll wm }, .error (.mgr x))
        | (wm, .ok _) =>
          if a.name ∈ w.names then ({ w with ks := (w.ks.applyAll (makeKeys env w a).1).applyAll wm }, .error .name)
          else publish env { w with ks := (w.ks.applyAll (makeKeys env w a).1).applyAll wm, node := entered env w.node e.pre, names := w.names ++ [a.name] } pubs e := by
    unfold make
    generalize makeKeys env w a = r at hok
    obtain ⟨ws, r⟩ := r
    dsimp only at hok
    subst hok
    rfl
  cases hb : icpEvent env ⟨pubs, nxts.map env.mgr.dig⟩ a with
  | error x => exact .unfinished _ hinv1 hframe1 x (by simp [eventOf, hok, hb, Except.toOption]) (by rw [hm, hb])
  | ok e =>
    rw [hb] at hm
    dsimp only at hm
    have hev : eventOf env w (.make a) = some e := by simp [eventOf, hok, hb, Except.toOption]
    obtain ⟨hfk, hfg⟩ := fit.fresh a e rfl hev
    have hoX : pubs.headD 0 ∉ X := fun hx => (h.own _ (h.lost _ hx)).1 bg.fresh
    rcases move_ok hinv1 hn bg.sits bg.prms hoX (new := e.pre) with ⟨x, hx⟩ | ⟨hmk, hnew, rn⟩
    · refine .unfinished _ hinv1 hframe1 (.mgr x) (fun e' he => ?_) ?_
      · rw [hev] at he
        injection he with he
        subst he
        refine .inr fun h0 => ?_
        have := move_live hinv1.known bg.sits bg.prms (new := e.pre) (by
          by_cases hh : pubs.headD 0 = e.pre
          · exact .inl hh
          · exact .inr (bg.pres' _ (fun h => hh h.symm) h0))
        rw [hx] at this
        cases this
      rw [hm, hx]
      rfl
    generalize hmv : Mgr.move (w.ks.applyAll (makeKeys env w a).1) (pubs.headD 0) e.pre = mv at hm hmk rn
    obtain ⟨wm, r⟩ := mv
    dsimp only at hmk
    subst hmk
    dsimp only at hm rn
    have hfresh : w.ks.pres e.pre = none := by
      rcases hnew with heq | hnone
      · rw [← heq]; exact bg.fresh
      · cases hp : w.ks.pres e.pre with
        | none => rfl
        | some v => exact absurd hnone (bg.pres _ (by rw [hp]; simp))
    have hframe : ∀ q, w.ks.pres q ≠ none → Mgr.Rest w.ks ((w.ks.applyAll (makeKeys env w a).1).applyAll wm) q ∧
        ((w.ks.applyAll (makeKeys env w a).1).applyAll wm).pres q ≠ none := by
      intro q hq
      have r1 := (hframe1 q hq).1
      have r2 := rn.rest q (hold q hq) (fun (he : q = e.pre) => hq (by rw [he]; exact hfresh))
      exact ⟨⟨r2.sits.trans r1.sits, r2.prms.trans r1.prms, r2.pubs.trans r1.pubs⟩, rn.pres q (hframe1 q hq).2⟩
    by_cases hname : a.name ∈ w.names
    · exact .unfinished _ rn.inv hframe .name (fun _ _ => .inl hname) (by rw [hm, if_pos hname])
    rw [if_neg hname] at hm
    have says := icpEvent_says hb
    have hkeys : e.keys = pubs := says.keys
    have hpX : e.pre ∉ X := fun hx => (h.own _ (h.lost _ hx)).1 hfresh
    have hsign := signEvent_ok (w := { w with ks := (w.ks.applyAll (makeKeys env w a).1).applyAll wm, node := entered env w.node e.pre, names := w.names ++ [a.name] })
      rn.inv (keys := pubs) (fun x hx => rn.inv.whole e.pre 1 x hpX (by omega) ⟨_, rn.prms, rn.sits, hx⟩) e
    have hsat : Thold.satisfy e.kt (List.range e.keys.length) = true :=
      all_satisfy says.pos says.size fun cs hcs => ⟨says.wf cs hcs, fit.weights e cs hev hcs⟩
    have hown : (entered env w.node e.pre).owned e.pre = true := by
      simp [Node.owned, entered, Node.step, hfg, mem_ioAdd]
    have hilk : e.ilk = .icp ∨ e.ilk = .dip := by rw [says.ilk]; split <;> simp
    rcases own_icp hl.sigs (n := entered env w.node e.pre) (e := e) hfk hown hilk hsat with href | ⟨k1, took, g1, g2, g3, g4, g5, g6, g7, g8, g9, g10, g11, g12, g13, g14⟩
    · have hno : ((entered env w.node e.pre).processEvent env.kel e (allSigs env e.keys e) [] none false true).2 ≠ .ok () := by
        obtain ⟨x, _, hx⟩ := href
        rw [hx]; simp
      rw [hkeys] at href
      obtain ⟨x, hx⟩ := publish_refused hsign href
      exact .refused _ rn.inv hframe e hev hfresh rn.taken x hno (by rw [hm, hx])
    · have hpub := publish_took hsign (by rw [hkeys] at took; exact took)
      have hclear : ((w.ks.applyAll (makeKeys env w a).1).applyAll wm).pubs e.pre 2 = none := by
        cases hl : ((w.ks.applyAll (makeKeys env w a).1).applyAll wm).pubs e.pre 2 with
        | none => rfl
        | some l => have := rn.pubs 2 l hl; rw [bg.later 2 (by omega)] at this; simp at this
      refine .done _ rn.inv hframe pubs nxts hok e hb hfresh rn.taken rn.prms rn.sits hclear
        ((entered env w.node e.pre).processEvent env.kel e (allSigs env e.keys e) [] none false true).1 k1 ?_ rfl
        ⟨g1, by rw [g2, g3]; exact hsat, by rw [g5]; exact says.nwf, by rw [g4, g5]; exact says.nsize, g12, by rw [g4]; exact g13, by rw [g6]; exact g14⟩ (g2.trans hkeys) (g4.trans says.ndigs) g9 hname
        (by rw [hm, hpub, hkeys])
      have := took.ok
      generalize (entered env w.node e.pre).processEvent env.kel e (allSigs env e.keys e) [] none false true = o at took this
      obtain ⟨n, r⟩ := o
      dsimp only at this
      subst this
      exact took

theorem Inv.make {env : Env} {U : Event → Prop} {M X : List Nat} {w : World} (hl : Laws env) (h : Inv env U M X w) {a : MakeArgs}
    (fit : Fit env U w (.make a)) (hn : (M ++ madeBy env w (.make a)).Nodup) :
    Inv env U (M ++ madeBy env w (.make a)) X (exec env w (.make a)).1 := by
  have hmade : madeBy env w (.make a) = Mgr.storedKeys (makeKeys env w a).1 := rfl
  have hex : exec env w (.make a) = Hab.make env w a := rfl
  have hst : ∀ {ks' : Mgr.Ks} (frame : ∀ q, w.ks.pres q ≠ none → Mgr.Rest w.ks ks' q ∧ ks'.pres q ≠ none), ∀ q ∈ w.node.prefixes, ∀ k, w.node.kevers q = some k →
      ∃ s, ks'.prms.at' q ≠ none ∧ ks'.sits q = some s ∧ Sane env q k ∧ (q ∉ X → Aligned env s k) ∧ (q ∈ X → Astray env s k) := by
    intro ks' frame q hq k hk
    obtain ⟨s, h1, h2, h3⟩ := h.state q hq k hk
    have r := (frame q (h.own q hq).1).1
    exact ⟨s, fun h0 => h1 (r.prms.1 h0), by rw [r.sits]; exact h2, h3⟩
  cases make_did hl h fit hn with
  | noKeys x made none eq => rw [hex, eq, hmade, made, List.append_nil]; exact h
  | unfinished ks' inv frame x why eq =>
    rw [hex, eq, hmade]
    exact ⟨inv, h.reached, fun q hq => ⟨(frame q (h.own q hq).1).2, (h.own q hq).2⟩, h.lost, hst frame⟩
  | refused ks' inv frame e ev fresh taken x why eq =>
    rw [hex, eq, hmade]
    obtain ⟨f1, f2⟩ := fit.fresh a e rfl ev
    have hmem : ∀ q, q ∈ ioAdd w.node.prefixes e.pre → q ∈ w.node.prefixes ∨ q = e.pre := fun q hq => by simpa [mem_ioAdd] using hq
    refine ⟨inv, ?_, fun q hq => ?_, fun q hq => ?_, fun q hq k hk => ?_⟩
    · exact h.reached.run (h' := [.config (ioAdd w.node.prefixes e.pre) w.node.groups w.node.mid]) (by
        intro i hi x hx
        simp only [List.mem_singleton] at hi
        subst hi
        simp [Inp.delivers] at hx)
    · rcases hmem q hq with hq | rfl
      · exact ⟨(frame q (h.own q hq).1).2, (h.own q hq).2⟩
      · exact ⟨taken, f2⟩
    · show q ∈ ioAdd w.node.prefixes e.pre
      rw [mem_ioAdd]; exact .inl (h.lost q hq)
    · rcases hmem q hq with hq | rfl
      · exact hst frame q hq k hk
      · have hk : w.node.kevers e.pre = some k := hk
        rw [f1] at hk; simp at hk
  | done ks' inv frame pubs nxts keys e built fresh taken prms sits clear n k1 took node sane hkeys hnd hserder name eq =>
    rw [hex, eq, hmade]
    have ev : eventOf env w (.make a) = some e := by simp [eventOf, keys, built, Except.toOption]
    obtain ⟨f1, f2⟩ := fit.fresh a e rfl ev
    have hpx : n.prefixes = ioAdd w.node.prefixes e.pre := took.prefixes
    have hgx : n.groups = w.node.groups := took.groups
    have hkv : n.kevers = upd w.node.kevers e.pre (some k1) := took.kevers
    have hmem : ∀ q, q ∈ n.prefixes → q ∈ w.node.prefixes ∨ q = e.pre := fun q hq => by rw [hpx] at hq; simpa [mem_ioAdd] using hq
    refine ⟨inv, ?_, fun q hq => ?_, fun q hq => ?_, fun q hq k hk => ?_⟩
    · rw [node]
      exact h.reached.run (h' := [.config (ioAdd w.node.prefixes e.pre) w.node.groups w.node.mid, .event e (allSigs env e.keys e) [] none false true]) (by
        intro i hi x hx
        simp only [List.mem_cons, List.not_mem_nil, or_false] at hi
        rcases hi with rfl | rfl
        · simp [Inp.delivers] at hx
        · simp only [Inp.delivers, Option.some.injEq] at hx
          subst hx
          exact fit.known _ ev)
    · show _ ∧ q ∉ n.groups
      rw [hgx]
      rcases hmem q hq with hq | rfl
      · exact ⟨(frame q (h.own q hq).1).2, (h.own q hq).2⟩
      · exact ⟨taken, f2⟩
    · show q ∈ n.prefixes
      rw [hpx, mem_ioAdd]; exact .inl (h.lost q hq)
    · have hk : n.kevers q = some k := hk
      rw [hkv] at hk
      by_cases hqe : q = e.pre
      · subst hqe
        simp only [upd, if_true, Option.some.injEq] at hk
        subst hk
        refine ⟨_, prms, sits, sane, fun _ => ⟨hkeys.symm, hnd⟩, fun hx => absurd fresh (h.own _ (h.lost _ hx)).1⟩
      · rw [upd, if_neg hqe] at hk
        exact hst frame q ((hmem q hq).resolve_right hqe) k hk

/-- The key states are read back from the database as they were. -/
theorem restart_eq {env : Kel.Env} {U : Event → Prop} (hnc : NoColl U) {n : Node} (h : Reached env U n) : n.restart = n := by
  unfold Node.restart
  rw [(h.inv hnc).states]

/-- Any history keeps the invariant. -/
theorem Inv.hist {env : Env} {U : Event → Prop} {M0 M X : List Nat} {w0 w : World} (hl : Laws env) (hnc : NoColl U) (h0 : Inv env U M0 X w0) (h : Hist env U w0 M w)
    (hn : (M0 ++ M).Nodup) : Inv env U (M0 ++ M) X w := by
  induction h with
  | nil => rw [List.append_nil]; exact h0
  | call c h fit ih =>
    rw [← List.append_assoc] at hn ⊢
    have ih := ih (List.nodup_append.1 hn).1
    cases c with
    | make a => exact ih.make hl fit hn
    | rotate p a => exact ih.rotate hl fit hn
    | interact p s an => rw [show madeBy env _ (.interact p s an) = [] from rfl, List.append_nil]; exact ih.interact hl fit
  | other is h known hp hg ho ih =>
    have ih := ih hn
    refine ⟨ih.ks, ih.reached.run known, fun q hq => ?_, fun q hq => ?_, fun q hq k hk => ?_⟩
    · have hq : q ∈ _ := hp ▸ hq
      exact ⟨(ih.own q hq).1, fun hc => (ih.own q hq).2 (hg ▸ hc)⟩
    · exact hp.symm ▸ ih.lost q hq
    · have hq : q ∈ _ := hp ▸ hq
      exact ih.state q hq k ((ho q hq).symm.trans hk)
  | restart h ih =>
    have ih := ih hn
    rw [restart_eq hnc ih.reached]
    exact ih

theorem Inv.start {env : Env} {U : Event → Prop} {w : World} (h : Start env w) : Inv env U [] [] w := by
  obtain ⟨⟨gs, mid, hnode⟩, seed, aeid, pidx, algo, salt, tier, hae, hopen⟩ := h
  have h2 : some Mgr.Res.done = some (Mgr.exec env.mgr .start (.openM seed aeid pidx algo salt tier)).2.2 := by
    have : (Mgr.Node.step env.mgr .start (.call (.openM seed aeid pidx algo salt tier))).2 = some .done := by rw [hopen]
    rw [← this]; rfl
  injection h2 with h2
  have hs : (Mgr.Inp.call (.openM seed aeid pidx algo salt tier)).safe env.mgr .start :=
    ⟨.inr ⟨hae, fun _ => ⟨fun _ => rfl, fun _ => rfl⟩⟩, by show (Mgr.exec env.mgr .start (.openM seed aeid pidx algo salt tier)).2.2 ≠ _; rw [← h2]; simp,
      by simp [Mgr.Inp.of]⟩
  have hks : (Mgr.Node.step env.mgr .start (.call (.openM seed aeid pidx algo salt tier))).1 = ⟨w.ks, some w.mem⟩ := by rw [hopen]
  have hks' : w.ks = Mgr.Ks.empty.applyAll (Mgr.openMgr env.mgr .empty seed aeid pidx algo salt tier).1 := by
    have := congrArg Mgr.Node.ks hks
    exact this.symm
  have hwr : ∀ x ∈ (Mgr.openMgr env.mgr .empty seed aeid pidx algo salt tier).1, x.reforms .empty := fun x hx => Mgr.openMgr_reforms (env := env.mgr) Mgr.Kept.start hx
  have hst : Mgr.storedKeys (Mgr.openMgr env.mgr .empty seed aeid pidx algo salt tier).1 = [] := by
    rw [List.eq_nil_iff_forall_not_mem]
    intro k hk
    obtain ⟨v, hv⟩ := Mgr.mem_storedKeys.1 hk
    exact absurd (hwr _ hv) (by simp [Mgr.Wr.reforms])
  have hS := (Mgr.Sound.start env.mgr).step hs (by
    show ([] ++ Mgr.storedKeys (Mgr.openMgr env.mgr .empty seed aeid pidx algo salt tier).1).Nodup
    rw [hst]; simp)
  have hr := fun p => Mgr.Rest.reforms hwr p
  rw [← hks'] at hr
  have hno : ∀ p, w.ks.sits p = none := fun p => by rw [(hr p).sits]; rfl
  refine ⟨⟨?_, ?_, ?_, ?_, ?_, by simp, ?_, ?_⟩, ⟨[], gs, mid, [], by simp [Delivers], by rw [hnode]; rfl⟩, ?_, by simp, ?_⟩
  · have := hS.kept; rw [hks] at this; exact this
  · have := hS.enc; rw [hks] at this; exact this
  · have := hS.known; rw [hks] at this; exact this
  · have := hS.algos; rw [hks] at this; exact this
  · refine ⟨?_, ?_⟩
    · rintro p i k ⟨s, _, h, _⟩; rw [hno] at h; simp at h
    · rintro p i q j k ⟨s, _, h, _⟩; rw [hno] at h; simp at h
  · rintro p i k _ _ ⟨s, _, h, _⟩; rw [hno] at h; simp at h
  · intro p s _ h; rw [hno] at h; simp at h
  · rw [hnode]; simp [Node.start]
  · rw [hnode]; simp [Node.start]

end Verif.Hab
