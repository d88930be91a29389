import Verif.Replay.Lemmas

/-! # Replay by induction over the history of the source -/

namespace Verif.Replay

open Verif.Kel
open Verif.Thold (Thold)

/-- Messages for the log of `p` at `n`: the logged events in order, with at least the stored signatures and with enough
witness signatures. -/
structure Supply (env : Env) (n : Node) (p : Id) (ms : List Msg) : Prop where
  digs : ms.map (fun x => x.e.said) = n.db.fels p
  evts : ∀ x, x ∈ ms → n.db.evts p x.e.said = some x.e
  sigs : ∀ x, x ∈ ms → ∀ s, s ∈ n.db.sigs p x.e.said → s ∈ x.sigs
  wigs : ∀ x, x ∈ ms → ∀ a, Authority n.db p x.e a → ∀ vs, Good env (n.db.wits p a.said) x.e x.wigs vs → a.toad ≤ vs.length

/-- `Agree`, and nothing else is stored about the identifier. -/
structure AgreeS (m n : Node) (p : Id) : Prop where
  agree : Agree m n p
  sub : ∀ d x, m.db.evts p d = some x → n.db.evts p d = some x

/-- Identifiers other than `p` are untouched, and so is the configuration. -/
structure Others (m m' : Node) (p : Id) : Prop where
  kevers : ∀ q, q ≠ p → m'.kevers q = m.kevers q
  states : ∀ q, q ≠ p → m'.db.states q = m.db.states q
  kels : ∀ q, q ≠ p → m'.db.kels q = m.db.kels q
  fels : ∀ q, q ≠ p → m'.db.fels q = m.db.fels q
  fons : ∀ q, q ≠ p → m'.db.fons q = m.db.fons q
  evts : ∀ q, q ≠ p → m'.db.evts q = m.db.evts q
  wits : ∀ q, q ≠ p → m'.db.wits q = m.db.wits q
  prefixes : m'.prefixes = m.prefixes
  groups : m'.groups = m.groups
  ok : EvtOk m.db → EvtOk m'.db

theorem Others.rfl' (m : Node) (p : Id) : Others m m p :=
  ⟨fun _ _ => rfl, fun _ _ => rfl, fun _ _ => rfl, fun _ _ => rfl, fun _ _ => rfl, fun _ _ => rfl, fun _ _ => rfl, rfl, rfl, id⟩

theorem Others.trans {a b c : Node} {p : Id} (h : Others a b p) (g : Others b c p) : Others a c p :=
  ⟨fun q hq => (g.kevers q hq).trans (h.kevers q hq), fun q hq => (g.states q hq).trans (h.states q hq),
   fun q hq => (g.kels q hq).trans (h.kels q hq), fun q hq => (g.fels q hq).trans (h.fels q hq),
   fun q hq => (g.fons q hq).trans (h.fons q hq), fun q hq => (g.evts q hq).trans (h.evts q hq),
   fun q hq => (g.wits q hq).trans (h.wits q hq), g.prefixes.trans h.prefixes, g.groups.trans h.groups,
   fun h' => g.ok (h.ok h')⟩

theorem evtOk_only {a b : Db} {e : Event} (h : EvtOk a)
    (only : ∀ p d x, b.evts p d = some x → a.evts p d = some x ∨ (p = e.pre ∧ d = e.said ∧ x = e)) : EvtOk b := by
  intro p d x hx
  rcases only p d x hx with h' | ⟨rfl, rfl, rfl⟩
  · exact h p d x h'
  · exact ⟨rfl, rfl⟩

theorem others_receive (env : Env) {m : Node} (hok : EvtOk m.db) (x : Msg) : Others m (receive env m x) x.e.pre := by
  have hev : ∀ q, q ≠ x.e.pre → (receive env m x).db.evts q = m.db.evts q := by
    intro q hq
    funext d
    exact (frame_process env m x.e x.sigs x.wigs x.couple false false).evts q d (fun h => hq h.1)
  rcases processEvent_cases env m x.e x.sigs x.wigs x.couple false false hok with g | ⟨_, k1, v, w, hk1, g, _⟩
  · exact ⟨fun q _ => congrFun g.kevers q, fun q _ => congrFun g.db.states q, fun q _ => congrFun g.db.kels q,
      fun q _ => congrFun g.db.fels q, fun q _ => congrFun g.db.fons q, hev, fun q _ => congrFun g.db.wits q, g.prefixes,
      g.groups, fun h => evtOk_only h g.db.only⟩
  · refine ⟨fun q hq => ?_, fun q hq => ?_, fun q hq => ?_, fun q hq => ?_, fun q hq => ?_, hev, fun q hq => ?_, g.prefixes,
      g.groups, fun h => evtOk_only h g.db.only⟩
    · exact (congrFun g.kevers q).trans (by simp [upd, hq])
    · exact (congrFun g.db.states q).trans (by simp [upd, hk1, hq])
    · exact (congrFun g.db.kels q).trans (by funext s; simp [upd2, hq])
    · exact (congrFun g.db.fels q).trans (by simp [upd, hq])
    · exact (congrFun g.db.fons q).trans (by funext s; simp [upd2, hq])
    · exact (congrFun g.db.wits q).trans (by funext s; simp [upd2, hq])

theorem others_replay (env : Env) (p : Id) : ∀ (ms : List Msg) (m : Node), EvtOk m.db → (∀ x, x ∈ ms → x.e.pre = p) →
    Others m (replay env m ms) p
  | [], m, _, _ => Others.rfl' m p
  | x :: ms, m, hok, hp => by
    have h1 := others_receive env hok x
    rw [hp x (by simp)] at h1
    have h2 := others_replay env p ms (receive env m x) (h1.ok hok) (fun y hy => hp y (by simp [hy]))
    exact h1.trans h2

theorem Authority.accepted {db : Db} {p : Id} {x a : Event} (h : Authority db p x a) : Accepted db p x → Accepted db p a := by
  induction h with
  | est _ => exact id
  | ixn _ _ _ hy _ ih => exact fun _ => ih hy

/-- The claim of the induction. -/
def Rep (env : Env) (n : Node) (p : Id) : Prop :=
  (n.db.fels p).Nodup → NotDelegated n p → AllCover n p → ∀ (m : Node) (ms : List Msg), EvtOk m.db → Ignorant m p →
    Outsider m n p → Supply env n p ms → AgreeS (replay env m ms) n p

/-- Everything that matters for `p` is as before, or has grown. -/
structure SameAt (a b : Node) (p : Id) : Prop where
  kevers : b.kevers p = a.kevers p
  states : b.db.states p = a.db.states p
  kels : b.db.kels p = a.db.kels p
  fels : b.db.fels p = a.db.fels p
  fons : b.db.fons p = a.db.fons p
  wits : b.db.wits p = a.db.wits p
  evts : ∀ d x, a.db.evts p d = some x → b.db.evts p d = some x
  sigs : ∀ d s, s ∈ a.db.sigs p d → s ∈ b.db.sigs p d

theorem Rep.same {env : Env} {a b : Node} {p : Id} (h : Rep env a p) (hst : ∀ d, d ∈ a.db.fels p → ∃ x, a.db.evts p d = some x)
    (g : SameAt a b p) : Rep env b p := by
  intro hnd hdel hcov m ms hok hig hout hsup
  have hacc : ∀ y, Accepted a.db p y → Accepted b.db p y := fun y hy => ⟨by rw [g.fels]; exact hy.1, g.evts _ _ hy.2⟩
  have hev : ∀ d, d ∈ a.db.fels p → a.db.evts p d = b.db.evts p d := by
    intro d hd
    obtain ⟨x, hx⟩ := hst d hd
    rw [hx, g.evts _ _ hx]
  have hmem : ∀ x, x ∈ ms → x.e.said ∈ a.db.fels p := by
    intro x hx
    rw [← g.fels, ← hsup.digs]
    exact List.mem_map_of_mem (f := fun x : Msg => x.e.said) hx
  have r := h (by rw [← g.fels]; exact hnd) (fun k hk => hdel k (by rw [g.kevers]; exact hk))
    (fun x hx he => hcov x (hacc x hx) he) m ms hok hig ⟨hout.own, hout.group, fun d w hw => hout.wits d w (by rw [g.wits]; exact hw)⟩
    ⟨by rw [hsup.digs, g.fels], fun x hx => by rw [hev _ (hmem x hx)]; exact hsup.evts x hx,
     fun x hx s hs => hsup.sigs x hx s (g.sigs _ _ hs),
     fun x hx c hc vs hv => hsup.wigs x hx c (hc.mono hacc) vs (by rw [g.wits]; exact hv)⟩
  exact ⟨⟨by rw [r.agree.kever, g.kevers], by rw [r.agree.state, g.states], fun s => by rw [r.agree.kels, g.kels],
    by rw [r.agree.fels, g.fels], fun d hd => by rw [g.fels] at hd; rw [r.agree.fons d hd, g.fons],
    fun d hd => by rw [g.fels] at hd; rw [r.agree.evts d hd, hev d hd]⟩, fun d x hx => g.evts _ _ (r.sub d x hx)⟩

theorem rotatePrior_same {m n : Node} {k : Kever} {e : Event} (hk : ∀ s, m.db.kels e.pre s = n.db.kels e.pre s)
    (he : ∀ s d, d ∈ n.db.kels e.pre s → m.db.evts e.pre d = n.db.evts e.pre d) :
    rotatePrior m.db k e = rotatePrior n.db k e := by
  unfold rotatePrior
  rw [hk]
  cases hl : (n.db.kels e.pre (e.sn - 1)).getLast? with
  | none => rfl
  | some d => simp only; rw [he _ d (List.mem_of_getLast? hl)]

theorem Rep.acc {env : Env} {U : Event → Prop} (hnc : NoColl U) {a : Node} {e : Event} (hi : Inv U a) (hK : KeyInv a)
    (hW : WitInv a) (h : Rep env a e.pre) (he : U e) {ss ws : List Sig} {c : Option Couple} {eager isLocal : Bool}
    {k1 : Kever} {v : Verified} {w : List Id} (hk1 : k1.pre = e.pre)
    (g : AccN e k1 v w a (a.processEvent env e ss ws c eager isLocal).1)
    (hacc : Accepts env a e ss ws c eager isLocal k1 v w) :
    Rep env (a.processEvent env e ss ws c eager isLocal).1 e.pre := by
  have hpre := okPre_of_acc g
  have hKb : KeyOk (a.processEvent env e ss ws c eager isLocal).1.db e.pre k1 :=
    KeyOk.acc' hnc hi he hk1 (fun k hk => hK _ k hk) g hacc
  have hevb := acc_evt hnc hi.evt he g
  generalize (a.processEvent env e ss ws c eager isLocal).1 = b at *
  intro hnd hdel hcov m ms hok hig hout hsup
  have hfels : b.db.fels e.pre = a.db.fels e.pre ++ [e.said] := by rw [g.db.fels]; simp [upd]
  have hkev : b.kevers e.pre = some k1 := by rw [g.kevers]; simp [upd]
  have hdel1 := hdel k1 hkev
  have haccd : ∀ y, Accepted a.db e.pre y → Accepted b.db e.pre y := fun y hy =>
    ⟨by rw [hfels]; exact List.mem_append_left _ hy.1, g.db.mono _ _ _ hy.2⟩
  have heacc : Accepted b.db e.pre e := ⟨by rw [hfels]; simp, hevb⟩
  have hnd' := hnd
  rw [hfels, List.nodup_append] at hnd'
  have hnot : e.said ∉ a.db.fels e.pre := fun hm => hnd'.2.2 _ hm _ (by simp) rfl
  have hwold : ∀ d, d ∈ a.db.fels e.pre → b.db.wits e.pre d = a.db.wits e.pre d := by
    intro d hd
    rw [g.db.wits, upd2_ne _ _ _ _ _ _ (by rintro ⟨_, h2⟩; exact hnot (h2 ▸ hd))]
  have hwsub : ∀ d w, w ∈ a.db.wits e.pre d → w ∈ b.db.wits e.pre d := by
    intro d x hx
    rw [g.db.wits]
    unfold upd2
    split
    · rename_i hd; rw [hd.2] at hx; exact (mem_ioPut _ _ _).2 (.inl hx)
    · exact hx
  have hevold : ∀ d, d ∈ a.db.fels e.pre → b.db.evts e.pre d = a.db.evts e.pre d := by
    intro d hd
    obtain ⟨x, hx⟩ := hi.stored _ _ hd
    rw [hx, g.db.mono _ _ _ hx]
  -- the last message
  obtain ⟨ms0, x, hms⟩ : ∃ ms0 x, ms = ms0 ++ [x] := by
    rcases List.eq_nil_or_concat ms with h0 | ⟨l, x, hl⟩
    · exfalso
      have := hsup.digs
      rw [h0, hfels] at this
      simp at this
    · exact ⟨l, x, by rw [hl, List.concat_eq_append]⟩
  have hdig := hsup.digs
  rw [hms, hfels, List.map_append] at hdig
  have hdig := List.append_inj' hdig rfl
  have hxs : x.e.said = e.said := by simpa using hdig.2
  have hx : x.e = e := by
    have := hsup.evts x (by rw [hms]; simp)
    rw [hxs, hevb] at this
    injection this with this; exact this.symm
  have hmem0 : ∀ y, y ∈ ms0 → y ∈ ms := fun y hy => by rw [hms]; exact List.mem_append_left _ hy
  have hin0 : ∀ y, y ∈ ms0 → y.e.said ∈ a.db.fels e.pre := by
    intro y hy
    rw [← hdig.1]
    exact List.mem_map_of_mem (f := fun x : Msg => x.e.said) hy
  have hev0 : ∀ y, y ∈ ms0 → a.db.evts e.pre y.e.said = some y.e := by
    intro y hy
    rw [← hevold _ (hin0 y hy)]
    exact hsup.evts y (hmem0 y hy)
  have hnda : NotDelegated a e.pre := by
    intro k hk
    rcases hacc with ⟨hac, _⟩ | ⟨k', hac⟩ | ⟨k', hac, _⟩
    · rw [hac.fresh] at hk; exact absurd hk (by simp)
    · have : k' = k := by have := hac.known; rw [hk] at this; injection this with this; exact this.symm
      subst this
      obtain ⟨cu, ad, _, _, _, hk1⟩ := hac.rot
      rw [hk1] at hdel1; exact hdel1
    · have : k' = k := by have := hac.known; rw [hk] at this; injection this with this; exact this.symm
      subst this
      obtain ⟨_, _, hk1⟩ := hac.val
      rw [hk1] at hdel1; exact hdel1
  have r := h hnd'.1 hnda (fun y hy => hcov y (haccd y hy)) m ms0 hok hig
    ⟨hout.own, hout.group, fun d y hy => hout.wits d y (hwsub d y hy)⟩
    ⟨hdig.1, hev0, fun y hy s hs => hsup.sigs y (hmem0 y hy) s (g.db.sigs _ _ _ hs), by
      intro y hy q hq vs hv
      have hqa := Authority.accepted hq ⟨hin0 y hy, hev0 y hy⟩
      exact hsup.wigs y (hmem0 y hy) q (hq.mono haccd) vs (by rw [hwold _ hqa.1]; exact hv)⟩
  have ho := others_replay env e.pre ms0 m hok (fun y hy => ((hi.evt _ _ _ (hev0 y hy))).1)
  have hrep : replay env m ms = receive env (replay env m ms0) x := by
    rw [hms]; unfold replay; rw [List.foldl_append]; rfl
  rw [hrep]
  generalize replay env m ms0 = M at *
  -- how the last message is received
  have hsig : ∀ s, s ∈ v.sigs → s ∈ x.sigs := by
    intro s hs
    refine hsup.sigs x (by rw [hms]; simp) s ?_
    rw [hxs]
    exact g.db.sigsIn s hs
  have hpart : ∀ ws : List Id, (∃ d, ∀ y, y ∈ ws → y ∈ b.db.wits e.pre d) → ¬ HostPart M e.pre ws := by
    rintro ws ⟨d, hd⟩ (h1 | h1 | ⟨y, hy, h1⟩)
    · rw [ho.prefixes] at h1; exact hout.own h1
    · rw [ho.groups] at h1; exact hout.group h1
    · rw [ho.prefixes] at h1; exact hout.wits d y (hd y hy) h1
  have hMk := r.agree.kever
  have hMkels := r.agree.kels
  have hfin : ∀ v' w', AccN e k1 v' w' M (receive env M x) → AgreeS (receive env M x) b e.pre := by
    intro v' w' gm
    generalize receive env M x = M' at gm ⊢
    have hsub : ∀ d y, M'.db.evts e.pre d = some y → b.db.evts e.pre d = some y := by
      intro d y hy
      rcases gm.db.only _ _ _ hy with h' | ⟨_, h2, h3⟩
      · exact g.db.mono _ _ _ (r.sub _ _ h')
      · subst h2 h3; exact hevb
    refine ⟨⟨?_, ?_, ?_, ?_, ?_, ?_⟩, hsub⟩
    · rw [gm.kevers, g.kevers]; simp [upd]
    · rw [gm.db.states, g.db.states]; simp [upd, hk1]
    · intro s
      rw [gm.db.kels, g.db.kels]
      simp only [upd2, true_and]
      split
      · rw [hMkels]
      · rw [hMkels]
    · rw [gm.db.fels, g.db.fels]; simp [upd, r.agree.fels]
    · intro d hd
      rw [gm.db.fons, g.db.fons, r.agree.fels]
      simp only [upd2, true_and]
      split
      · rfl
      · rename_i hne
        rw [hfels] at hd
        rcases List.mem_append.1 hd with hd | hd
        · exact r.agree.fons d hd
        · exact absurd (by simpa using hd) hne
    · intro d hd
      rw [hfels] at hd
      rcases List.mem_append.1 hd with hd | hd
      · obtain ⟨y, hy⟩ := hi.stored _ _ hd
        rw [hevold d hd, hy]
        exact gm.db.mono _ _ _ (by rw [r.agree.evts d hd, hy])
      · have : d = e.said := by simpa using hd
        subst this
        obtain ⟨y, hy⟩ := gm.db.stored
        rw [hy, hsub _ _ hy]
  have hrcv : receive env M x = (M.processEvent env e x.sigs x.wigs x.couple false false).1 := by rw [receive, hx]
  rcases hacc with ⟨hac, hw⟩ | ⟨k, hac⟩ | ⟨k, hac, hw⟩
  · -- inception
    obtain ⟨k, hinc, db, hval, hk1e⟩ := hac.inc
    obtain ⟨_, hsz, hosl, htoad, _, hkeq⟩ := incept_eq env e k hinc
    have hkp : k.pre = e.pre := by rw [hkeq]
    have hv := val_ok hval
    have hwb : b.db.wits e.pre e.said = e.wits := by
      rw [g.db.wits]
      simp only [upd2, and_self, if_true]
      rw [hW.none _ _ hnot, hw]
      exact oset_of_nodup _ (oset_full _ hosl)
    have hd : delegator k e = .ok none := by
      obtain ⟨dp, hdp, _⟩ := hv.deleg
      rcases hac.ilk with hil | hil
      · simp [delegator, hil]
      · exfalso
        rw [hk1e, hkeq] at hdel1
        simp only [hil, if_true] at hdel1
        simp [delegator, hil, hdel1] at hdp
    have hest : e.ilk.est = true := by rcases hac.ilk with hil | hil <;> rw [hil] <;> rfl
    have hcv := hcov e heacc hest
    have hkw : k.wits = e.wits := by rw [hkeq]
    have hsb : ∃ d, ∀ y, y ∈ e.wits → y ∈ b.db.wits e.pre d := ⟨e.said, fun y hy => by rw [hwb]; exact hy⟩
    obtain ⟨v', hv'⟩ := val_complete (env := env) (n := M) (k := k) (e := e) (ss := x.sigs) (ws := x.wigs) (keys := e.keys)
      (kt := e.kt) (toad := e.toad) (wits := e.wits) (couple := x.couple) (eager := false) (isLocal := false) hd hv.size
      (enough_of hcv.1 hv.nodup (fun s hs => (hv.sigs s hs).2) hsig hv.thold)
      (by rintro (hh | hh) <;> rcases hac.ilk with hil | hil <;> rw [hil] at hh <;> cases hh)
      (val_okKey hval) (toadFits_of htoad)
      (.inr (fun vs hg => hsup.wigs x (by rw [hms]; simp) e (by rw [hx]; exact .est hest) vs (by rw [hwb, hx]; exact hg)))
      (.inr (by rw [hkp, hkw]; exact ⟨hpart _ hsb, hpart _ hsb⟩))
    have gm := recv_inc (env := env) (m := M) (e := e) (ss := x.sigs) (ws := x.wigs) (c := x.couple) (eager := false)
      (isLocal := false) hpre (by rw [hMk]; exact hac.fresh) hac.ilk
      (by
        intro h0
        obtain ⟨s, hs⟩ := List.exists_mem_of_ne_nil _ hv.some
        have := hsig s hs
        rw [h0] at this; exact absurd this (by simp)) hinc hv'
    rw [← hrcv, r.agree.fels, ← hk1e] at gm
    exact hfin _ _ gm
  · -- rotation
    obtain ⟨cu, ad, hrot, db, hval, hk1e⟩ := hac.rot
    have hKa := hK _ _ hac.known
    have hv := val_ok hval
    obtain ⟨_, _, hsz, _, htoad⟩ := rotate_ok hrot
    have hest : e.ilk.est = true := by rcases hac.ilk with hil | hil <;> rw [hil] <;> rfl
    have hkd : k.delpre = none := hnda k hac.known
    have hd : delegator k e = .ok none := by
      rcases hac.ilk with hil | hil <;> simp [delegator, hil, hkd]
    have hw1 : k1.wits = w := by rw [hk1e]; rfl
    have hwb : b.db.wits e.pre e.said = w := by
      rw [g.db.wits]
      simp only [upd2, and_self, if_true]
      rw [hW.none _ _ hnot]
      have := hKb.wits
      rw [hw1] at this
      exact oset_of_nodup _ this
    have hcv := hcov e heacc hest
    obtain ⟨q, hq1, hq2, _, hq4, _, _, hq7, hq8, _, _⟩ := hKa.est
    have hcq := hcov q (haccd q hq1) hq4
    rw [← hq7, ← hq8] at hcq
    have hold : ∃ d, ∀ y, y ∈ k.wits → y ∈ b.db.wits e.pre d := by
      refine ⟨k.lastD, fun y hy => hwsub _ _ ?_⟩
      rw [hW.cur _ _ hac.known hnd'.1]; exact hy
    have hnew : ∃ d, ∀ y, y ∈ w → y ∈ b.db.wits e.pre d := ⟨e.said, fun y hy => by rw [hwb]; exact hy⟩
    obtain ⟨v', hv'⟩ := val_complete (env := env) (n := M) (k := k) (e := e) (ss := x.sigs) (ws := x.wigs) (keys := e.keys)
      (kt := e.kt) (toad := e.toad) (wits := w) (couple := x.couple) (eager := false) (isLocal := false) hd hv.size
      (enough_of hcv.1 hv.nodup (fun s hs => (hv.sigs s hs).2) hsig hv.thold)
      (fun hh => enoughNext_of hcq.2 hv.nodup (fun s hs => (hv.sigs s hs).2) hsig (hv.next hh))
      (val_okKey hval) (toadFits_of htoad)
      (.inr (fun vs hg => hsup.wigs x (by rw [hms]; simp) e (by rw [hx]; exact .est hest) vs (by rw [hwb, hx]; exact hg)))
      (.inr (by rw [hKa.pre]; exact ⟨hpart _ hold, hpart _ hnew⟩))
    have hrotM : rotate env M.db k e = .ok (w, cu, ad) := by
      rw [← hrot]
      unfold rotate
      rw [rotatePrior_same hMkels (fun s d hd => r.agree.evts d ((hi.mem _ _ _).1 hd).1)]
    have hle : e.sn ≤ k.sn + 1 := by
      have := hac.seq
      unfold InSeq at this
      omega
    have gm := recv_rot (env := env) (m := M) (e := e) (ss := x.sigs) (ws := x.wigs) (c := x.couple) (eager := false)
      (isLocal := false) hpre (by rw [hMk]; exact hac.known) hac.ilk hac.seq hac.trans hac.pre hkd hle hrotM hv'
    rw [← hrcv, r.agree.fels, ← hk1e] at gm
    exact hfin _ _ gm
  · -- interaction
    obtain ⟨db, hval, hk1e⟩ := hac.val
    have hKa := hK _ _ hac.known
    have hv := val_ok hval
    have hd : delegator k e = .ok none := by simp [delegator, hac.ilk]
    obtain ⟨q, hq1, hq2, _, hq4, hq5, hq6, _, _, hq9, hq10⟩ := hKa.est
    have hcq := hcov q (haccd q hq1) hq4
    rw [← hq5, ← hq6] at hcq
    have hqw : b.db.wits e.pre q.said = k.wits := by
      rw [hwold _ hq1.1, hq2, hW.cur _ _ hac.known hnd'.1]
    have hold : ∃ d, ∀ y, y ∈ k.wits → y ∈ b.db.wits e.pre d := ⟨q.said, fun y hy => by rw [hqw]; exact hy⟩
    have hauth : Authority b.db e.pre e q :=
      .ixn hac.ilk hac.prior (by rw [hKa.sn, hac.seq]) (haccd _ hKa.acc) (hq10.mono haccd)
    obtain ⟨v', hv'⟩ := val_complete (env := env) (n := M) (k := k) (e := e) (ss := x.sigs) (ws := x.wigs) (keys := k.keys)
      (kt := k.kt) (toad := k.toad) (wits := k.wits) (couple := none) (eager := false) (isLocal := false) hd hv.size
      (enough_of hcq.1 hv.nodup (fun s hs => (hv.sigs s hs).2) hsig hv.thold)
      (by rintro (hh | hh) <;> rw [hac.ilk] at hh <;> cases hh)
      (val_okKey hval) (toadFits_of hKa.toad)
      (.inr (fun vs hg => by
        rw [hq9]
        exact hsup.wigs x (by rw [hms]; simp) q (by rw [hx]; exact hauth) vs (by rw [hqw, hx]; exact hg)))
      (.inr (by rw [hKa.pre]; exact ⟨hpart _ hold, hpart _ hold⟩))
    have gm := recv_ixn (env := env) (m := M) (e := e) (ss := x.sigs) (ws := x.wigs) (c := x.couple) (eager := false)
      (isLocal := false) hpre (by rw [hMk]; exact hac.known) hac.ilk hac.seq hac.trans hac.pre hac.estOnly hac.prior hv'
    rw [← hrcv, r.agree.fels, ← hk1e] at gm
    exact hfin _ _ gm

/-- Logged events have stored signatures. -/
def SigInv (n : Node) : Prop := ∀ p d, d ∈ n.db.fels p → n.db.sigs p d ≠ []

theorem SigInv.grow {a b : Node} {p : Id} {d : Dig} (h : SigInv a) (hd : d ∈ a.db.fels p)
    (hs : ∀ s, s ∈ a.db.sigs p d → s ∈ b.db.sigs p d) : b.db.sigs p d ≠ [] := by
  obtain ⟨s, hs'⟩ := List.exists_mem_of_ne_nil _ (h p d hd)
  intro h0
  have := hs s hs'
  rw [h0] at this; exact absurd this (by simp)

/-- The induction over the history. -/
structure Good3 (env : Env) (U : Event → Prop) (n : Node) : Prop where
  inv : Kel.Inv U n
  key : KeyInv n
  wit : WitInv n
  sig : SigInv n
  rep : ∀ p, Rep env n p

theorem Good3.micro {env : Env} {U : Event → Prop} (hnc : NoColl U) {a b : Node} (h : Good3 env U a) (g : Micro env U a b) :
    Good3 env U b := by
  have h1 := h.inv.micro hnc g
  have h2 := h.key.micro hnc h.inv g
  have h3 := h.wit.micro hnc h.inv h.key g
  refine ⟨h1, h2, h3, ?_, ?_⟩
  · cases g with
    | core g => intro p d hd; rw [g.fels] at hd; rw [g.sigs]; exact h.sig p d hd
    | event e ss ws c eager isLocal he =>
      rcases processEvent_cases env a e ss ws c eager isLocal h.inv.evt.ok with g | ⟨_, k1, v, w, hk1, g, hacc⟩
      · intro p d hd
        rw [g.db.fels] at hd
        exact h.sig.grow hd (g.db.sigs p d)
      · intro p d hd
        have hne : v.sigs ≠ [] := by
          rcases hacc with ⟨hac, _⟩ | ⟨k, hac⟩ | ⟨k, hac, _⟩
          · obtain ⟨_, _, _, hv, _⟩ := hac.inc; exact (val_ok hv).some
          · obtain ⟨_, _, _, _, hv, _⟩ := hac.rot; exact (val_ok hv).some
          · obtain ⟨_, hv, _⟩ := hac.val; exact (val_ok hv).some
        have hnew : (a.processEvent env e ss ws c eager isLocal).1.db.sigs e.pre e.said ≠ [] := by
          obtain ⟨s, hs⟩ := List.exists_mem_of_ne_nil _ hne
          intro h0
          have := g.db.sigsIn s hs
          rw [h0] at this; exact absurd this (by simp)
        rw [g.db.fels] at hd
        unfold upd at hd
        split at hd
        · rename_i hp
          subst hp
          rcases List.mem_append.1 hd with hd | hd
          · exact h.sig.grow hd (g.db.sigs _ d)
          · have : d = e.said := by simpa using hd
            subst this; exact hnew
        · exact h.sig.grow hd (g.db.sigs p d)
  · intro p
    cases g with
    | core g =>
      exact (h.rep p).same (h.inv.stored p) ⟨by rw [g.kevers], by rw [g.states], by rw [g.kels], by rw [g.fels], by rw [g.fons],
        by rw [g.wits], fun d x hx => by rw [g.evts]; exact hx, fun d s hs => by rw [g.sigs]; exact hs⟩
    | event e ss ws c eager isLocal he =>
      rcases processEvent_cases env a e ss ws c eager isLocal h.inv.evt.ok with g | ⟨_, k1, v, w, hk1, g, hacc⟩
      · exact (h.rep p).same (h.inv.stored p) ⟨by rw [g.kevers], by rw [g.db.states], by rw [g.db.kels], by rw [g.db.fels],
          by rw [g.db.fons], by rw [g.db.wits], g.db.mono p, g.db.sigs p⟩
      · by_cases hp : p = e.pre
        · subst hp
          exact Rep.acc hnc h.inv h.key h.wit (h.rep _) he hk1 g hacc
        · refine (h.rep p).same (h.inv.stored p) ⟨?_, ?_, ?_, ?_, ?_, ?_, g.db.mono p, g.db.sigs p⟩
          · rw [g.kevers]; simp [upd, hp]
          · rw [g.db.states]; simp [upd, hk1, hp]
          · rw [g.db.kels]; funext s; simp [upd2, hp]
          · rw [g.db.fels]; simp [upd, hp]
          · rw [g.db.fons]; funext s; simp [upd2, hp]
          · rw [g.db.wits]; funext s; simp [upd2, hp]

theorem good3_start (env : Env) (U : Event → Prop) (p g : List Id) (mi : Id → Option Id) : Good3 env U (Node.start p g mi) := by
  refine ⟨inv_start U p g mi, keyInv_start p g mi, witInv_start p g mi, ?_, ?_⟩
  · intro q d hd; simp [Node.start, Db.empty] at hd
  · intro q _ _ _ m ms _ hig _ hs
    have : ms = [] := by have := hs.digs; simpa [Node.start, Db.empty] using this
    subst this
    refine ⟨⟨hig.kever, hig.state, hig.kels, hig.fels, ?_, ?_⟩, ?_⟩
    · intro d hd; simp [Node.start, Db.empty] at hd
    · intro d hd; simp [Node.start, Db.empty] at hd
    · intro d x hx
      have : m.db.evts q d = some x := hx
      rw [hig.evts] at this; exact absurd this (by simp)

theorem Good3.steps {env : Env} {U : Event → Prop} (hnc : NoColl U) {a b : Node} (h : Good3 env U a) (g : Steps env U a b) :
    Good3 env U b := by
  induction g with
  | refl => exact h
  | tail _ g ih => exact ih.micro hnc g

theorem good3_reached {env : Env} {U : Event → Prop} (hnc : NoColl U) {n : Node} (h : Reached env U n) : Good3 env U n := by
  obtain ⟨p, g, mi, hs, hd, rfl⟩ := h
  exact (good3_start env U p g mi).steps hnc (run_steps env U _ hs (evtU_start U p g mi) hd)

end Verif.Replay
