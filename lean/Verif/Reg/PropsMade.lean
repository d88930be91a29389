import Verif.Reg.PropsName
import Verif.Tel.PropsWait

/-! # Events made by registries (C225, C226, C227) -/

namespace Verif.Reg

open Verif.Kel (Id Dig Couple Event Node upd upd2 oset ioPut cutsOk NoColl)
open Verif.Tel

variable {env : TEnv} {U : Event → Prop} {V : TEvt → Prop}

/-! ## Reached worlds -/

/-- The transaction event an input has processed. -/
def Inp.made (w : World) : Inp → Option TEvt
  | .make _ _ _ e => some e
  | .makeNew _ pre d nb toad baks => (buildVcp pre d nb toad baks).toOption
  | .ask s k d a => (build w.t.reg s k d a).toOption
  | .rotate _ e => some e
  | .node i => i.tevent
  | _ => none

/-- The key events and transaction events of a history are in `U` and `V`. -/
def Fits (env : TEnv) (U : Event → Prop) (V : TEvt → Prop) : World → List Inp → Prop
  | _, [] => True
  | w, i :: is => (∀ e, i.made w = some e → V e) ∧ (∀ j, i = .node j → ∀ e, j.event = some e → U e) ∧ Fits env U V (w.step env i) is

/-- `w` is the state after some history. -/
def Reached (env : TEnv) (U : Event → Prop) (V : TEvt → Prop) (w : World) : Prop :=
  ∃ prefixes groups mid habs h, Fits env U V (World.start (TNode.start prefixes groups mid) habs) h ∧ w = (World.start (TNode.start prefixes groups mid) habs).run env h

/-- The invariant of the registries. -/
def Ok (env : TEnv) (U : Event → Prop) (V : TEvt → Prop) (w : World) : Prop := TInv env U V w.t.node w.t.reg

theorem ok_process (hnt : NoCollT V) {w : World} (h : Ok env U V w) {e : TEvt} (he : V e) : Ok env U V (w.process env e).1 := by
  have h1 := h.process hnt true true he none []
  unfold World.process
  dsimp only
  split <;> exact h1

theorem ok_make (hnt : NoCollT V) {w : World} (h : Ok env U V w) (s : Bool) (name : Nat) (pre : Id) {e : TEvt} (he : V e) : Ok env U V (w.make env s name pre e).1 := by
  have h1 : Ok env U V (w.record name pre e.pre) := h.of_eq rfl rfl rfl (.inl rfl) rfl
  have h2 := ok_process hnt h1 he
  unfold World.make
  split
  · exact h
  · split
    · rename_i h3
      rw [h3] at h2
      split
      · exact h2
      · exact h2
    · rename_i h3
      rw [h3] at h2
      exact h2

theorem ok_ask (hnt : NoCollT V) {w : World} (h : Ok env U V w) (s : Bool) (k : Id) (d : Dig) (a : Ask) (he : ∀ e, build w.t.reg s k d a = .ok e → V e) :
    Ok env U V (w.ask env s k d a).1 := by
  unfold World.ask
  split
  · exact h
  · rename_i e hb
    have h2 := ok_process hnt h (he e hb)
    split <;> (rename_i h3; rw [h3] at h2; exact h2)

theorem ok_anchor {w : World} (h : Ok env U V w) (p : Id) (d : Dig) (c : Couple) : Ok env U V (w.anchor p d c) := by
  unfold World.anchor
  split
  · rename_i hn
    have mono : ∀ k t, TevOk env w.t.node w.t.reg k t → TevOk env w.t.node { w.t.reg with ancs := upd2 w.t.reg.ancs p d (some c) } k t := fun k t g =>
      TevOk.mono (r := w.t.reg) (r' := { w.t.reg with ancs := upd2 w.t.reg.ancs p d (some c) }) (fun _ _ x => x) (fun _ _ _ x => x) (fun _ => Nat.le_refl _) g
    refine ⟨h.kel, h.tvt, h.ord, ?_, ?_, ?_, h.mem⟩
    · intro q on g hg
      obtain ⟨e, k, v, h1, h2, h3, h4, h5, ⟨c', h6⟩, h7⟩ := h.ent q on g hg
      refine ⟨e, k, v, h1, h2, h3, ⟨h4.ilk, h4.pre, h4.stored, h4.sealed⟩, h5, ?_, h7⟩
      by_cases hx : q = p ∧ g = d
      · obtain ⟨rfl, rfl⟩ := hx
        rw [hn] at h6; cases h6
      · refine ⟨c', ?_⟩
        show upd2 w.t.reg.ancs p d (some c) q g = some c'
        unfold upd2
        rw [if_neg hx]
        exact h6
    · intro k t ht
      exact mono k t (h.tev k t ht)
    · intro k s hs
      obtain ⟨t, h1, h2, h3⟩ := h.sts k s hs
      exact ⟨t, h1, mono k t h2, h3⟩
  · exact h

theorem ok_step (hnc : NoColl U) (hnt : NoCollT V) {w : World} (h : Ok env U V w) (i : Inp) (hv : ∀ e, i.made w = some e → V e)
    (hu : ∀ j, i = .node j → ∀ e, j.event = some e → U e) : Ok env U V (w.step env i) := by
  cases i with
  | make s name pre e => exact ok_make hnt h s name pre (hv e rfl)
  | makeNew name pre d nb toad baks =>
    show Ok env U V (w.makeNew env name pre d nb toad baks).1
    rcases makeNew_cases env w name pre d nb toad baks with ⟨x, hx⟩ | ⟨e, hb, he⟩
    · rw [hx]; exact h
    · rw [he]; exact ok_make hnt h _ _ _ (hv e (by simp [Inp.made, hb, Except.toOption]))
  | ask s k d a => exact ok_ask hnt h s k d a (fun e hb => hv e (by simp [Inp.made, hb, Except.toOption]))
  | rotate k e =>
    show Ok env U V (w.signifyRotate env k e).1
    rcases rotate_frame env w k e with h1 | h1 <;> (rw [h1]; exact h)
  | anchor p d c => exact ok_anchor h p d c
  | restart =>
    show Ok env U V (w.restart w.habs).1
    unfold World.restart
    split
    · exact h.of_eq rfl rfl rfl (.inr rfl) rfl
    · exact h.of_eq rfl rfl rfl (.inr rfl) rfl
  | node j => exact TInv.step hnc hnt h j (fun e he => hu j rfl e he) (fun e he => hv e he)

theorem ok_run (hnc : NoColl U) (hnt : NoCollT V) : ∀ (h : List Inp) (w : World), Ok env U V w → Fits env U V w h → Ok env U V (w.run env h) := by
  intro h
  induction h with
  | nil => intro w hw _; exact hw
  | cons i is ih =>
    intro w hw hf
    obtain ⟨h1, h2, h3⟩ := hf
    exact ih _ (ok_step hnc hnt hw i h1 h2) h3

theorem Reached.ok (hnc : NoColl U) (hnt : NoCollT V) {w : World} (h : Reached env U V w) : Ok env U V w := by
  obtain ⟨p, g, m, hb, hs, hf, rfl⟩ := h
  exact ok_run hnc hnt hs _ (tinv_start env U V p g m) hf

/-! ## Registries without backers -/

/-- The outcome of asking: the event is handed back, kept, and waits for its seal; no log has changed. -/
structure Waits (w w' : World) (e : TEvt) : Prop where
  waits : (e.pre, e.sn, e.said) ∈ w'.t.reg.taes
  only : ∀ x ∈ w'.t.reg.taes, x ∈ w.t.reg.taes ∨ x = (e.pre, e.sn, e.said)
  stored : w'.t.reg.tvts e.pre e.said = some e
  tels : w'.t.reg.tels = w.t.reg.tels
  ancs : w'.t.reg.ancs = w.t.reg.ancs
  node : w'.t.node = w.t.node

theorem mem_taes_escAdd {l : List (Id × Nat × Dig)} {x y : Id × Nat × Dig} (h : y ∈ Kel.escAdd l x) : y ∈ l ∨ y = x := by
  rcases (Kel.mem_escAdd _ _ _).1 h with h | h
  · exact .inr h
  · exact .inl h

theorem escrowAL_none (hnt : NoCollT V) {n : Node} {q : Reger} (hi : TInv env U V n q) {e : TEvt} (he : V e) (bs : List Kel.Sig) (baks : List Id) :
    (e.pre, e.sn, e.said) ∈ (q.escrowAL e none bs baks).taes ∧ (∀ x ∈ (q.escrowAL e none bs baks).taes, x ∈ q.taes ∨ x = (e.pre, e.sn, e.said)) ∧
    (q.escrowAL e none bs baks).tvts e.pre e.said = some e ∧ (q.escrowAL e none bs baks).tels = q.tels ∧ (q.escrowAL e none bs baks).ancs = q.ancs := by
  have hx := ext_escrowAL e q none bs baks
  have ht : (((q.pinTibs e bs).pinBaks e baks).putTvt e).taes = q.taes := by
    unfold Reger.putTvt Reger.pinBaks Reger.pinTibs
    split <;> (split <;> (split <;> rfl))
  have ha : (((q.pinTibs e bs).pinBaks e baks).putTvt e).ancs = q.ancs := by
    unfold Reger.putTvt Reger.pinBaks Reger.pinTibs
    split <;> (split <;> (split <;> rfl))
  refine ⟨?_, ?_, ?_, hx.tels, ha⟩
  · unfold Reger.escrowAL
    dsimp only
    exact (Kel.mem_escAdd _ _ _).2 (.inl rfl)
  · intro x hx
    unfold Reger.escrowAL at hx
    dsimp only at hx
    rw [ht] at hx
    exact mem_taes_escAdd hx
  · have h1 : ∃ x, (q.escrowAL e none bs baks).tvts e.pre e.said = some x := putTvt_stored e _
    obtain ⟨x, h1⟩ := h1
    rcases hx.tonly _ _ _ h1 with h2 | ⟨_, _, rfl⟩
    · obtain ⟨_, g2, g3⟩ := hi.tvt _ _ _ h2
      rw [h1, hnt x e g3 he g2]
    · exact h1

theorem waits_of_next (hnt : NoCollT V) {w : World} (hw : Ok env U V w) {k : Id} {e : TEvt} (he : V e) (h : Next env w.t.reg true true k e) :
    (w.process env e).2 = .ok () ∧ Waits w (w.process env e).1 e := by
  obtain ⟨t, ht, hp⟩ := h.process hw none []
  have hif := TInv.fetch hw k
  obtain ⟨g1, g2, g3, g4, g5⟩ := escrowAL_none hnt hif he [] []
  have hT : (w.t.reg.fetch k).1.tels = w.t.reg.tels ∧ (w.t.reg.fetch k).1.ancs = w.t.reg.ancs ∧ (w.t.reg.fetch k).1.taes = w.t.reg.taes := by
    rw [fetch_rest]; exact ⟨rfl, rfl, rfl⟩
  have hs : (w.t.reg.fetch k).1.simple env w.t.node t e none = ((w.t.reg.fetch k).1.escrowAL e none [] [], .error .missingAnchor) := by
    unfold Reger.simple
    simp [verifyAnchor]
  unfold World.process
  rw [hp, hs]
  dsimp only
  refine ⟨rfl, g1, ?_, g3, g4.trans hT.1, g5.trans hT.2.1, rfl⟩
  rw [hT.2.2] at g2
  exact g2

theorem known_process {w : World} (hw : Ok env U V w) {k : Id} {e : TEvt} (h : Next env w.t.reg true true k e) :
    (w.process env e).1.t.reg = ((w.t.reg.fetch k).1.escrowAL e none [] []) := by
  obtain ⟨t, ht, hp⟩ := h.process hw none []
  have hs : (w.t.reg.fetch k).1.simple env w.t.node t e none = ((w.t.reg.fetch k).1.escrowAL e none [] [], .error .missingAnchor) := by
    unfold Reger.simple
    simp [verifyAnchor]
  unfold World.process
  rw [hp, hs]

/-- The issuance registry `k` makes of `vci` when it has no backers. -/
def issuance (k : Id) (d : Dig) (vci : Id) : TEvt := { blank with ilk := .iss, pre := vci, said := d, ri := k }

/-- The revocation registry `k` makes of `vci` when it has no backers, after the issuance with digest `g`. -/
def revocation (k : Id) (d : Dig) (vci : Id) (g : Dig) : TEvt := { blank with ilk := .rev, pre := vci, sn := 1, said := d, prior := g, ri := k }

theorem next_issuance {w : World} {k : Id} {t : Tever} (ht : (w.t.reg.fetch k).2 = some t) (hb : t.noBackers = true) {vci : Id} (d : Dig)
    (hp : env.kel.okPre vci = true) (hl : w.t.reg.tels vci = []) : Next env w.t.reg true true k (issuance k d vci) :=
  ⟨hp, .inl ⟨rfl, rfl⟩, rfl, .inl rfl, ⟨t, ht, hb⟩, by show 0 = (w.t.reg.tels vci).length; rw [hl]; rfl⟩

theorem next_revocation {w : World} {k : Id} {t : Tever} (ht : (w.t.reg.fetch k).2 = some t) (hb : t.noBackers = true) {vci : Id} (d : Dig)
    (hp : env.kel.okPre vci = true) {g : Dig} (hl : w.t.reg.tels vci = [(0, g)]) {x : TEvt} (hx : w.t.reg.tvts vci g = some x) :
    Next env w.t.reg true true k (revocation k d vci g) := by
  refine ⟨hp, .inr ⟨rfl, by simp [revocation], 0, x, ?_, hx⟩, rfl, .inl rfl, ⟨t, ht, hb⟩, ?_⟩
  · show (w.t.reg.tels vci).getLast? = some (0, g)
    rw [hl]; rfl
  · show 1 = (w.t.reg.tels vci).length
    rw [hl]; rfl

/-- **C225, issuing.** A registry without backers that is asked to issue a credential that has no events makes the first event of its log, hands it back, and the event waits for its
seal; no log changes until then. -/
theorem c225_issued (hnc : NoColl U) (hnt : NoCollT V) {w : World} (hw : Reached env U V w) (signify : Bool) {k : Id} {t : Tever} (ht : (w.t.reg.fetch k).2 = some t)
    (hb : t.noBackers = true) {vci : Id} {d : Dig} (hp : env.kel.okPre vci = true) (hl : w.t.reg.tels vci = []) (hv : V (issuance k d vci)) :
    (w.ask env signify k d (.issue vci)).2 = .ok (issuance k d vci) ∧ Waits w (w.ask env signify k d (.issue vci)).1 (issuance k d vci) := by
  obtain ⟨h1, h2⟩ := waits_of_next hnt (hw.ok hnc hnt) hv (next_issuance ht hb d hp hl)
  have hbd : build w.t.reg signify k d (.issue vci) = .ok (issuance k d vci) := by
    simp [build, ht, buildIss, hb, issuance]
  unfold World.ask
  rw [hbd]
  dsimp only
  cases hq : w.process env (issuance k d vci) with
  | mk w' o =>
    rw [hq] at h1 h2
    cases h1
    exact ⟨rfl, h2⟩

/-- **C225, revoking.** A registry without backers that is asked to revoke a credential whose only event is its issuance makes the event that follows it, hands it back, and the event
waits for its seal. -/
theorem c225_revoked (hnc : NoColl U) (hnt : NoCollT V) {w : World} (hw : Reached env U V w) {k : Id} {t : Tever} (ht : (w.t.reg.fetch k).2 = some t)
    (hb : t.noBackers = true) {vci : Id} {d g : Dig} (hp : env.kel.okPre vci = true) (hl : w.t.reg.tels vci = [(0, g)]) (hv : V (revocation k d vci g)) :
    (w.ask env false k d (.revoke vci)).2 = .ok (revocation k d vci g) ∧ Waits w (w.ask env false k d (.revoke vci)).1 (revocation k d vci g) := by
  have hok := hw.ok hnc hnt
  obtain ⟨x, _, _, hx, _⟩ := hok.ent vci 0 g (by rw [hl]; simp)
  obtain ⟨_, hsd, _⟩ := hok.tvt _ _ _ hx
  obtain ⟨h1, h2⟩ := waits_of_next hnt hok hv (next_revocation ht hb d hp hl hx)
  have hbd : build w.t.reg false k d (.revoke vci) = .ok (revocation k d vci g) := by
    simp [build, hl, telGet, hx, protoOf, ht, buildRev, hb, revocation, hsd]
  unfold World.ask
  rw [hbd]
  dsimp only
  cases hq : w.process env (revocation k d vci g) with
  | mk w' o =>
    rw [hq] at h1 h2
    cases h1
    exact ⟨rfl, h2⟩

theorem ask_of_ok {w : World} {signify : Bool} {k : Id} {d : Dig} {a : Ask} {e : TEvt} (h : (w.ask env signify k d a).2 = .ok e) :
    build w.t.reg signify k d a = .ok e ∧ (w.ask env signify k d a).1 = (w.process env e).1 := by
  unfold World.ask at h ⊢
  cases hb : build w.t.reg signify k d a with
  | error x => rw [hb] at h; cases h
  | ok e' =>
    rw [hb] at h
    dsimp only at h ⊢
    cases hq : w.process env e' with
    | mk w' o =>
      rw [hq] at h
      cases o with
      | error x => cases h
      | ok u => cases h; exact ⟨rfl, by rw [hq]⟩

theorem kels_reg (ks : List Kel.Inp) : ∀ w : World, (w.run env (ks.map fun i => .node (.kel i))).t.reg = w.t.reg := by
  induction ks with
  | nil => intro w; rfl
  | cons i is ih => intro w; exact ih _

/-- Told its seal and then sealed, an event that was next when it was made is entered at the next look at what waits. -/
theorem sealed_next (hnc : NoColl U) (hnt : NoCollT V) (hsa : SelfAddressing V) {w : World} (hw : Ok env U V w) {k : Id} {e v : TEvt}
    (he : V e) (hn : Next env w.t.reg true true k e) (hv : Registered env w.t.node w.t.reg k v)
    (hfree : ∀ x ∈ w.t.reg.taes, x.1 ≠ e.pre) (hanc : w.t.reg.ancs e.pre e.said = none) {s : Nat} {g : Dig} (ks : List Kel.Inp)
    (hks : ∀ i ∈ ks, ∀ x, i.delivers = some x → U x)
    (hs : SealAt env ((((w.process env e).1.anchor e.pre e.said (s, g)).run env (ks.map fun i => .node (.kel i)))).t.node v.issuer s g e) :
    InLog (((((w.process env e).1.anchor e.pre e.said (s, g)).run env (ks.map fun i => .node (.kel i)))).step env (.node (.passA true true))).t.reg e.pre e.sn e := by
  obtain ⟨_, hwt⟩ := waits_of_next hnt hw he hn
  have ho1 := ok_process hnt hw he
  have hreg := known_process hw hn
  generalize hw1 : (w.process env e).1 = w1 at *
  have ho2 := ok_anchor ho1 e.pre e.said (s, g)
  have ha : (w1.anchor e.pre e.said (s, g)).t.reg = { w1.t.reg with ancs := upd2 w1.t.reg.ancs e.pre e.said (some (s, g)) } := by
    unfold World.anchor
    rw [hwt.ancs, hanc]
  have hnode2 : (w1.anchor e.pre e.said (s, g)).t.node = w1.t.node := by
    unfold World.anchor
    split <;> rfl
  generalize hw2 : w1.anchor e.pre e.said (s, g) = w2 at *
  have hks' : ∀ (l : List Kel.Inp) (u : World), (∀ i ∈ l, ∀ x, i.delivers = some x → U x) → Ok env U V u → Registered env u.t.node u.t.reg k v →
      Ok env U V (u.run env (l.map fun i => .node (.kel i))) ∧
      Registered env (u.run env (l.map fun i => .node (.kel i))).t.node (u.run env (l.map fun i => .node (.kel i))).t.reg k v := by
    intro l
    induction l with
    | nil => intro u _ hu hr; exact ⟨hu, hr⟩
    | cons i is ih =>
      intro u hl hu hr
      have hi := hl i (List.mem_cons_self ..)
      have hst := Kel.step_steps env.kel U u.t.node i hu.kel.evt hi
      refine ih _ (fun j hj => hl j (List.mem_cons_of_mem _ hj)) (hu.kelStep hnc i hi) ?_
      exact hr.mono (fun p x hx => Kel.accepted_steps hu.kel.evt hst hx) (fun _ _ _ x => x)
  have hrest : w1.t.reg.tvts = ((w.t.reg.fetch k).1.escrowAL e none [] []).tvts := by rw [hreg]
  have hv2 : Registered env w2.t.node w2.t.reg k v := by
    refine ⟨hv.ilk, hv.pre, ?_, by rw [hnode2, hwt.node]; exact hv.sealed⟩
    rw [ha]
    show w1.t.reg.tvts k v.said = some v
    rw [hrest]
    exact (ext_escrowAL e (w.t.reg.fetch k).1 none [] []).tmono _ _ _ (by rw [fetch_rest]; exact hv.stored)
  obtain ⟨ho3, hv3⟩ := hks' ks w2 hks ho2 hv2
  have hr3 := kels_reg (env := env) ks w2
  generalize hw3 : w2.run env (ks.map fun i => .node (.kel i)) = w3 at *
  have hfetch : ∃ t, (w3.t.reg.fetch k).2 = some t ∧ t.noBackers = true := by
    obtain ⟨t, h1, h2⟩ := hn.known
    have : w3.t.reg.tevers k = some t := by
      rw [hr3, ha]
      show w1.t.reg.tevers k = some t
      rw [hreg, (ext_escrowAL e (w.t.reg.fetch k).1 none [] []).tevers]
      exact fetch_some h1
    exact ⟨t, by unfold Reger.fetch; rw [this], h2⟩
  have ht3 : w3.t.reg.tels = w.t.reg.tels := by rw [hr3, ha]; exact hwt.tels
  have hn3 : Next env w3.t.reg true true k e := by
    refine ⟨hn.pre, ?_, hn.ri, .inl rfl, hfetch, by rw [ht3]; exact hn.num⟩
    rcases hn.kind with h1 | ⟨h1, h2, on, x, h3, h4⟩
    · exact .inl h1
    · refine .inr ⟨h1, h2, on, x, by rw [ht3]; exact h3, ?_⟩
      rw [hr3, ha]
      show w1.t.reg.tvts e.pre e.prior = some x
      rw [hrest]
      exact (ext_escrowAL e (w.t.reg.fetch k).1 none [] []).tmono _ _ _ (by rw [fetch_rest]; exact h4)
  refine accepted_next (t := w3.t) hnt hsa ho3 hn3 hv3 ?_ ?_ ?_ ?_ hs
  · rw [hr3, ha]; exact hwt.stored
  · rw [hr3, ha]; simp [upd2]
  · rw [hr3, ha]; exact hwt.waits
  · intro x hx hxe
    rw [hr3, ha] at hx
    rcases hwt.only x hx with h1 | h1
    · exact absurd hxe (hfree x h1)
    · exact h1

/-- **C225, taking effect.** An issuance or revocation that a registry without backers has made takes its place in the log of the credential: told its seal, and once the key event
that seals it has come, at the next look at what waits, whatever key events come in between. Nothing else waits for the credential and no seal was told before. -/
theorem c225_sealed_partial (hnc : NoColl U) (hnt : NoCollT V) (hsa : SelfAddressing V) {w : World} (hw : Reached env U V w) {k : Id} {t : Tever} {e v : TEvt}
    (ht : (w.t.reg.fetch k).2 = some t) (hb : t.noBackers = true) (hp : env.kel.okPre e.pre = true) {d : Dig} {a : Ask}
    (ha : (∃ vci, a = .issue vci ∧ w.t.reg.tels vci = []) ∨ (∃ vci g, a = .revoke vci ∧ w.t.reg.tels vci = [(0, g)]))
    (he : (w.ask env false k d a).2 = .ok e) (hve : V e) (hv : Registered env w.t.node w.t.reg k v)
    (hfree : ∀ x ∈ w.t.reg.taes, x.1 ≠ e.pre) (hanc : w.t.reg.ancs e.pre e.said = none) {s : Nat} {g : Dig} (ks : List Kel.Inp)
    (hks : ∀ i ∈ ks, ∀ x, i.delivers = some x → U x)
    (hs : SealAt env (((w.ask env false k d a).1.anchor e.pre e.said (s, g)).run env (ks.map fun i => .node (.kel i))).t.node v.issuer s g e) :
    InLog ((((w.ask env false k d a).1.anchor e.pre e.said (s, g)).run env (ks.map fun i => .node (.kel i))).step env (.node (.passA true true))).t.reg e.pre e.sn e := by
  have hok := hw.ok hnc hnt
  obtain ⟨hbd, hq⟩ := ask_of_ok he
  rw [hq] at hs ⊢
  refine sealed_next hnc hnt hsa hok hve ?_ hv hfree hanc ks hks hs
  rcases ha with ⟨vci, rfl, hl⟩ | ⟨vci, g', rfl, hl⟩
  · have : e = issuance k d vci := by
      simp [build, ht, buildIss, hb] at hbd
      exact hbd.symm
    subst this
    exact next_issuance ht hb d hp hl
  · obtain ⟨x, _, _, hx, _⟩ := hok.ent vci 0 g' (by rw [hl]; simp)
    obtain ⟨_, hsd, _⟩ := hok.tvt _ _ _ hx
    have : e = revocation k d vci g' := by
      simp [build, hl, telGet, hx, protoOf, ht, buildRev, hb, hsd] at hbd
      exact hbd.symm
    subst this
    exact next_revocation ht hb d hp hl hx

/-- **C225, once.** A credential that has events in its log is not issued again: the call raises, and no log changes. -/
theorem c225_not_again (w : World) (signify : Bool) {k : Id} {t : Tever} (ht : (w.t.reg.fetch k).2 = some t) {vci : Id} (d : Dig) (hp : env.kel.okPre vci = true)
    (hl : w.t.reg.tels vci ≠ []) :
    (w.ask env signify k d (.issue vci)).2 = .error (.tel .likelyDuplicitous) ∧ (w.ask env signify k d (.issue vci)).1.t.reg.tels = w.t.reg.tels := by
  have hbd : build w.t.reg signify k d (.issue vci) = .ok (buildIss t k d vci) := by simp [build, ht]
  have hb : (buildIss t k d vci).pre = vci ∧ (buildIss t k d vci).regk = some k ∧ (buildIss t k d vci).badNum = false ∧ (buildIss t k d vci).sn = 0 ∧
      (buildIss t k d vci).ilk ≠ .vcp ∧ (buildIss t k d vci).ilk ≠ .vrt := by
    unfold buildIss
    split <;> simp [TEvt.regk, TEvt.badNum, TIlk.inceptive, blank]
  generalize buildIss t k d vci = e at hbd hb
  obtain ⟨h1, h2, h3, h4, h5, h6⟩ := hb
  have hpe : w.t.reg.processEvent env w.t.node true true e none [] = ((w.t.reg.fetch k).1, .error .likelyDuplicitous) := by
    unfold Reger.processEvent
    have hf : w.t.reg.fetch k = ((w.t.reg.fetch k).1, some t) := by rw [← ht]
    rw [if_neg (by simp [h1, hp]), h2]
    dsimp only
    rw [if_neg (by simp [h3]), if_neg (by simp [Reger.sourceBad]), hf]
    dsimp only
    have hlen : (w.t.reg.fetch k).1.nextSn t e ≠ 0 := by
      unfold Reger.nextSn
      rw [if_neg h6, h1]
      have : (w.t.reg.fetch k).1.tels = w.t.reg.tels := by rw [fetch_rest]
      rw [this]
      exact fun h => hl (List.length_eq_zero_iff.1 h)
    rw [if_neg h5, if_neg (by omega), if_neg (by omega)]
  unfold World.ask
  rw [hbd]
  dsimp only
  unfold World.process
  rw [hpe]
  refine ⟨rfl, ?_⟩
  show (w.t.reg.fetch k).1.tels = w.t.reg.tels
  rw [fetch_rest]

/-- **C225.** A credential without a first event is not revoked: the call raises and nothing changes. -/
theorem c225_not_unissued (w : World) (signify : Bool) (k : Id) (d : Dig) {vci : Id} (hl : ∀ x ∈ w.t.reg.tels vci, x.1 ≠ 0) :
    w.ask env signify k d (.revoke vci) = (w, .error .validation) := by
  have : telGet (w.t.reg.tels vci) 0 = none := by
    unfold telGet
    rw [List.find?_eq_none.2 (fun x hx => by simpa using hl x hx)]
    rfl
  unfold World.ask
  simp [build, this]

end Verif.Reg
