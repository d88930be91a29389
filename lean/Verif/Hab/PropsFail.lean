import Verif.Hab.PropsRotate

/-!
# Properties of habitats: default rotations, refused rotations, erased keys
-/

namespace Verif.Hab

open Verif.Kel
open Verif.Thold (Thold Sith)

/-- Nothing but seals is given. -/
structure Default (a : RotateArgs) : Prop where
  isith : a.isith = none
  nsith : a.nsith = none
  ncount : a.ncount = none
  toad : a.rot.toad = none
  cuts : a.rot.cuts = []
  adds : a.rot.adds = []

/-- No keys after the next ones are stored for `p`, as they are after a rotation that was refused. -/
def Clear (w : World) (p : Id) : Prop := ∀ s, w.ks.sits p = some s → w.ks.pubs p (s.nxt.ridx + 1) = none

theorem toadFor_live {t : Nat} {wits : List Id} (h : toadOk t wits = true) : toadFor (some t) wits = .ok t := by
  unfold toadOk at h
  unfold toadFor
  dsimp only
  rw [if_neg (by omega)]
  by_cases hw : wits = []
  · rw [if_pos hw] at h ⊢
    simp at h; subst h; simp
  · rw [if_neg hw] at h ⊢
    simp at h
    rw [if_pos (by omega)]
    simp

theorem advance_live {env : Env} {w : World} {M X : List Nat} (h : KsInv env.mgr M X w.ks w.mem) {p : Nat} {nc : Int} {a : RotateArgs} {s : Mgr.Sit}
    (hp : w.ks.prms.at' p ≠ none) (hs : w.ks.sits p = some s) (hne : s.nxt.pubs ≠ []) (hin : ∀ q ∈ s.nxt.pubs, w.ks.pris.at' q ≠ none)
    (hnc : 0 ≤ nc) (hc : (advance env w p nc a).2 ≠ .error .code) : ∃ L, Advanced env w p nc a s L := by
  rcases advance_cases h hc with ⟨x, hx⟩ | ⟨ps, L, adv⟩
  · exfalso
    have hr := replay_eq env.mgr w.ks w.mem p false hp hs
    have hv : Mgr.readPris env.mgr w.ks w.mem s.nxt.pubs = .ok s.nxt.pubs := by
      obtain ⟨m1, m2, m3, m4⟩ := h.enc.mgr w.mem rfl
      have hbox : w.ks.aeid.map env.mgr.boxA = w.mem.dec.map env.mgr.boxS := by rw [m4]; exact m3.box
      have hdec : w.ks.aeid.isSome → w.mem.dec.isSome := by
        intro hx
        rcases m3 with ⟨h1, _⟩ | ⟨a, s, _, h2, _⟩
        · rw [h1] at hx; simp at hx
        · rw [m4, h2]; rfl
      refine Mgr.readPris_present hdec fun k hkk => ?_
      obtain ⟨c, hcc⟩ := Option.ne_none_iff_exists'.1 (hin k hkk)
      refine ⟨c, hcc, ?_⟩
      rw [h.enc.shut.locked.pris k c hcc, Mgr.unlock_lock hbox]
    cases hpub : w.ks.pubs p (s.nxt.ridx + 1) with
    | some l =>
      simp only [hpub, hv] at hr
      unfold advance at hx
      rw [hr] at hx
      simp at hx
    | none =>
      simp only [hpub] at hr
      unfold advance at hx hc
      rw [hr] at hx hc
      dsimp only at hx hc
      rcases Mgr.rotate_ready (n := ⟨w.ks, some w.mem⟩) h.enc h.algos rfl hp hs hne hin ⟨[], nc, env.seed, true, a.temp, false, a.rsalt, a.rnd⟩ (.inr hnc) with
        ⟨d, hd⟩ | ⟨_, _, hd⟩
      · rw [hx] at hd; simp at hd
      · exact hc hd
  · have : s = ps := by have := adv.sits; rw [hs] at this; injection this
    subst this
    exact ⟨L, adv⟩

theorem sith_back {t : Thold} (hwf : ∀ cs, t = .wtd cs → Verif.Thold.WellFormed cs) : thold2 (Verif.Thold.sith t) = .ok t := by
  refine thold2_eq ?_
  unfold thold
  cases t with
  | num n => rw [(Verif.Thold.c14_numeric_roundtrip n).1]
  | wtd cs => rw [Verif.Thold.c14_sith_roundtrip cs (hwf cs rfl)]

/-- C133. A rotation without arguments succeeds: whenever all next keys together satisfy the next threshold, and no rotation was refused before. The new keys are the next ones,
as many new next keys are made, thresholds and witnesses stay. -/
theorem c133_default {env : Env} {U : Event → Prop} (hl : Laws env) (hnc : NoColl U) {w0 w : World} {M : List Nat} (h0 : Start env w0) (h : Hist env U w0 M w)
    (p : Id) (a : RotateArgs) (ha : Default a) (fit : Fit env U w (.rotate p a)) (hn : (M ++ madeBy env w (.rotate p a)).Nodup) (hM : GoodKeys env M)
    (hclear : Clear w p) (k : Kever) (hk : w.node.kevers p = some k) (hsat : Thold.satisfy k.nt (List.range k.ndigs.length) = true) :
    ∃ e, (exec env w (.rotate p a)).2 = .ok e ∧ e.kt = k.nt ∧ e.nt = k.nt ∧ e.ndigs.length = k.ndigs.length ∧ e.toad = k.toad ∧ e.cuts = [] ∧ e.adds = [] ∧
      e.sn = k.sn + 1 ∧ e.prior = k.serder.said ∧ e.keys.map env.mgr.dig = k.ndigs := by
  have hi := (Inv.start (U := U) h0).hist hl hnc h (by simpa using (List.nodup_append.1 hn).1)
  have hp := fit.own p rfl
  obtain ⟨s, h1, h2, sane, h3, _⟩ := hi.state p hp k hk
  obtain ⟨hnew, hnd⟩ := h3 (by simp)
  have hK := hi.reached.keys hnc p k hk
  have hlen : s.nxt.pubs.length = k.ndigs.length := by rw [hnd]; simp
  have hne : s.nxt.pubs ≠ [] := by
    intro h; rw [h] at hlen; exact range_ne hsat hlen.symm
  have hc : (advance env w p (a.ncount.getD k.ndigs.length) a).2 ≠ .error .code := by
    intro hc
    refine fit.sealed ?_
    show (rotate env w p a).2 = _
    unfold rotate
    rw [hk]
    dsimp only
    generalize advance env w p (a.ncount.getD k.ndigs.length) a = r at hc
    obtain ⟨ws, r⟩ := r
    dsimp only at hc
    subst hc
    rfl
  obtain ⟨L, adv⟩ := advance_live hi.ks h1 h2 hne (fun x hx => hi.ks.whole p 2 x (by simp) (by omega) ⟨s, h1, h2, hx⟩) (by rw [ha.ncount]; simp) hc
  have hL : L.length = k.ndigs.length := by
    rcases adv.how with ⟨g, _⟩ | ⟨_, _, g, _⟩
    · rw [hclear s h2] at g; simp at g
    · rw [g, ha.ncount]; simp
  have hpos : k.nt ≠ .num 0 := by
    intro h0
    rw [h0] at hsat
    simp [Thold.satisfy, Verif.Thold.satisfyNum] at hsat
  have hb : ∃ e, rotEvent env k ⟨s.nxt.pubs, L.map env.mgr.dig⟩ a = .ok e ∧ e.kt = k.nt ∧ e.nt = k.nt ∧ e.toad = k.toad ∧ e.cuts = [] ∧ e.adds = [] := by
    unfold rotEvent
    rw [ha.isith, ha.nsith]
    dsimp only [Option.getD]
    rw [sith_back sane.nwf]
    dsimp only
    rw [if_neg (by rw [hnd, revealed_all hl, hlen, hsat]; simp)]
    unfold buildRot
    dsimp only
    have hw := oset_of_nodup k.wits hK.wits
    have : ioPut (k.wits.filter fun w => !decide (w ∈ ([] : List Id))) [] = k.wits := by
      rw [List.filter_eq_self.2 (by simp)]; rfl
    rw [ha.cuts, ha.adds, ha.toad, hw, if_neg (by split <;> simp), if_neg (by omega), if_neg (by simp [signingThold, hpos, hlen, sane.nsize]),
      if_neg (by simp only [List.length_map]; have := sane.nsize; omega), if_neg (by simp), if_neg (by simp [oset, ioPut]), if_neg (by simp [Kel.cutsOk, oset, ioPut]), if_neg (by simp [oset, ioPut]),
      if_neg (by simp), if_neg (by simp), this, if_neg (by simp)]
    simp only [Option.isNone_none, List.isEmpty_nil, Bool.and_self, if_true]
    rw [toadFor_live hK.toad]
    exact ⟨_, rfl, rfl, rfl, rfl, rfl, rfl⟩
  obtain ⟨e, hb, b1, b2, b3, b4, b5⟩ := hb
  have ev : eventOf env w (.rotate p a) = some e := by simp [eventOf, hk, adv.ok, hb, Except.toOption]
  obtain ⟨says, _⟩ := rotEvent_says hb
  refine ⟨e, (c132_rotate hl hnc h0 h p a fit hn hM (by rw [ha.adds]; intro x hx; simp at hx) e).2 ev, b1, b2, by rw [says.ndigs]; simpa using hL, b3, b4, b5, says.sn, says.prior, ?_⟩
  rw [says.keys, hnd]

/-- After a call that makes or rotates an identifier there are no keys after the next ones. -/
theorem c133_clear {env : Env} {U : Event → Prop} (hl : Laws env) (hnc : NoColl U) {w0 w : World} {M : List Nat} (h0 : Start env w0) (h : Hist env U w0 M w)
    (c : Call) (hc : (∃ a, c = .make a) ∨ ∃ p a, c = .rotate p a) (fit : Fit env U w c) (hn : (M ++ madeBy env w c).Nodup) (e : Event) (he : (exec env w c).2 = .ok e) :
    Clear (exec env w c).1 e.pre := by
  have hi := (Inv.start (U := U) h0).hist hl hnc h (by simpa using (List.nodup_append.1 hn).1)
  rcases hc with ⟨a, rfl⟩ | ⟨p, a, rfl⟩
  · have hex : exec env w (.make a) = make env w a := rfl
    cases make_did hl hi fit (by simpa using hn) with
    | noKeys x made none eq => rw [hex, eq] at he; simp at he
    | unfinished ks' inv frame x why eq => rw [hex, eq] at he; simp at he
    | refused ks' inv frame e ev fresh taken x why eq => rw [hex, eq] at he; simp at he
    | done ks' inv frame pubs nxts keys e' built fresh taken prms sits clear n k1 took node sane hkeys hnd hserder name eq =>
      rw [hex, eq] at he
      injection he with he
      subst he
      rw [hex, eq]
      intro s hs
      have hs : ks'.sits e'.pre = some s := hs
      rw [sits] at hs
      injection hs with hs
      subst hs
      exact clear
  · have hex : exec env w (.rotate p a) = rotate env w p a := rfl
    have hp := fit.own p rfl
    cases hk : w.node.kevers p with
    | none =>
      have h2 : exec env w (.rotate p a) = (w, .error .attr) := by rw [hex]; unfold Hab.rotate; rw [hk]
      rw [h2] at he; simp at he
    | some k =>
    have hmade : madeBy env w (.rotate p a) = Mgr.storedKeys (advance env w p (a.ncount.getD k.ndigs.length) a).1 := by simp [madeBy, hk]
    cases rotate_did hl hi hp hk fit (by simpa using hn) with
    | noKeys x made none eq => rw [hex, eq] at he; simp at he
    | refused ps L adv x why eq => rw [hex, eq] at he; simp at he
    | done ps L adv e' n fn wits cuts adds mine built took node g1 g2 g3 sat eq =>
      rw [hex, eq] at he
      injection he with he
      subst he
      obtain ⟨t, ki⟩ := adv.turn hi.ks true (by rw [← hmade]; simpa using hn)
      obtain ⟨kx, hkx⟩ := t.sits
      obtain ⟨s0, h1, h2, sane, h3, _⟩ := hi.state p hp k hk
      have hpre : e'.pre = p := (rotEvent_says built).1.pre.trans sane.pre
      rw [hex, eq, hpre]
      intro s hs
      have hs : (turned env w p (a.ncount.getD k.ndigs.length) a ps true).sits p = some s := hs
      rw [hkx] at hs
      injection hs with hs
      subst hs
      show (turned env w p (a.ncount.getD k.ndigs.length) a ps true).pubs p (ps.nxt.ridx + 1 + 1) = none
      rw [t.pubs _ (by omega)]
      exact hi.ks.stop p ps h1 adv.sits _ (by omega)

/-- C134. A rotation that raises leaves everything as it was, except for new keys after the next ones: the node, the sequences of keys, and all stored private keys. -/
theorem c134_refused {env : Env} {U : Event → Prop} (hl : Laws env) (hnc : NoColl U) {w0 w : World} {M : List Nat} (h0 : Start env w0) (h : Hist env U w0 M w)
    (p : Id) (a : RotateArgs) (fit : Fit env U w (.rotate p a)) (hn : (M ++ madeBy env w (.rotate p a)).Nodup) (x : Fail) (he : (exec env w (.rotate p a)).2 = .error x) :
    (exec env w (.rotate p a)).1.node = w.node ∧ (exec env w (.rotate p a)).1.ks.sits = w.ks.sits ∧ (∀ q, (exec env w (.rotate p a)).1.ks.prms.at' q = w.ks.prms.at' q) ∧
      (∀ q, w.ks.pris.at' q ≠ none → (exec env w (.rotate p a)).1.ks.pris.at' q ≠ none) ∧
      ∀ q j, (∀ s, q = p → w.ks.sits p = some s → j ≠ s.nxt.ridx + 1) → (exec env w (.rotate p a)).1.ks.pubs q j = w.ks.pubs q j := by
  have hi := (Inv.start (U := U) h0).hist hl hnc h (by simpa using (List.nodup_append.1 hn).1)
  have hex : exec env w (.rotate p a) = rotate env w p a := rfl
  have hp := fit.own p rfl
  cases hk : w.node.kevers p with
  | none =>
    have h2 : exec env w (.rotate p a) = (w, .error .attr) := by rw [hex]; unfold Hab.rotate; rw [hk]
    rw [h2]; exact ⟨rfl, rfl, fun _ => rfl, fun _ h => h, fun _ _ _ => rfl⟩
  | some k =>
  have hmade : madeBy env w (.rotate p a) = Mgr.storedKeys (advance env w p (a.ncount.getD k.ndigs.length) a).1 := by simp [madeBy, hk]
  cases rotate_did hl hi hp hk fit (by simpa using hn) with
  | noKeys x made none eq => rw [hex, eq]; exact ⟨rfl, rfl, fun _ => rfl, fun _ h => h, fun _ _ _ => rfl⟩
  | done ps L adv e n fn wits cuts adds mine built took node g1 g2 g3 sat eq => rw [hex, eq] at he; simp at he
  | refused ps L adv x why eq =>
    obtain ⟨b, _⟩ := adv.back hi.ks (by rw [← hmade]; simpa using hn)
    rw [hex, eq]
    exact ⟨rfl, funext b.sits, b.prms, b.kept, fun q j hq => b.pubs q j (by rintro ⟨rfl, rfl⟩; exact hq ps rfl adv.sits rfl)⟩

/-- The stash. When keys after the next ones are stored, as after a refused rotation, then they become the next keys, however many are asked for. -/
theorem c134_stash {env : Env} {U : Event → Prop} (hl : Laws env) (hnc : NoColl U) {w0 w : World} {M : List Nat} (h0 : Start env w0) (h : Hist env U w0 M w) (hn : M.Nodup)
    (p : Id) (s : Mgr.Sit) (hs : w.ks.sits p = some s) (L : List Nat) (hL : w.ks.pubs p (s.nxt.ridx + 1) = some L)
    (a : RotateArgs) (e : Event) (he : eventOf env w (.rotate p a) = some e) : e.ndigs = L.map env.mgr.dig ∧ madeBy env w (.rotate p a) = [] := by
  have hi := (Inv.start (U := U) h0).hist hl hnc h (by simpa using hn)
  cases hk : w.node.kevers p with
  | none => simp [eventOf, hk] at he
  | some k =>
  have hc : (advance env w p (a.ncount.getD k.ndigs.length) a).2 ≠ .error .code := by
    intro hc; simp [eventOf, hk, hc] at he
  rcases advance_cases hi.ks hc with ⟨x, hx⟩ | ⟨ps, L', adv⟩
  · simp [eventOf, hk, hx] at he
  have : s = ps := by have := adv.sits; rw [hs] at this; injection this
  subst this
  rcases adv.stored with ⟨_, g⟩ | ⟨g1, g2⟩
  · rw [hL] at g; simp at g
  rw [hL] at g2
  injection g2 with g2
  subst g2
  refine ⟨?_, by simp [madeBy, hk, g1]⟩
  simp only [eventOf, hk, adv.ok] at he
  cases hr : rotEvent env k ⟨s.nxt.pubs, L.map env.mgr.dig⟩ a with
  | error x => rw [hr] at he; simp [Except.toOption] at he
  | ok e' =>
    rw [hr] at he
    simp [Except.toOption] at he
    subst he
    exact (rotEvent_says hr).1.ndigs

/-- C135. A rotation that succeeds erases the private keys that were in use before the last ones, and no others; the keys that were current stay stored, the next ones are current. -/
theorem c135_erased {env : Env} {U : Event → Prop} (hl : Laws env) (hnc : NoColl U) {w0 w : World} {M : List Nat} (h0 : Start env w0) (h : Hist env U w0 M w)
    (p : Id) (a : RotateArgs) (fit : Fit env U w (.rotate p a)) (hn : (M ++ madeBy env w (.rotate p a)).Nodup) (e : Event) (he : (exec env w (.rotate p a)).2 = .ok e) :
    ∃ s s', w.ks.sits p = some s ∧ (exec env w (.rotate p a)).1.ks.sits p = some s' ∧ s'.old = s.new ∧ s'.new = s.nxt ∧ e.keys = s.nxt.pubs ∧
      (∀ q ∈ s.old.pubs, (exec env w (.rotate p a)).1.ks.pris.at' q = none) ∧
      (∀ q, q ∉ s.old.pubs → w.ks.pris.at' q ≠ none → (exec env w (.rotate p a)).1.ks.pris.at' q ≠ none) := by
  have hi := (Inv.start (U := U) h0).hist hl hnc h (by simpa using (List.nodup_append.1 hn).1)
  have hex : exec env w (.rotate p a) = rotate env w p a := rfl
  have hp := fit.own p rfl
  cases hk : w.node.kevers p with
  | none =>
    have h2 : exec env w (.rotate p a) = (w, .error .attr) := by rw [hex]; unfold Hab.rotate; rw [hk]
    rw [h2] at he; simp at he
  | some k =>
  have hmade : madeBy env w (.rotate p a) = Mgr.storedKeys (advance env w p (a.ncount.getD k.ndigs.length) a).1 := by simp [madeBy, hk]
  cases rotate_did hl hi hp hk fit (by simpa using hn) with
  | noKeys x made none eq => rw [hex, eq] at he; simp at he
  | refused ps L adv x why eq => rw [hex, eq] at he; simp at he
  | done ps L adv e' n fn wits cuts adds mine built took node g1 g2 g3 sat eq =>
    rw [hex, eq] at he
    injection he with he
    subst he
    obtain ⟨t, ki⟩ := adv.turn hi.ks true (by rw [← hmade]; simpa using hn)
    obtain ⟨kx, hkx⟩ := t.sits
    rw [hex, eq]
    exact ⟨ps, _, adv.sits, hkx, rfl, rfl, (rotEvent_says built).1.keys, t.gone rfl, fun q hq h => t.kept q (fun _ => hq) h⟩

end Verif.Hab
