import Verif.TelRep.Props
import Verif.Kel.Val
/-! # Replay of the logs of registries with backers -/

namespace Verif.TelRep

open Verif.Kel (Id Dig Sig Couple Event Node NoColl upd upd2 oset oset_of_nodup)
open Verif.Tel

variable {env : TEnv} {U : Event → Prop} {V : TEvt → Prop}

/-- A registry with different backers that can be used and a threshold in bounds, not rotated, and a credential all of whose events refer to the registry's inception. -/
structure PlainB (env : TEnv) (S : Reger) (k p : Id) (v : TEvt) : Prop where
  log : S.tels k = [(0, k)]
  stored : S.tvts k k = some v
  ilk : v.ilk = .vcp
  nb : v.noBackers = false
  baks : v.baks ≠ [] ∧ v.baks.Nodup ∧ ∀ b ∈ v.baks, env.kel.okKey b = true
  toad : 1 ≤ v.toad ∧ v.toad ≤ v.baks.length
  ne : p ≠ k
  ok : env.kel.okPre k = true ∧ env.kel.okPre p = true
  of : ∀ on d e, (on, d) ∈ S.tels p → S.tvts p d = some e → e.regk = some k ∧ e.raD = k

/-- Enough stored signatures of each event in the log of `p` are those of backers. -/
def Backed (env : TEnv) (S : Reger) (v : TEvt) (p : Id) : Prop :=
  ∀ on d e, (on, d) ∈ S.tels p → S.tvts p d = some e → v.toad ≤ (verifyBigs env e (S.tibs p d) v.baks).length

/-- The receiver. -/
structure GotB (S : Reger) (l : List Id) (k p : Id) (v : TEvt) (D : List (Nat × Dig)) (r : Reger) : Prop extends Got S l k p v D r where
  inc : r.tvts k k = some v
  bak : r.baks k k = v.baks

theorem val_ok {n : Node} {r : Reger} {v e : TEvt} {k : Id} {s y : Nat} {sigs : List Sig} (hok : ∀ b ∈ v.baks, env.kel.okKey b = true)
    (ht : v.toad ≤ v.baks.length) (hseal : SealAt env n v.issuer s y e) (hb : v.toad ≤ (verifyBigs env e sigs v.baks).length) :
    valAnchorBigs env n r v.issuer k false e (some (s, y)) sigs v.toad v.baks = (r, .ok ((s, y), verifyBigs env e sigs v.baks)) := by
  have hva : verifyAnchor env n v.issuer e (some (s, y)) = .ok true := verifyAnchor_at hseal
  unfold valAnchorBigs
  rw [if_neg (by simpa using hok)]
  dsimp only
  rw [hva]
  dsimp only
  by_cases hc : v.baks ≠ [] ∧ false = false ∧ k ∉ v.baks
  · rw [if_pos hc, if_neg (by omega), if_neg (by omega)]
  · rw [if_neg hc]

theorem gotB_first {t : TNode} (hi : TInv env U V t.node t.reg) {k p : Id} {v : TEvt} (hp : PlainB env t.reg k p v) {n : Node}
    (hs : Seals env n t.reg v.issuer k) (hb : Backed env t.reg v k) {l : List Id} (hl : k ∉ l) {m : TMsg} (hm : Sent t.reg k k m) :
    GotB t.reg l k p v [] (receive env n { Reger.empty with registries := l } m) := by
  obtain ⟨s, y, hc, hseal⟩ := hs 0 k v (by rw [hp.log]; simp) hp.stored
  have hbs := hb 0 k v (by rw [hp.log]; simp) hp.stored
  obtain ⟨hpre, hsaid, hV⟩ := hi.tvt k k v hp.stored
  obtain ⟨e', k', v', he', hsn, _⟩ := hi.ent k 0 k (by rw [hp.log]; simp)
  rw [hp.stored] at he'
  cases he'
  obtain ⟨h1, h2, h3⟩ := hm
  rw [hp.stored] at h1
  obtain ⟨me, mc, ms⟩ := m
  simp only [Option.some.injEq] at h1 h2 h3
  subst h1
  rw [hc] at h2
  subst h2
  rw [← h3] at hbs
  have hos := oset_of_nodup v.baks hp.baks.2.1
  generalize hbse : verifyBigs env v ms v.baks = bs at hbs
  have hpr : receive env n { Reger.empty with registries := l } ⟨v, some (s, y), ms⟩ =
      { (({ Reger.empty with registries := l } : Reger).logEvent v (s, y) bs v.baks) with
        tevers := upd (({ Reger.empty with registries := l } : Reger).logEvent v (s, y) bs v.baks).tevers k (some (newTever false v)),
        states := upd (({ Reger.empty with registries := l } : Reger).logEvent v (s, y) bs v.baks).states k (some (newTever false v).state) } := by
    unfold receive Reger.processEvent
    dsimp only
    rw [hpre, hp.ok.1, show v.regk = some k by simp [TEvt.regk, hp.ilk, hpre]]
    dsimp only
    rw [if_neg (by simp), if_neg (by simp [TEvt.badNum, hp.ilk, TIlk.inceptive, hsn]), if_neg (by simp [Reger.sourceBad, hl])]
    simp only [Reger.fetch, Reger.empty]
    rw [if_pos hp.ilk]
    unfold Reger.incept
    rw [if_neg (by rw [hos]; simp), if_neg (by simp [toadOk, hp.baks.1, hp.toad]), val_ok hp.baks.2.2 hp.toad.2 hseal (hbse ▸ hbs), hbse]
    simp only [newTever, hpre]
  rw [hpr]
  have h0 : Part t.reg { Reger.empty with registries := l } := ⟨fun _ _ => .inl rfl, fun _ _ => .inl rfl⟩
  obtain ⟨q1, q2, q3, q4, q5⟩ := h0.log (e := v) (c := (s, y)) (by rw [hpre, hsaid]; exact hp.stored) (by rw [hpre, hsaid]; exact hc) bs v.baks
  obtain ⟨g1, g2, g3, g4, g5, g6⟩ := log_parts { Reger.empty with registries := l } v (s, y) bs v.baks
  refine ⟨⟨⟨q1.tvt, q1.anc⟩, ?_, ?_, by simp [upd], g5, fun _ h => (by cases h), fun _ h => (by cases h)⟩, by rw [hpre, hsaid] at q2; exact q2, ?_⟩
  · show (Reger.logEvent _ v (s, y) bs v.baks).tels k = _
    rw [g1, hpre]
    simp [upd, Reger.empty, telPut, hsn, hsaid]
  · show (Reger.logEvent _ v (s, y) bs v.baks).tels p = _
    rw [g1, hpre]
    simp [upd, Reger.empty, hp.ne]
  · show (Reger.logEvent _ v (s, y) bs v.baks).baks k k = _
    rw [g6, if_neg hp.baks.1, hpre, hsaid, hos]
    simp [upd2]

theorem from_drop : ∀ (D : List (Nat × Dig)) (a : Nat) (R : List (Nat × Dig)), From a (D ++ R) → From (a + D.length) R := by
  intro D
  induction D with
  | nil => intro a R hh; exact hh
  | cons z zs ih =>
    intro a R hh
    have := ih (a + 1) R hh.2
    rw [show a + (z :: zs).length = a + 1 + zs.length by simp; omega]
    exact this

theorem from_take : ∀ (D : List (Nat × Dig)) (a : Nat) (R : List (Nat × Dig)), From a (D ++ R) → From a D := by
  intro D
  induction D with
  | nil => intro _ _ _; trivial
  | cons z zs ih => exact fun a R hh => ⟨hh.1, ih (a + 1) R hh.2⟩

theorem from_find : ∀ (D : List (Nat × Dig)) (a : Nat) (z : Nat × Dig), From a D → z ∈ D → D.find? (fun x => decide (x.1 = z.1)) = some z := by
  intro D
  induction D with
  | nil => intro _ _ _ h; cases h
  | cons y ys ih =>
    intro a z hf hz
    rw [List.find?_cons]
    rcases List.mem_cons.mp hz with hz | hz
    · subst hz
      simp
    · have h1 := (from_mem ys (a + 1) z hf.2 hz).1
      have h2 := hf.1
      rw [show (decide (y.1 = z.1)) = false from decide_eq_false (by omega)]
      exact ih (a + 1) z hf.2 hz

theorem gotB_next {t : TNode} (hi : TInv env U V t.node t.reg) (hsa : SelfAddressing V) {k p : Id} {v : TEvt} (hp : PlainB env t.reg k p v) {n : Node}
    (hs : Seals env n t.reg v.issuer p) (hb : Backed env t.reg v p) {l : List Id} (hl : k ∉ l) {D : List (Nat × Dig)} {r : Reger} (hg : GotB t.reg l k p v D r) {x : Nat × Dig}
    {rest : List (Nat × Dig)} (hD : D ++ x :: rest = t.reg.tels p) {m : TMsg} (hm : Sent t.reg p x.2 m) : GotB t.reg l k p v (D ++ [x]) (receive env n r m) := by
  obtain ⟨on, d⟩ := x
  have hmem : (on, d) ∈ t.reg.tels p := by rw [← hD]; simp
  have hord := hi.ord p
  have hon : on = D.length := by
    have := from_get (t.reg.tels p) 0 D.length hord
    rw [← hD] at this
    simpa using this
  obtain ⟨e, k', w, he, hsn, hrk, hreg, _, _, hinc, hsk, _, hrev⟩ := hi.ent p on d hmem
  obtain ⟨hpre, hsaid, hV⟩ := hi.tvt p d e he
  obtain ⟨hof, hraD⟩ := hp.of on d e hmem he
  have hk : k' = k := by
    rw [hrk] at hof
    injection hof
  subst hk
  have hwv : w = v := by
    have h1 := hsa w (hi.tvt _ _ _ hreg.stored).2.2 hreg.ilk
    have h2 := hreg.stored
    rw [← h1, hreg.pre, hp.stored] at h2
    cases h2
    rfl
  subst hwv
  obtain ⟨s, y, hc, hseal⟩ := hs on d e hmem he
  have hbs := hb on d e hmem he
  obtain ⟨h1, h2, h3⟩ := hm
  obtain ⟨me, mc, ms⟩ := m
  dsimp only at h1 h2 h3
  rw [he] at h1
  cases h1
  rw [hc] at h2
  subst h2
  rw [← h3] at hbs
  have hkind : e.ilk = .bis ∨ e.ilk = .brv := by
    have hb : ¬ (e.ilk = .iss ∨ e.ilk = .rev) := fun h => by
      have := hsk h
      rw [hp.nb] at this
      cases this
    have hne : e.pre ≠ k' := hpre ▸ hp.ne
    unfold TEvt.regk at hrk
    cases hilk : e.ilk <;> rw [hilk] at hrk hb <;> simp at hrk hb ⊢
    all_goals exact hne hrk
  have hri : e.raI = k' := by
    unfold TEvt.regk at hrk
    rcases hkind with h | h <;> rw [h] at hrk <;> injection hrk
  have hnext : r.nextSn (newTever false w) e = e.sn := by
    unfold Reger.nextSn
    rw [if_neg (by rcases hkind with h | h <;> rw [h] <;> decide), hpre, hg.cred, hsn, hon]
  have hback : r.backed env n (newTever false w) e (some (s, y)) ms = (r.logEvent e (s, y) (verifyBigs env e ms w.baks) [], .ok ()) := by
    have hbst : r.backerState (newTever false w) e = .ok (w.toad, w.baks) := by
      unfold Reger.backerState
      rw [if_neg (by simp [newTever, hri, hreg.pre]), hri, hraD, hg.inc]
      dsimp only
      rw [hp.ilk, hg.bak]
    unfold Reger.backed
    rw [hbst]
    dsimp only
    rw [show (newTever false w).pre = w.issuer from rfl, show (newTever false w).isLocal = false from rfl, val_ok hp.baks.2.2 hp.toad.2 hseal hbs]
  have hpr : receive env n r ⟨e, some (s, y), ms⟩ = r.logEvent e (s, y) (verifyBigs env e ms w.baks) [] := by
    unfold receive Reger.processEvent
    dsimp only
    rw [hpre, hp.ok.2, hrk]
    dsimp only
    rw [if_neg (by simp), if_neg (by
        unfold TEvt.badNum
        cases hii : e.ilk.inceptive with
        | true => simp [hsn, hinc.mp hii]
        | false =>
          have : ¬ on = 0 := fun h0 => by rw [hinc.mpr h0] at hii; cases hii
          simp [hsn, this]), if_neg (by simp [Reger.sourceBad, hg.own, hl])]
    simp only [Reger.fetch, hg.tev]
    rw [if_neg (by rcases hkind with h | h <;> rw [h] <;> decide), hnext, if_neg (by omega), if_pos rfl]
    rcases hkind with h | h
    · unfold Reger.update Reger.issue
      rw [h]
      dsimp only
      rw [if_neg (by simp [newTever, hp.nb]), hback]
    · have h0 : on ≠ 0 := fun h0 => by
        have := hinc.mpr h0
        rw [h] at this
        cases this
      have hpm : (on - 1, e.prior) ∈ t.reg.tels p := hrev (by rw [h]; rfl)
      have hpD : (on - 1, e.prior) ∈ D := by
        rw [← hD] at hpm hord
        rcases List.mem_append.mp hpm with hpm | hpm
        · exact hpm
        · exfalso
          have := (from_mem _ _ _ (from_drop D 0 _ hord) hpm).1
          dsimp only at this
          omega
      have hget : telGet (r.tels p) (on - 1) = some e.prior := by
        rw [hg.cred]
        unfold telGet
        rw [from_find D 0 (on - 1, e.prior) (from_take D 0 _ (hD ▸ hord)) hpD]
        rfl
      have hst : r.tvts p e.prior = t.reg.tvts p e.prior := hg.tvt _ hpD
      obtain ⟨f, _, _, hf, _⟩ := hi.ent p (on - 1) e.prior hpm
      have hfs := (hi.tvt p e.prior f hf).2.1
      unfold Reger.update Reger.revoke
      rw [h]
      dsimp only
      rw [hpre, hsn, hget]
      dsimp only
      rw [hst, hf]
      dsimp only
      rw [if_neg (by simp [hfs]), if_neg (by simp [newTever, hp.nb]), hback]
  rw [hpr]
  generalize verifyBigs env e ms w.baks = bs
  obtain ⟨q1, q2, q3, q4, q5⟩ := hg.part.log (e := e) (c := (s, y)) (by rw [hpre, hsaid]; exact he) (by rw [hpre, hsaid]; exact hc) bs []
  obtain ⟨g1, g2, g3, g4, g5, g6⟩ := log_parts r e (s, y) bs []
  have hDf : From 0 D := from_take D 0 _ (hD ▸ hord)
  refine ⟨⟨q1, ?_, ?_, by rw [g4]; exact hg.tev, by rw [g5]; exact hg.own, fun z hz => ?_, fun z hz => ?_⟩, ?_, by rw [g6, if_pos rfl]; exact hg.bak⟩
  · rw [g1, hpre]
    unfold upd
    rw [if_neg (Ne.symm hp.ne)]
    exact hg.reg
  · rw [g1, hpre]
    unfold upd
    rw [if_pos rfl, hg.cred, hsn, hsaid, hon]
    have := telPut_new D 0 d hDf
    simpa using this
  · rcases List.mem_append.mp hz with hz | hz
    · exact q4 _ _ (hg.tvt z hz)
    · rw [List.mem_singleton] at hz
      subst hz
      rw [hpre, hsaid] at q2
      rw [q2, he]
  · rcases List.mem_append.mp hz with hz | hz
    · exact q5 _ _ (hg.anc z hz)
    · rw [List.mem_singleton] at hz
      subst hz
      rw [hpre, hsaid] at q3
      rw [q3, hc]
  · rw [q4 k' k' (by rw [hg.inc, hp.stored]), hp.stored]

theorem gotB_all {t : TNode} (hi : TInv env U V t.node t.reg) (hsa : SelfAddressing V) {k p : Id} {v : TEvt} (hp : PlainB env t.reg k p v) {n : Node}
    (hs : Seals env n t.reg v.issuer p) (hb : Backed env t.reg v p) {l : List Id} (hl : k ∉ l) (rest : List (Nat × Dig)) {D : List (Nat × Dig)} {r : Reger}
    (hg : GotB t.reg l k p v D r) (hD : D ++ rest = t.reg.tels p) {ms : List TMsg} (hm : Each (fun (x : Nat × Dig) m => Sent t.reg p x.2 m) rest ms) :
    GotB t.reg l k p v (t.reg.tels p) (replay env n r ms) := by
  induction rest generalizing D r ms with
  | nil =>
    cases hm
    rw [List.append_nil] at hD
    exact hD ▸ hg
  | cons x rest ih =>
    cases hm with
    | cons h1 h2 => exact ih (gotB_next hi hsa hp hs hb hl hg hD h1) (by rw [List.append_assoc]; exact hD) h2

/-- C232, of registries with backers that were not rotated: if moreover enough of the stored signatures are those of backers, the receiver has the same logs and reports the same state. -/
theorem c232_replayed_backed_partial (hnc : NoColl U) (hnt : NoCollT V) (hsa : SelfAddressing V) {t : TNode} (h : TReached env U V t) {k p : Id} {v : TEvt}
    (hp : PlainB env t.reg k p v) {n : Node} (hk : Seals env n t.reg v.issuer k) (hs : Seals env n t.reg v.issuer p) (hbk : Backed env t.reg v k) (hb : Backed env t.reg v p)
    {l : List Id} (hl : k ∉ l) {tv : Tever} (ht : (t.reg.fetch k).2 = some tv) :
    ∃ ms r tv', tels t.reg k (some p) = .ok (some ms) ∧ r = replay env n { Reger.empty with registries := l } ms ∧ r.tels k = t.reg.tels k ∧ r.tels p = t.reg.tels p ∧
      (r.fetch k).2 = some tv' ∧ r.vcState tv' p = t.reg.vcState tv p := by
  have hi := h.inv hnc hnt
  obtain ⟨ms, ms', h2, h2', _, ha⟩ := c232_answered hnc hnt h k p
  rw [if_neg (by rw [hp.log]; simp)] at ha
  have hlog := hp.log
  rw [hlog] at h2
  cases h2 with
  | @cons _ m _ _ hm hnil =>
    cases hnil
    have g0 := gotB_first hi hp hk hbk hl hm
    have g := gotB_all hi hsa hp hs hb hl (t.reg.tels p) g0 rfl h2'
    refine ⟨_, _, newTever false v, ha, rfl, ?_, ?_, ?_, ?_⟩
    · show (replay env n (receive env n _ m) ms').tels k = _
      rw [g.reg, hlog]
    · exact g.cred
    · show ((replay env n (receive env n _ m) ms').fetch k).2 = _
      simp only [Reger.fetch, g.tev]
    · exact same_state hi hsa hp.stored ht g.toGot

end Verif.TelRep
