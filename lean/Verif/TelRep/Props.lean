import Verif.TelRep.Model
/-! # Queries for transaction event logs: what is sent, and what becomes of it elsewhere -/

namespace Verif.TelRep

open Verif.Kel (Id Dig Sig Couple Event Node NoColl upd upd2 oset)
open Verif.Tel

variable {env : TEnv} {U : Event → Prop} {V : TEvt → Prop}

/-- Lists of equal length whose elements are related one by one. -/
inductive Each {α β : Type} (R : α → β → Prop) : List α → List β → Prop
  | nil : Each R [] []
  | cons {a b l m} : R a b → Each R l m → Each R (a :: l) (b :: m)

theorem each_nil {α β : Type} {R : α → β → Prop} {l : List α} {m : List β} (h : Each R l m) : m = [] ↔ l = [] := by
  cases h <;> simp

/-- The message is the event at digest `d` in the log of `p`, with what is stored of it. -/
def Sent (r : Reger) (p : Id) (d : Dig) (m : TMsg) : Prop := r.tvts p d = some m.e ∧ m.c = r.ancs p d ∧ m.sigs = r.tibs p d

theorem cloneEach_ok (r : Reger) (p : Id) (l : List (Nat × Dig)) (h : ∀ x ∈ l, ∃ e, r.tvts p x.2 = some e) :
    ∃ ms, cloneEach r p l = .ok ms ∧ Each (fun (x : Nat × Dig) m => Sent r p x.2 m) l ms := by
  induction l with
  | nil => exact ⟨[], rfl, .nil⟩
  | cons x xs ih =>
    obtain ⟨e, he⟩ := h x (by simp)
    obtain ⟨ms, h1, h2⟩ := ih fun y hy => h y (by simp [hy])
    refine ⟨⟨e, r.ancs p x.2, r.tibs p x.2⟩ :: ms, ?_, .cons ⟨he, rfl, rfl⟩ h2⟩
    simp only [cloneEach, cloneTvt, he, h1]

theorem clonePre_ok {t : TNode} (hi : TInv env U V t.node t.reg) (p : Id) :
    ∃ ms, clonePre t.reg p 0 = .ok ms ∧ Each (fun (x : Nat × Dig) m => Sent t.reg p x.2 m) (t.reg.tels p) ms := by
  have hf : ((t.reg.tels p).filter fun x => decide (0 ≤ x.1)) = t.reg.tels p := List.filter_eq_self.mpr fun x _ => by simp
  obtain ⟨ms, h1, h2⟩ := cloneEach_ok t.reg p (t.reg.tels p) fun x hx => by
    obtain ⟨e, _, _, he, _⟩ := hi.ent p x.1 x.2 hx
    exact ⟨e, he⟩
  exact ⟨ms, by rw [clonePre, hf, h1], h2⟩

/-- C232: in every state reached, a query is answered with exactly the entries of the registry's log and then those of the credential's, in order, each with the source seal and signatures that
are stored; nothing is sent only if there is nothing. -/
theorem c232_answered (hnc : NoColl U) (hnt : NoCollT V) {t : TNode} (h : TReached env U V t) (ri vci : Id) :
    ∃ ms ms', Each (fun (x : Nat × Dig) m => Sent t.reg ri x.2 m) (t.reg.tels ri) ms ∧ Each (fun (x : Nat × Dig) m => Sent t.reg vci x.2 m) (t.reg.tels vci) ms' ∧
      tels t.reg ri none = .ok (if t.reg.tels ri = [] then none else some ms) ∧
      tels t.reg ri (some vci) = .ok (if t.reg.tels ri = [] ∧ t.reg.tels vci = [] then none else some (ms ++ ms')) := by
  have hi := h.inv hnc hnt
  obtain ⟨ms, h1, h2⟩ := clonePre_ok hi ri
  obtain ⟨ms', h1', h2'⟩ := clonePre_ok hi vci
  have e1 : ms = [] ↔ t.reg.tels ri = [] := each_nil h2
  have e2 : ms' = [] ↔ t.reg.tels vci = [] := each_nil h2'
  refine ⟨ms, ms', h2, h2', ?_, ?_⟩
  · simp only [tels, h1, e1]
  · simp only [tels, h1, h1', List.append_eq_nil_iff, e1, e2]

theorem cloneEach_missing (r : Reger) (p : Id) (l : List (Nat × Dig)) {x : Nat × Dig} (hx : x ∈ l) (h : r.tvts p x.2 = none) : cloneEach r p l = .error .missingEntry := by
  induction l with
  | nil => cases hx
  | cons y ys ih =>
    unfold cloneEach cloneTvt
    cases hy : r.tvts p y.2 with
    | none => rfl
    | some e =>
      dsimp only
      rcases List.mem_cons.mp hx with hx | hx
      · subst hx
        rw [h] at hy
        cases hy
      · rw [ih hx]

/-- C232: whatever is stored, nothing is left out silently: if an event of a log is missing the query is not answered. -/
theorem c232_missing (r : Reger) (ri vci : Id) {x : Nat × Dig} :
    (x ∈ r.tels ri → r.tvts ri x.2 = none → ∀ o, tels r ri o = .error .missingEntry) ∧
    (x ∈ r.tels vci → r.tvts vci x.2 = none → tels r ri (some vci) = .error .missingEntry) := by
  have hf : ∀ p, ((r.tels p).filter fun x => decide (0 ≤ x.1)) = r.tels p := fun p => List.filter_eq_self.mpr fun x _ => by simp
  constructor
  · intro hx h o
    simp only [tels, clonePre, hf, cloneEach_missing r ri _ hx h]
  · intro hx h
    have h1 := cloneEach_missing r vci _ hx h
    have hany : ∀ p l, (∃ ms, cloneEach r p l = .ok ms) ∨ cloneEach r p l = .error .missingEntry := by
      intro p l
      induction l with
      | nil => exact .inl ⟨_, rfl⟩
      | cons y ys ih =>
        unfold cloneEach cloneTvt
        cases hy : r.tvts p y.2 with
        | none => exact .inr rfl
        | some e => rcases ih with ⟨ms, ih⟩ | ih <;> rw [ih] <;> simp
    simp only [tels, clonePre, hf]
    rcases hany ri (r.tels ri) with ⟨ms, h2⟩ | h2
    · rw [h2, h1]
    · rw [h2]

/-- What `logEvent` does to all but the signatures. -/
theorem log_parts (r : Reger) (e : TEvt) (c : Couple) (bs : List Sig) (baks : List Id) :
    (r.logEvent e c bs baks).tels = upd r.tels e.pre (telPut (r.tels e.pre) e.sn e.said) ∧
    (r.logEvent e c bs baks).tvts = (r.putTvt e).tvts ∧ (r.logEvent e c bs baks).ancs = (r.putAnc e c).ancs ∧
    (r.logEvent e c bs baks).tevers = r.tevers ∧ (r.logEvent e c bs baks).registries = r.registries ∧
    (r.logEvent e c bs baks).baks = if baks = [] then r.baks else upd2 r.baks e.pre e.said (oset baks) := by
  unfold Reger.logEvent Reger.pinTibs Reger.pinBaks Reger.putTvt Reger.putAnc
  cases h1 : r.ancs e.pre e.said <;> cases h2 : r.tvts e.pre e.said <;> by_cases h3 : bs = [] <;> by_cases h4 : baks = [] <;> simp [h2, h3, h4]

/-- A store that has some of another. -/
structure Part (S r : Reger) : Prop where
  tvt : ∀ q x, r.tvts q x = none ∨ r.tvts q x = S.tvts q x
  anc : ∀ q x, r.ancs q x = none ∨ r.ancs q x = S.ancs q x

theorem Part.log {S r : Reger} (h : Part S r) {e : TEvt} {c : Couple} (he : S.tvts e.pre e.said = some e) (hc : S.ancs e.pre e.said = some c) (bs : List Sig) (baks : List Id) :
    Part S (r.logEvent e c bs baks) ∧ (r.logEvent e c bs baks).tvts e.pre e.said = some e ∧ (r.logEvent e c bs baks).ancs e.pre e.said = some c ∧
    (∀ q x, r.tvts q x = S.tvts q x → (r.logEvent e c bs baks).tvts q x = S.tvts q x) ∧
    (∀ q x, r.ancs q x = S.ancs q x → (r.logEvent e c bs baks).ancs q x = S.ancs q x) := by
  obtain ⟨_, h2, h3, _, _⟩ := log_parts r e c bs baks
  have ht : ∀ q x, (r.putTvt e).tvts q x = if q = e.pre ∧ x = e.said then some e else r.tvts q x := by
    intro q x
    unfold Reger.putTvt
    cases hh : r.tvts e.pre e.said with
    | none => simp [upd2]
    | some y =>
      dsimp only
      split
      · rename_i hq
        rw [hq.1, hq.2, hh]
        rcases h.tvt e.pre e.said with h | h
        · rw [hh] at h; cases h
        · rw [← hh, h, he]
      · rfl
  have ha : ∀ q x, (r.putAnc e c).ancs q x = if q = e.pre ∧ x = e.said then some c else r.ancs q x := by
    intro q x
    unfold Reger.putAnc
    cases hh : r.ancs e.pre e.said with
    | none => simp [upd2]
    | some y =>
      dsimp only
      split
      · rename_i hq
        rw [hq.1, hq.2, hh]
        rcases h.anc e.pre e.said with h | h
        · rw [hh] at h; cases h
        · rw [← hh, h, hc]
      · rfl
  refine ⟨⟨fun q x => ?_, fun q x => ?_⟩, by rw [h2, ht, if_pos ⟨rfl, rfl⟩], by rw [h3, ha, if_pos ⟨rfl, rfl⟩], fun q x hq => ?_, fun q x hq => ?_⟩
  · rw [h2, ht]
    split
    · rename_i hq
      rw [hq.1, hq.2, he]
      exact .inr rfl
    · exact h.tvt q x
  · rw [h3, ha]
    split
    · rename_i hq
      rw [hq.1, hq.2, hc]
      exact .inr rfl
    · exact h.anc q x
  · rw [h2, ht]
    split
    · rename_i hq
      rw [hq.1, hq.2, he]
    · exact hq
  · rw [h3, ha]
    split
    · rename_i hq
      rw [hq.1, hq.2, hc]
    · exact hq

/-- An ordinary registry without backers, with nothing but its inception in its log, and a credential all of whose events are of that registry. -/
structure Plain (env : TEnv) (S : Reger) (k p : Id) (v : TEvt) : Prop where
  log : S.tels k = [(0, k)]
  stored : S.tvts k k = some v
  ilk : v.ilk = .vcp
  nb : v.noBackers = true
  baks : v.baks = []
  toad : v.toad = 0
  ne : p ≠ k
  ok : env.kel.okPre k = true ∧ env.kel.okPre p = true
  of : ∀ on d e, (on, d) ∈ S.tels p → S.tvts p d = some e → e.regk = some k

/-- The receiver has the key events with the seals that are stored for the events in the log of `p`. -/
def Seals (env : TEnv) (n : Node) (S : Reger) (iss p : Id) : Prop :=
  ∀ on d e, (on, d) ∈ S.tels p → S.tvts p d = some e → ∃ s y, S.ancs p d = some (s, y) ∧ SealAt env n iss s y e

/-- The receiver after the inception and the entries `D` of the credential's log. -/
structure Got (S : Reger) (l : List Id) (k p : Id) (v : TEvt) (D : List (Nat × Dig)) (r : Reger) : Prop where
  part : Part S r
  reg : r.tels k = [(0, k)]
  cred : r.tels p = D
  tev : r.tevers k = some (newTever false v)
  own : r.registries = l
  tvt : ∀ x ∈ D, r.tvts p x.2 = S.tvts p x.2
  anc : ∀ x ∈ D, r.ancs p x.2 = S.ancs p x.2

theorem got_first {t : TNode} (hi : TInv env U V t.node t.reg) {k p : Id} {v : TEvt} (hp : Plain env t.reg k p v) {n : Node}
    (hs : Seals env n t.reg v.issuer k) {l : List Id} (hl : k ∉ l) {m : TMsg} (hm : Sent t.reg k k m) :
    Got t.reg l k p v [] (receive env n { Reger.empty with registries := l } m) := by
  obtain ⟨s, y, hc, hseal⟩ := hs 0 k v (by rw [hp.log]; simp) hp.stored
  obtain ⟨hpre, hsaid, hV⟩ := hi.tvt k k v hp.stored
  obtain ⟨e', k', v', he', hsn, _⟩ := hi.ent k 0 k (by rw [hp.log]; simp)
  rw [hp.stored] at he'
  cases he'
  obtain ⟨h1, h2, h3⟩ := hm
  rw [hp.stored] at h1
  obtain ⟨me, mc, ms⟩ := m
  simp only [Option.some.injEq] at h1 h2 h3
  subst h1
  rw [hc] at h2
  subst h2
  have hbs : verifyBigs env v ms [] = [] := by
    unfold verifyBigs
    rw [List.filter_eq_nil_iff]
    intro a _
    simp
  have hva : verifyAnchor env n v.issuer v (some (s, y)) = .ok true := verifyAnchor_at hseal
  have hpr : receive env n { Reger.empty with registries := l } ⟨v, some (s, y), ms⟩ =
      { (({ Reger.empty with registries := l } : Reger).logEvent v (s, y) [] []) with
        tevers := upd (({ Reger.empty with registries := l } : Reger).logEvent v (s, y) [] []).tevers k (some (newTever false v)),
        states := upd (({ Reger.empty with registries := l } : Reger).logEvent v (s, y) [] []).states k (some (newTever false v).state) } := by
    unfold receive Reger.processEvent
    dsimp only
    rw [hpre, hp.ok.1, show v.regk = some k by simp [TEvt.regk, hp.ilk, hpre]]
    dsimp only
    rw [if_neg (by simp), if_neg (by simp [TEvt.badNum, hp.ilk, TIlk.inceptive, hsn]), if_neg (by simp [Reger.sourceBad, hl])]
    simp only [Reger.fetch, Reger.empty]
    rw [if_pos hp.ilk]
    unfold Reger.incept
    rw [hp.baks, hp.toad, if_neg (by decide), if_neg (by simp [toadOk])]
    unfold valAnchorBigs
    simp only [List.all_nil, Bool.not_true, Bool.false_eq_true, if_false, hbs, hva, ne_eq, not_true_eq_false, false_and]
    simp only [newTever, hpre, hp.baks, hp.toad]
  rw [hpr]
  have h0 : Part t.reg { Reger.empty with registries := l } := ⟨fun _ _ => .inl rfl, fun _ _ => .inl rfl⟩
  obtain ⟨q1, q2, q3, q4, q5⟩ := h0.log (e := v) (c := (s, y)) (by rw [hpre, hsaid]; exact hp.stored) (by rw [hpre, hsaid]; exact hc) [] []
  obtain ⟨g1, g2, g3, g4, g5, _⟩ := log_parts { Reger.empty with registries := l } v (s, y) [] []
  refine ⟨⟨q1.tvt, q1.anc⟩, ?_, ?_, by simp [upd], g5, fun _ h => (by cases h), fun _ h => (by cases h)⟩
  · show (Reger.logEvent _ v (s, y) [] []).tels k = _
    rw [g1, hpre]
    simp [upd, Reger.empty, telPut, hsn, hsaid]
  · show (Reger.logEvent _ v (s, y) [] []).tels p = _
    rw [g1, hpre]
    simp [upd, Reger.empty, hp.ne]

theorem got_next {t : TNode} (hi : TInv env U V t.node t.reg) (hsa : SelfAddressing V) {k p : Id} {v : TEvt} (hp : Plain env t.reg k p v) {n : Node}
    (hs : Seals env n t.reg v.issuer p) {l : List Id} (hl : k ∉ l) {D : List (Nat × Dig)} {r : Reger} (hg : Got t.reg l k p v D r) {x : Nat × Dig} {rest : List (Nat × Dig)}
    (hD : D ++ x :: rest = t.reg.tels p) {m : TMsg} (hm : Sent t.reg p x.2 m) : Got t.reg l k p v (D ++ [x]) (receive env n r m) := by
  obtain ⟨on, d⟩ := x
  have hmem : (on, d) ∈ t.reg.tels p := by rw [← hD]; simp
  have hord := hi.ord p
  have hon : on = D.length := by
    have := from_get (t.reg.tels p) 0 D.length hord
    rw [← hD] at this
    simpa using this
  obtain ⟨e, k', w, he, hsn, hrk, hreg, _, _, hinc, _, hbk, hrev⟩ := hi.ent p on d hmem
  obtain ⟨hpre, hsaid, hV⟩ := hi.tvt p d e he
  have hk : k' = k := by
    have := hp.of on d e hmem he
    rw [hrk] at this
    injection this
  subst hk
  have hwv : w = v := by
    have h1 := hsa w (hi.tvt _ _ _ hreg.stored).2.2 hreg.ilk
    have h2 := hreg.stored
    rw [← h1, hreg.pre, hp.stored] at h2
    cases h2
    rfl
  subst hwv
  obtain ⟨s, y, hc, hseal⟩ := hs on d e hmem he
  have hva : verifyAnchor env n w.issuer e (some (s, y)) = .ok true := verifyAnchor_at hseal
  obtain ⟨h1, h2, h3⟩ := hm
  obtain ⟨me, mc, ms⟩ := m
  dsimp only at h1 h2 h3
  rw [he] at h1
  cases h1
  rw [hc] at h2
  subst h2
  have hkind : e.ilk = .iss ∨ e.ilk = .rev := by
    have hb : ¬ (e.ilk = .bis ∨ e.ilk = .brv ∨ e.ilk = .vrt) := fun h => by
      have := hbk h
      rw [hp.nb] at this
      cases this
    have hne : e.pre ≠ k' := hpre ▸ hp.ne
    unfold TEvt.regk at hrk
    cases hilk : e.ilk <;> rw [hilk] at hrk hb <;> simp at hrk hb ⊢
    exact hne hrk
  have hri : e.ri = k' := by
    unfold TEvt.regk at hrk
    rcases hkind with h | h <;> rw [h] at hrk <;> injection hrk
  have hnext : r.nextSn (newTever false w) e = e.sn := by
    unfold Reger.nextSn
    rw [if_neg (by rcases hkind with h | h <;> rw [h] <;> decide), hpre, hg.cred, hsn, hon]
  have hpr : receive env n r ⟨e, some (s, y), ms⟩ = r.logEvent e (s, y) [] [] := by
    unfold receive Reger.processEvent
    dsimp only
    rw [hpre, hp.ok.2, hrk]
    dsimp only
    rw [if_neg (by simp), if_neg (by
        unfold TEvt.badNum
        cases hii : e.ilk.inceptive with
        | true => simp [hsn, hinc.mp hii]
        | false =>
          have : ¬ on = 0 := fun h0 => by rw [hinc.mpr h0] at hii; cases hii
          simp [hsn, this]), if_neg (by simp [Reger.sourceBad, hg.own, hl])]
    simp only [Reger.fetch, hg.tev]
    rw [if_neg (by rcases hkind with h | h <;> rw [h] <;> decide), hnext, if_neg (by omega), if_pos rfl]
    rcases hkind with h | h
    · unfold Reger.update Reger.issue
      rw [h]
      dsimp only
      rw [if_neg (by simp [newTever, hp.nb]), if_neg (by simp [newTever, hri, hreg.pre])]
      unfold Reger.simple
      rw [show (newTever false w).pre = w.issuer from rfl, hva]
    · have h0 : on ≠ 0 := fun h0 => by
        have := hinc.mpr h0
        rw [h] at this
        cases this
      have hpm : (on - 1, e.prior) ∈ t.reg.tels p := hrev (by rw [h]; rfl)
      have hpD : (on - 1, e.prior) ∈ D := by
        rw [← hD] at hpm hord
        rcases List.mem_append.mp hpm with hpm | hpm
        · exact hpm
        · exfalso
          have hfr : ∀ (D : List (Nat × Dig)) (a : Nat) (R : List (Nat × Dig)), From a (D ++ R) → From (a + D.length) R := by
            intro D
            induction D with
            | nil => intro a R hh; exact hh
            | cons z zs ih =>
              intro a R hh
              have := ih (a + 1) R hh.2
              rw [show a + (z :: zs).length = a + 1 + zs.length by simp; omega]
              exact this
          have := (from_mem _ _ _ (hfr D 0 _ hord) hpm).1
          dsimp only at this
          omega
      have hget : telGet (r.tels p) (on - 1) = some e.prior := by
        rw [hg.cred]
        have hD1 : From 0 D := by
          rw [← hD] at hord
          have : ∀ (D : List (Nat × Dig)) (a : Nat) (R : List (Nat × Dig)), From a (D ++ R) → From a D := by
            intro D
            induction D with
            | nil => intro _ _ _; trivial
            | cons z zs ih => exact fun a R hh => ⟨hh.1, ih (a + 1) R hh.2⟩
          exact this D 0 _ hord
        have huniq : ∀ (D : List (Nat × Dig)) (a : Nat) (z : Nat × Dig), From a D → z ∈ D → D.find? (fun x => decide (x.1 = z.1)) = some z := by
          intro D
          induction D with
          | nil => intro _ _ _ h; cases h
          | cons y ys ih =>
            intro a z hf hz
            rw [List.find?_cons]
            rcases List.mem_cons.mp hz with hz | hz
            · subst hz
              simp
            · have h1 := (from_mem ys (a + 1) z hf.2 hz).1
              have h2 := hf.1
              rw [show (decide (y.1 = z.1)) = false from decide_eq_false (by omega)]
              exact ih (a + 1) z hf.2 hz
        unfold telGet
        rw [huniq D 0 (on - 1, e.prior) hD1 hpD]
        rfl
      have hst : r.tvts p e.prior = t.reg.tvts p e.prior := hg.tvt _ hpD
      obtain ⟨f, _, _, hf, _⟩ := hi.ent p (on - 1) e.prior hpm
      have hfs := (hi.tvt p e.prior f hf).2.1
      unfold Reger.update Reger.revoke
      rw [h]
      dsimp only
      rw [hpre, hsn, hget]
      dsimp only
      rw [hst, hf]
      dsimp only
      rw [if_neg (by simp [hfs]), if_neg (by simp [newTever, hp.nb])]
      unfold Reger.simple
      rw [show (newTever false w).pre = w.issuer from rfl, hva]
  rw [hpr]
  obtain ⟨q1, q2, q3, q4, q5⟩ := hg.part.log (e := e) (c := (s, y)) (by rw [hpre, hsaid]; exact he) (by rw [hpre, hsaid]; exact hc) [] []
  obtain ⟨g1, g2, g3, g4, g5, _⟩ := log_parts r e (s, y) [] []
  have hDf : From 0 D := by
    rw [← hD] at hord
    have : ∀ (D : List (Nat × Dig)) (a : Nat) (R : List (Nat × Dig)), From a (D ++ R) → From a D := by
      intro D
      induction D with
      | nil => intro _ _ _; trivial
      | cons z zs ih => exact fun a R hh => ⟨hh.1, ih (a + 1) R hh.2⟩
    exact this D 0 _ hord
  refine ⟨q1, ?_, ?_, by rw [g4]; exact hg.tev, by rw [g5]; exact hg.own, fun z hz => ?_, fun z hz => ?_⟩
  · rw [g1, hpre]
    unfold upd
    rw [if_neg (Ne.symm hp.ne)]
    exact hg.reg
  · rw [g1, hpre]
    unfold upd
    rw [if_pos rfl, hg.cred, hsn, hsaid, hon]
    have := telPut_new D 0 d hDf
    simpa using this
  · rcases List.mem_append.mp hz with hz | hz
    · exact q4 _ _ (hg.tvt z hz)
    · rw [List.mem_singleton] at hz
      subst hz
      rw [hpre, hsaid] at q2
      rw [q2, he]
  · rcases List.mem_append.mp hz with hz | hz
    · exact q5 _ _ (hg.anc z hz)
    · rw [List.mem_singleton] at hz
      subst hz
      rw [hpre, hsaid] at q3
      rw [q3, hc]

theorem got_all {t : TNode} (hi : TInv env U V t.node t.reg) (hsa : SelfAddressing V) {k p : Id} {v : TEvt} (hp : Plain env t.reg k p v) {n : Node}
    (hs : Seals env n t.reg v.issuer p) {l : List Id} (hl : k ∉ l) (rest : List (Nat × Dig)) {D : List (Nat × Dig)} {r : Reger} (hg : Got t.reg l k p v D r)
    (hD : D ++ rest = t.reg.tels p) {ms : List TMsg} (hm : Each (fun (x : Nat × Dig) m => Sent t.reg p x.2 m) rest ms) :
    Got t.reg l k p v (t.reg.tels p) (replay env n r ms) := by
  induction rest generalizing D r ms with
  | nil =>
    cases hm
    rw [List.append_nil] at hD
    exact hD ▸ hg
  | cons x rest ih =>
    cases hm with
    | cons h1 h2 => exact ih (got_next hi hsa hp hs hl hg hD h1) (by rw [List.append_assoc]; exact hD) h2

/-- With the same entries the same state is reported. -/
theorem same_state {t : TNode} (hi : TInv env U V t.node t.reg) (hsa : SelfAddressing V) {k p : Id} {v : TEvt} (hv : t.reg.tvts k k = some v) {tv : Tever}
    (ht : (t.reg.fetch k).2 = some tv) {l : List Id} {r : Reger} (g : Got t.reg l k p v (t.reg.tels p) r) : r.vcState (newTever false v) p = t.reg.vcState tv p := by
  have htv : tv.noBackers = v.noBackers ∧ tv.regk = k := by
    have hok : TevOk env t.node t.reg k tv := by
      unfold Reger.fetch at ht
      cases h1 : t.reg.tevers k with
      | some x =>
        rw [h1] at ht
        cases ht
        exact hi.tev k _ h1
      | none =>
        rw [h1] at ht
        cases h2 : t.reg.states k with
        | none => rw [h2] at ht; cases ht
        | some s =>
          obtain ⟨x, hx, hxo, _⟩ := hi.sts k s h2
          rw [h2] at ht
          dsimp only at ht
          rw [hx, reload_state hxo] at ht
          cases ht
          exact hxo.remote
    obtain ⟨w, hreg, _, hnb, _⟩ := hok.inc
    refine ⟨?_, hok.regk⟩
    have h1 := hsa w (hi.tvt _ _ _ hreg.stored).2.2 hreg.ilk
    have h2 := hreg.stored
    rw [← h1, hreg.pre, hv] at h2
    cases h2
    exact hnb
  have hpre := (hi.tvt k k v hv).1
  unfold Reger.vcState
  rw [g.cred, htv.1, htv.2]
  cases hlast : (t.reg.tels p).getLast? with
  | none => rfl
  | some x =>
    obtain ⟨on, d⟩ := x
    have hmem : (on, d) ∈ t.reg.tels p := List.mem_of_getLast? hlast
    dsimp only
    rw [g.tvt _ hmem, g.anc _ hmem]
    simp only [newTever, hpre]

/-- C232, of registries without backers: the answer to a query for a registry and a credential, processed by a node that knows nothing of them but has the key events with the seals that the
sender has stored, makes that node have the same logs and report the same state of the credential. -/
theorem c232_replayed_partial (hnc : NoColl U) (hnt : NoCollT V) (hsa : SelfAddressing V) {t : TNode} (h : TReached env U V t) {k p : Id} {v : TEvt} (hp : Plain env t.reg k p v)
    {n : Node} (hk : Seals env n t.reg v.issuer k) (hs : Seals env n t.reg v.issuer p) {l : List Id} (hl : k ∉ l) {tv : Tever} (ht : (t.reg.fetch k).2 = some tv) :
    ∃ ms r tv', tels t.reg k (some p) = .ok (some ms) ∧ r = replay env n { Reger.empty with registries := l } ms ∧ r.tels k = t.reg.tels k ∧ r.tels p = t.reg.tels p ∧
      (r.fetch k).2 = some tv' ∧ r.vcState tv' p = t.reg.vcState tv p := by
  have hi := h.inv hnc hnt
  obtain ⟨ms, ms', h2, h2', _, ha⟩ := c232_answered hnc hnt h k p
  rw [if_neg (by rw [hp.log]; simp)] at ha
  have hlog := hp.log
  rw [hlog] at h2
  cases h2 with
  | @cons _ m _ _ hm hnil =>
    cases hnil
    have g0 := got_first hi hp hk hl hm
    have g := got_all hi hsa hp hs hl (t.reg.tels p) g0 rfl h2'
    refine ⟨_, _, newTever false v, ha, rfl, ?_, ?_, ?_, ?_⟩
    · show (replay env n (receive env n _ m) ms').tels k = _
      rw [g.reg, hlog]
    · exact g.cred
    · show ((replay env n (receive env n _ m) ms').fetch k).2 = _
      simp only [Reger.fetch, g.tev]
    · show (replay env n (receive env n _ m) ms').vcState (newTever false v) p = _
      exact same_state hi hsa hp.stored ht g

/-- C233: a query for the state of a registry that is known is replied with that registry's state, which names the controller of the registry's sealed inception, and one for another registry
is not replied. -/
theorem c233_registry (hnc : NoColl U) (hnt : NoCollT V) {t : TNode} (h : TReached env U V t) (ri : Id) :
    ((t.reg.fetch ri).2 = none ∧ (∀ vci, tsn t.reg ri vci = ([], true))) ∨
    ∃ s v, tsn t.reg ri none = ([.registry s], true) ∧ Registered env t.node t.reg ri v ∧ s.regk = ri ∧ s.pre = v.issuer ∧ s.noBackers = v.noBackers := by
  have hi := h.inv hnc hnt
  cases ht : (t.reg.fetch ri).2 with
  | none => exact .inl ⟨rfl, fun vci => by simp only [tsn, ht]⟩
  | some tv =>
    have hok := (hi.fetch ri).tev ri tv (fetch_some ht)
    rw [fetch_rest] at hok
    obtain ⟨w, hreg, h1, h2, _⟩ := hok.inc
    exact .inr ⟨tv.state, w, by simp only [tsn, ht], ⟨hreg.ilk, hreg.pre, hreg.stored, hreg.sealed⟩, hok.regk, h1, h2⟩

/-- **C233 fails for credentials.** Whatever is stored, no query is replied with the state of a credential; one that asks for it ends in an exception, after the reply with the registry's state. -/
theorem c233_credential_never (r : Reger) (ri vci : Id) :
    (∀ s, Reply.credential s ∉ (tsn r ri (some vci)).1) ∧ (∀ t, (r.fetch ri).2 = some t → tsn r ri (some vci) = ([.registry t.state], false)) := by
  constructor
  · intro s
    unfold tsn
    cases (r.fetch ri).2 <;> simp
  · intro t ht
    simp only [tsn, ht]

end Verif.TelRep
