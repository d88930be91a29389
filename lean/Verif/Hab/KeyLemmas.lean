import Verif.Hab.Model
import Verif.Mgr.PropsKeys

/-!
# The key store under the calls of habitats
-/

namespace Verif.Hab

open Verif.Mgr

/-- Current, next and later keys are stored, except for the sequences `X`. -/
def WholeBut (X : List Nat) (ks : Ks) : Prop := ∀ p i k, p ∉ X → 1 ≤ i → InLot ks p i k → ks.pris.at' k ≠ none

theorem WholeBut.next {M N X X' : List Nat} {ks ks' : Ks} {x : Inp × Option Res} (hkn : Known ks) (hl : LotInv M ks) (hn : (M ++ N).Nodup) (h : WholeBut X ks)
    (hsub : ∀ q, q ∉ X' → q ∉ X) (hX : ∀ q ∈ X, ks'.prms.at' q ≠ none)
    (hx : ∀ c k, x.1 = .crash c k → ∀ q, q ∉ X' → ks'.sits q = ks.sits q) (e : Eff N ks ks' x) : WholeBut X' ks' := by
  rw [List.nodup_append] at hn
  intro p i k hpX' hi hp
  have hpX := hsub p hpX'
  cases e with
  | quiet r came kept told shown => exact kept k (h p i k hpX hi ((r p).lot hp))
  | began pre pubs nxts hN fresh taken r sits later came kept whole =>
    by_cases hpp : p = pre
    · subst hpp
      rcases whole with ⟨⟨c, k, w⟩, _⟩ | ⟨_, _, w3, _⟩
      · obtain ⟨s, _, h2, h3⟩ := hp
        rw [hx c k w p hpX'] at h2
        exact absurd fresh (hkn p (.inr (.inl (by rw [h2]; simp))))
      · obtain ⟨s, _, h2, h3⟩ := hp
        rcases sits with hs | hs
        · rw [hs] at h2; simp at h2
        · rw [hs] at h2
          simp at h2; subst h2
          refine w3 k ?_
          rw [hN]
          rcases began_lot later h3 with ⟨_, hm⟩ | ⟨_, hm⟩ <;> simp [hm]
    · exact kept k (h p i k hpX hi ((r p hpp).lot hp))
  | turned pre ps nxts erase prms sits hN read r prms' sits' later came kept told whole =>
    obtain ⟨kx, sits'⟩ := sits'
    have stay : ∀ {p' i'}, p' ∉ X → ¬ (p' = pre ∧ i' = 0) → 1 ≤ i' → InLot ks p' i' k → ks'.pris.at' k ≠ none := by
      intro p' i' hX' hne hi' hin
      refine kept k (fun hc => ?_) (h p' i' k hX' hi' hin)
      exact hne (hl.apart hin (⟨ps, prms, sits, hc⟩ : InLot ks pre 0 k))
    by_cases hpp : p = pre
    · subst hpp
      obtain ⟨s, _, h2, h3⟩ := hp
      rw [sits'] at h2
      simp at h2; subst h2
      rcases turned_lot later h3 with ⟨_, g⟩ | ⟨rfl, g⟩
      · exact stay hpX (by omega) (by omega : 1 ≤ i + 1) ⟨ps, prms, sits, g⟩
      · rcases whole with ⟨⟨c, k, w⟩, _⟩ | ⟨w1, _⟩
        · have := hx c k w p hpX'
          rw [sits', sits] at this
          injection this with this
          have := congrArg (fun s => s.nxt.ridx) this
          simp at this
        · rcases hN with rfl | ⟨_, hN⟩
          · refine w1 k g fun hc => ?_
            exact absurd rfl (hn.2.2 k (hl.made (⟨ps, prms, sits, hc⟩ : InLot ks p 0 k)) k g)
          · refine stay (p' := p) (i' := 3) hpX (by omega) (by omega) ⟨ps, prms, sits, ?_⟩
            show k ∈ (ks.pubs p (ps.nxt.ridx + 1 + 0)).getD []
            rw [Nat.add_zero, hN]; exact g
    · exact stay hpX (by simp [hpp]) hi ((r p hpp).lot hp)
  | took pre all m s hN fresh taken r prms sits pubs old new nxt ridx came kept whole told shown =>
    by_cases hpp : p = pre
    · subst hpp
      obtain ⟨s', _, h2, h3⟩ := hp
      rw [sits] at h2
      simp at h2; subst h2
      obtain ⟨j, l, g1, g2, g3⟩ := took_lot pubs old new nxt ridx h3
      exact whole k (by rw [hN]; exact List.mem_flatten.2 ⟨l, List.mem_of_getElem? g2, g3⟩)
    · exact kept k (h p i k hpX hi ((r p hpp).lot hp))
  | moved old new sit ne pold pnew taken prms sits prms' sits' gone pubs r pris told shown =>
    rw [pris]
    by_cases h1 : p = new
    · subst h1
      obtain ⟨s, _, h2, h3⟩ := hp
      rw [sits'] at h2
      simp at h2; subst h2
      refine h old i k (fun ho => hX old ho gone) hi ⟨sit, prms, sits, ?_⟩
      match i, h3 with
      | 0, h3 => exact h3
      | 1, h3 => exact h3
      | 2, h3 => exact h3
      | i + 3, h3 =>
        have h3 : k ∈ (ks'.pubs p (sit.nxt.ridx + 1 + i)).getD [] := h3
        cases hc : ks'.pubs p (sit.nxt.ridx + 1 + i) with
        | none => rw [hc] at h3; simp at h3
        | some l =>
          rw [hc] at h3
          show k ∈ (ks.pubs old (sit.nxt.ridx + 1 + i)).getD []
          rw [pubs _ l hc]; exact h3
    · by_cases h2 : p = old
      · subst h2
        obtain ⟨s, g, _, _⟩ := hp
        exact absurd gone g
      · exact h p i k hpX hi ((r p h2 h1).lot hp)

/-- What holds of the key store; `M` are the keys made so far, `X` the sequences turned by a rotation that stopped. -/
structure KsInv (env : Mgr.Env) (M X : List Nat) (ks : Ks) (mem : Mem) : Prop where
  kept : Kept ks
  enc : EncInv env ⟨ks, some mem⟩
  known : Known ks
  algos : Algos ks
  lots : LotInv M ks
  lost : ∀ q ∈ X, ks.prms.at' q ≠ none
  whole : WholeBut X ks
  stop : ∀ p s, ks.prms.at' p ≠ none → ks.sits p = some s → ∀ j, s.nxt.ridx + 1 < j → ks.pubs p j = none

/-- Calls of the manager habitats use. -/
def Plain (c : Mgr.Call) : Prop := (∃ a, c = .incept a) ∨ (∃ o n, c = .move o n) ∨ (∃ p a, c = .rotate p a) ∨ ∃ p x y, c = .replay p x y

theorem Plain.safe {env : Mgr.Env} {n : Mgr.Node} {c : Mgr.Call} (h : Plain c) (hc : (Mgr.exec env n c).2.2 ≠ .err .code) : (Inp.call c).safe env n := by
  rcases h with ⟨a, rfl⟩ | ⟨o, m, rfl⟩ | ⟨p, a, rfl⟩ | ⟨p, x, y, rfl⟩ <;> exact ⟨trivial, hc, fun a h => by simp [Inp.of] at h⟩

theorem Plain.mem {env : Mgr.Env} {n : Mgr.Node} {c : Mgr.Call} (h : Plain c) : (Mgr.exec env n c).2.1 = n.mem := by
  apply exec_mem
  rcases h with ⟨a, rfl⟩ | ⟨o, m, rfl⟩ | ⟨p, a, rfl⟩ | ⟨p, x, y, rfl⟩ <;> simp

theorem KsInv.eff {env : Mgr.Env} {M X : List Nat} {ks : Ks} {mem : Mem} (h : KsInv env M X ks mem) {c : Mgr.Call} (hp : Plain c)
    (hc : (Mgr.exec env ⟨ks, some mem⟩ c).2.2 ≠ .err .code) :
    Eff (storedKeys (Mgr.exec env ⟨ks, some mem⟩ c).1) ks (ks.applyAll (Mgr.exec env ⟨ks, some mem⟩ c).1)
      (.call c, some (Mgr.exec env ⟨ks, some mem⟩ c).2.2) :=
  safe_eff (n := ⟨ks, some mem⟩) h.kept h.known h.enc (hp.safe hc)

theorem KsInv.step {env : Mgr.Env} {M X : List Nat} {ks : Ks} {mem : Mem} (h : KsInv env M X ks mem) {c : Mgr.Call} (hp : Plain c)
    (hc : (Mgr.exec env ⟨ks, some mem⟩ c).2.2 ≠ .err .code) (hn : (M ++ storedKeys (Mgr.exec env ⟨ks, some mem⟩ c).1).Nodup)
    (hlost : ∀ q ∈ X, (ks.applyAll (Mgr.exec env ⟨ks, some mem⟩ c).1).prms.at' q ≠ none)
    (hstop : ∀ p s, (ks.applyAll (Mgr.exec env ⟨ks, some mem⟩ c).1).prms.at' p ≠ none → (ks.applyAll (Mgr.exec env ⟨ks, some mem⟩ c).1).sits p = some s →
      ∀ j, s.nxt.ridx + 1 < j → (ks.applyAll (Mgr.exec env ⟨ks, some mem⟩ c).1).pubs p j = none) :
    KsInv env (M ++ storedKeys (Mgr.exec env ⟨ks, some mem⟩ c).1) X (ks.applyAll (Mgr.exec env ⟨ks, some mem⟩ c).1) mem := by
  have e := h.eff hp hc
  have hs := hp.safe hc
  have h2 : EncInv env (Mgr.Node.step env ⟨ks, some mem⟩ (.call c)).1 := h.enc.step h.kept hs.1.tidy
  have h3 : (Mgr.Node.step env ⟨ks, some mem⟩ (.call c)).1 = ⟨ks.applyAll (Mgr.exec env ⟨ks, some mem⟩ c).1, some mem⟩ := by
    show (⟨_, (Mgr.exec env ⟨ks, some mem⟩ c).2.1⟩ : Mgr.Node) = _
    rw [hp.mem]
  rw [h3] at h2
  exact ⟨h.kept.step (env := env) (n := ⟨ks, some mem⟩) (.call c), h2, h.known.next e fun p hp => applyAll_pres_some hp,
    Algos.step (n := ⟨ks, some mem⟩) h.kept h.enc h.algos hs, h.lots.next hn e, hlost,
    h.whole.next h.known h.lots hn (fun _ h => h) hlost (by simp) e, hstop⟩

/-! ## Turning keys -/

/-- What `advance` did: `L` are the keys after next. -/
structure Advanced (env : Env) (w : World) (p : Nat) (nc : Int) (a : RotateArgs) (ps : Sit) (L : List Nat) : Prop where
  prms : w.ks.prms.at' p ≠ none
  sits : w.ks.sits p = some ps
  ok : (advance env w p nc a).2 = .ok ⟨ps.nxt.pubs, L.map env.mgr.dig⟩
  read : ∀ k ∈ ps.nxt.pubs, w.ks.pris.at' k ≠ none
  how : (w.ks.pubs p (ps.nxt.ridx + 1) = some L ∧ (advance env w p nc a).1 = replayAll p ps L false ∧
      ∀ er, Mgr.replay env.mgr w.ks w.mem p true er = (replayAll p ps L er, .ok ⟨ps.nxt.pubs, L.map env.mgr.dig⟩)) ∨
    (w.ks.pubs p (ps.nxt.ridx + 1) = none ∧ ps.nxt.pubs ≠ [] ∧ L.length = nc.toNat ∧ (advance env w p nc a).1 = rotateAll w.mem.enc p ps L false ∧
      ∀ er, Mgr.rotate env.mgr w.ks w.mem p ⟨[], nc, env.seed, true, a.temp, er, a.rsalt, a.rnd⟩ =
        (rotateAll w.mem.enc p ps L er, .ok ⟨ps.nxt.pubs, L.map env.mgr.dig⟩))

theorem replay_eq (env : Mgr.Env) (ks : Ks) (mem : Mem) (p : Nat) (er : Bool) {ps : Sit} (hp : ks.prms.at' p ≠ none) (hs : ks.sits p = some ps) :
    Mgr.replay env ks mem p true er = match ks.pubs p (ps.nxt.ridx + 1) with
      | none => ([], .error .index)
      | some l => match readPris env ks mem ps.nxt.pubs with
        | .error e => ([], .error e)
        | .ok v => (replayAll p ps l er, .ok ⟨v, l.map env.dig⟩) := by
  obtain ⟨prm, hp⟩ := Option.ne_none_iff_exists'.1 hp
  unfold Mgr.replay
  rw [hp, hs]
  rfl

theorem expand_nil_length {n : Int} {c : Nat} {l : Int} {r : List Nat} (h : expand [] n c l = .ok r) : r.length = n.toNat := by
  unfold expand at h
  rw [if_pos rfl] at h
  split at h
  · exact absurd h (by simp)
  · injection h with h; subst h; simp

theorem create_length {env : Mgr.Env} {cr : Creator} {rnd : Nat → Nat} {codes : List Nat} {a b c : Nat} {d e : Bool} :
    (cr.create env rnd codes a b c d e).length = codes.length := by simp [Creator.create]

/-- Whether old keys are erased does not matter for the outcome. -/
theorem rotate_erase {env : Mgr.Env} {ks : Ks} {mem : Mem} {p : Nat} {a : Mgr.RotateArgs} {ps : Sit} {v L : List Nat} {prm : Prm}
    (o : RotateOut env ks mem p a prm ps v L (Mgr.rotate env ks mem p a)) (hok : (Mgr.rotate env ks mem p a).2 = .ok ⟨v, L.map env.dig⟩) (er : Bool) :
    Mgr.rotate env ks mem p { a with erase := er } = (rotateAll mem.enc p ps L er, .ok ⟨v, L.map env.dig⟩) := by
  obtain ⟨t, cr, codes, h1, h2, h3, h4⟩ := o.made
  have hput : putPris env mem.enc L = (puts mem.enc L, .ok ()) := by
    rcases putPris_cases env mem.enc L with ⟨h, _⟩ | ⟨j, hj, h, _⟩
    · exact h
    · unfold Mgr.rotate at hok
      simp only [o.hprm, o.hsit, if_neg o.nonempty, o.read, h1, h2, h3, ← h4, h] at hok
      exact absurd hok (by simp)
  unfold Mgr.rotate
  simp only [o.hprm, o.hsit, if_neg o.nonempty, o.read, h1, h2, h3, ← h4, hput, rotateAll]

theorem advance_cases {env : Env} {w : World} {M X : List Nat} (h : KsInv env.mgr M X w.ks w.mem) {p : Nat} {nc : Int} {a : RotateArgs}
    (hc : (advance env w p nc a).2 ≠ .error .code) :
    (∃ x, advance env w p nc a = ([], .error x)) ∨ ∃ ps L, Advanced env w p nc a ps L := by
  cases hp : w.ks.prms.at' p with
  | none =>
    refine .inl ⟨.value, ?_⟩
    unfold advance Mgr.replay
    simp [hp]
  | some prm =>
  cases hs : w.ks.sits p with
  | none =>
    refine .inl ⟨.value, ?_⟩
    unfold advance Mgr.replay
    simp [hp, hs]
  | some ps =>
  have hr := fun er => replay_eq env.mgr w.ks w.mem p er (by rw [hp]; simp) hs
  cases hpub : w.ks.pubs p (ps.nxt.ridx + 1) with
  | some l =>
    simp only [hpub] at hr
    cases hrd : readPris env.mgr w.ks w.mem ps.nxt.pubs with
    | error x =>
      simp only [hrd] at hr
      by_cases hx : x = .index
      · subst hx
        refine .inl ⟨.index, ?_⟩
        unfold advance
        rw [hr]
        dsimp only
        rcases rotate_cases env.mgr w.ks w.mem p ⟨[], nc, env.seed, true, a.temp, false, a.rsalt, a.rnd⟩ with ⟨e, he⟩ | ⟨prm', ps', v, L, o⟩
        · rw [he]
          unfold Mgr.rotate at he
          simp only [hp, hs, hrd] at he
          split at he
          · rename_i hn
            rw [hn] at hrd
            simp [readPris] at hrd
          · rw [← he]
        · have hps := o.hsit
          rw [hs] at hps
          injection hps with hps
          subst hps
          have := o.read
          rw [hrd] at this
          exact absurd this (by simp)
      · refine .inl ⟨x, ?_⟩
        unfold advance
        rw [hr]
        cases x <;> first | rfl | exact absurd rfl hx
    | ok v =>
      obtain ⟨rfl, hv⟩ := readPris_ok h.kept hrd
      simp only [hrd] at hr
      refine .inr ⟨ps, l, by rw [hp]; simp, hs, ?_, hv, .inl ⟨hpub, ?_, hr⟩⟩
      · unfold advance; rw [hr]
      · unfold advance; rw [hr]
  | none =>
    simp only [hpub] at hr
    have hadv : advance env w p nc a = Mgr.rotate env.mgr w.ks w.mem p ⟨[], nc, env.seed, true, a.temp, false, a.rsalt, a.rnd⟩ := by
      unfold advance; rw [hr]
    rw [hadv] at hc
    rcases rotate_cases env.mgr w.ks w.mem p ⟨[], nc, env.seed, true, a.temp, false, a.rsalt, a.rnd⟩ with ⟨e, he⟩ | ⟨prm', ps', v, L, o⟩
    · exact .inl ⟨e, by rw [hadv, he]⟩
    · have hps := o.hsit
      rw [hs] at hps
      injection hps with hps
      subst hps
      rcases o.outcome with ⟨h1, h2⟩ | ⟨h1, _⟩
      · obtain ⟨rfl, hv⟩ := readPris_ok h.kept o.read
        refine .inr ⟨ps, L, by rw [hp]; simp, hs, by rw [hadv]; exact h1, hv, .inr ⟨hpub, o.nonempty, ?_, by rw [hadv]; exact h2, fun er => rotate_erase o h1 er⟩⟩
        obtain ⟨t, cr, codes, _, _, h3, h4⟩ := o.made
        rw [h4, create_length, expand_nil_length h3]
      · exact absurd h1 hc

/-- The writes of `advance`. -/
theorem Advanced.turns {env : Env} {w : World} {p : Nat} {nc : Int} {a : RotateArgs} {ps : Sit} {L : List Nat} (h : Advanced env w p nc a ps L) :
    ∀ x ∈ (advance env w p nc a).1, ∃ e, x.turns p e := by
  intro x hx
  rcases h.how with ⟨_, h1, _⟩ | ⟨_, _, _, h1, _⟩ <;> rw [h1] at hx
  · exact ⟨_, replayAll_turns hx⟩
  · exact ⟨_, rotateAll_turns hx⟩

/-- The keys `advance` stores. -/
theorem Advanced.stored {env : Env} {w : World} {p : Nat} {nc : Int} {a : RotateArgs} {ps : Sit} {L : List Nat} (h : Advanced env w p nc a ps L) :
    (storedKeys (advance env w p nc a).1 = L ∧ w.ks.pubs p (ps.nxt.ridx + 1) = none) ∨
      (storedKeys (advance env w p nc a).1 = [] ∧ w.ks.pubs p (ps.nxt.ridx + 1) = some L) := by
  rcases h.how with ⟨h0, h1, _⟩ | ⟨h0, _, _, h1, _⟩ <;> rw [h1]
  · exact .inr ⟨storedKeys_replayAll, h0⟩
  · exact .inl ⟨storedKeys_rotateAll, h0⟩

/-- The key store with the next keys in use, and with those before the last ones erased or not. -/
def turned (env : Env) (w : World) (p : Nat) (nc : Int) (a : RotateArgs) (ps : Sit) (er : Bool) : Ks :=
  w.ks.applyAll ((advance env w p nc a).1 ++ if er then ps.old.pubs.map .prisRem else [])

structure Turned (env : Env) (w : World) (p : Nat) (ps : Sit) (L : List Nat) (er : Bool) (ks : Ks) : Prop where
  rest : ∀ q, q ≠ p → Rest w.ks ks q
  prms : ∀ q, ks.prms.at' q = w.ks.prms.at' q
  pres : ∀ q, ks.pres q = w.ks.pres q
  sits : ∃ kx, ks.sits p = some ⟨ps.new, ps.nxt, ⟨L, ps.nxt.ridx + 1, kx⟩⟩
  pubs : ∀ j, j ≠ ps.nxt.ridx + 1 → ks.pubs p j = w.ks.pubs p j
  stash : ks.pubs p (ps.nxt.ridx + 1) = some L
  kept : ∀ k, (er = true → k ∉ ps.old.pubs) → w.ks.pris.at' k ≠ none → ks.pris.at' k ≠ none
  gone : er = true → ∀ k ∈ ps.old.pubs, ks.pris.at' k = none
  came : ∀ k, ks.pris.at' k ≠ none → w.ks.pris.at' k ≠ none ∨ k ∈ L

/-- The call of the manager that does the same, erasing or not. -/
theorem Advanced.call {env : Env} {w : World} {p : Nat} {nc : Int} {a : RotateArgs} {ps : Sit} {L : List Nat} (h : Advanced env w p nc a ps L) (er : Bool) :
    ∃ c, Plain c ∧ Mgr.exec env.mgr ⟨w.ks, some w.mem⟩ c =
      ((advance env w p nc a).1 ++ (if er then ps.old.pubs.map .prisRem else []), some w.mem, .keys ⟨ps.nxt.pubs, L.map env.mgr.dig⟩) := by
  rcases h.how with ⟨_, h1, h2⟩ | ⟨_, _, _, h1, h2⟩
  · refine ⟨.replay p true er, .inr (.inr (.inr ⟨_, _, _, rfl⟩)), ?_⟩
    simp only [Mgr.exec, withMgr, h2, h1, Res.ofKeys]
    simp [replayAll]
  · refine ⟨.rotate p ⟨[], nc, env.seed, true, a.temp, er, a.rsalt, a.rnd⟩, .inr (.inr (.inl ⟨_, _, rfl⟩)), ?_⟩
    simp only [Mgr.exec, withMgr, h2, h1, Res.ofKeys]
    simp [rotateAll]

theorem storedKeys_rems (l : List Nat) : storedKeys (l.map Wr.prisRem) = [] := by
  induction l with
  | nil => rfl
  | cons k l ih => simpa [storedKeys] using ih

theorem Advanced.turn {env : Env} {w : World} {M X : List Nat} (hk : KsInv env.mgr M X w.ks w.mem) {p : Nat} {nc : Int} {a : RotateArgs} {ps : Sit} {L : List Nat}
    (h : Advanced env w p nc a ps L) (er : Bool) (hn : (M ++ storedKeys (advance env w p nc a).1).Nodup) :
    Turned env w p ps L er (turned env w p nc a ps er) ∧ KsInv env.mgr (M ++ storedKeys (advance env w p nc a).1) X (turned env w p nc a ps er) w.mem := by
  obtain ⟨c, hpl, hc⟩ := h.call er
  have ht := h.turns
  have htt : ∀ x ∈ (advance env w p nc a).1 ++ (if er then ps.old.pubs.map Wr.prisRem else []), ∃ e, x.turns p e := by
    intro x hx
    rcases List.mem_append.1 hx with hx | hx
    · exact ht x hx
    · split at hx
      · obtain ⟨k, _, rfl⟩ := List.mem_map.1 hx; exact ⟨none, trivial⟩
      · simp at hx
  have hrest : ∀ q, q ≠ p → Rest w.ks (turned env w p nc a ps er) q := by
    intro q hq
    refine Rest.other (fun x hx r hr => ?_) q hq
    obtain ⟨e, he⟩ := htt x hx
    cases x <;> simp [Wr.turns, Wr.sitKey, Wr.prmKey, Wr.pubKey] at he hr
    · rw [← hr, he]
    · rw [← hr, he]
  have hprms : ∀ q, (turned env w p nc a ps er).prms.at' q = w.ks.prms.at' q := by
    intro q
    refine applyAll_prms fun x hx => ?_
    obtain ⟨e, he⟩ := htt x hx
    rw [he.prmKey]; simp
  have hpres : ∀ q, (turned env w p nc a ps er).pres q = w.ks.pres q := by
    intro q
    refine applyAll_pres fun x hx => ?_
    obtain ⟨e, he⟩ := htt x hx
    cases x <;> simp [Wr.turns, Wr.presKey] at he ⊢
  have hsit : (w.ks.applyAll ((advance env w p nc a).1)).sits p = some ⟨ps.new, ps.nxt, ⟨L, ps.nxt.ridx + 1, ps.nxt.kidx + ps.nxt.pubs.length⟩⟩ := by
    rcases h.how with ⟨_, h1, _⟩ | ⟨_, _, _, h1, _⟩ <;> rw [h1]
    · show ((w.ks.apply _).applyAll _).sits p = _
      rw [applyAll_sits]
      · simp [Ks.apply]
      · simp
    · show ((w.ks.apply _).applyAll (puts _ _ ++ _ ++ _)).sits p = _
      rw [applyAll_sits]
      · simp [Ks.apply]
      · intro x hx
        simp only [Bool.false_eq_true, if_false, List.append_nil, List.mem_append, List.mem_singleton] at hx
        rcases hx with hx | rfl
        · obtain ⟨k, _, rfl⟩ := mem_puts hx; simp [Wr.sitKey]
        · simp [Wr.sitKey]
  have hpub : (∀ j, j ≠ ps.nxt.ridx + 1 → (w.ks.applyAll (advance env w p nc a).1).pubs p j = w.ks.pubs p j) ∧
      (w.ks.applyAll (advance env w p nc a).1).pubs p (ps.nxt.ridx + 1) = some L := by
    rcases h.how with ⟨h0, h1, _⟩ | ⟨h0, _, _, h1, _⟩ <;> rw [h1]
    · have : (w.ks.applyAll (replayAll p ps L false)).pubs p = w.ks.pubs p := applyAll_pubs fun x hx => by
        simp [replayAll] at hx; subst hx; simp [Wr.pubKey]
      exact ⟨fun j _ => by rw [this], by rw [this]; exact h0⟩
    · have h3 : (w.ks.applyAll ([Wr.sits p ⟨ps.new, ps.nxt, ⟨L, ps.nxt.ridx + 1, ps.nxt.kidx + ps.nxt.pubs.length⟩⟩] ++ puts w.mem.enc L)).pubs p = w.ks.pubs p :=
        applyAll_pubs fun x hx => by
          rcases List.mem_append.1 hx with hx | hx
          · simp at hx; subst hx; simp [Wr.pubKey]
          · obtain ⟨k, _, rfl⟩ := mem_puts hx; simp [Wr.pubKey]
      unfold rotateAll
      simp only [Bool.false_eq_true, if_false, List.append_nil]
      rw [applyAll_append]
      generalize w.ks.applyAll ([Wr.sits p ⟨ps.new, ps.nxt, ⟨L, ps.nxt.ridx + 1, ps.nxt.kidx + ps.nxt.pubs.length⟩⟩] ++ puts w.mem.enc L) = k1 at h3
      have h4 : k1.applyAll [Wr.pubsPut p (ps.nxt.ridx + 1) L] = k1.apply (.pubsPut p (ps.nxt.ridx + 1) L) := rfl
      rw [h4]
      simp only [Ks.apply, h3, h0]
      constructor
      · intro j hj
        simp only [Kel.upd, if_true]
        rw [if_neg hj]
      · simp
  have hsit' : (turned env w p nc a ps er).sits p = some ⟨ps.new, ps.nxt, ⟨L, ps.nxt.ridx + 1, ps.nxt.kidx + ps.nxt.pubs.length⟩⟩ := by
    unfold turned
    rw [applyAll_append, applyAll_sits, hsit]
    intro x hx
    split at hx
    · obtain ⟨k, _, rfl⟩ := List.mem_map.1 hx; simp [Wr.sitKey]
    · simp at hx
  have hpubs' : (turned env w p nc a ps er).pubs p = (w.ks.applyAll (advance env w p nc a).1).pubs p := by
    unfold turned
    rw [applyAll_append, applyAll_pubs]
    intro x hx
    split at hx
    · obtain ⟨k, _, rfl⟩ := List.mem_map.1 hx; simp [Wr.pubKey]
    · simp at hx
  have hnorem : ∀ k, Wr.prisRem k ∉ (advance env w p nc a).1 := by
    intro k hx
    rcases h.how with ⟨_, h1, _⟩ | ⟨_, _, _, h1, _⟩ <;> rw [h1] at hx
    · simp [replayAll] at hx
    · simp only [rotateAll, Bool.false_eq_true, if_false, List.append_nil, List.mem_append, List.mem_singleton, reduceCtorEq, false_or, or_false] at hx
      obtain ⟨_, _, hq⟩ := mem_puts hx; cases hq
  have hkept : ∀ k, (er = true → k ∉ ps.old.pubs) → w.ks.pris.at' k ≠ none → (turned env w p nc a ps er).pris.at' k ≠ none := by
    intro k hk1 hk2
    refine applyAll_pris_kept hk2 fun hm => ?_
    rcases List.mem_append.1 hm with hm | hm
    · exact hnorem k hm
    · split at hm
      · rename_i her; exact hk1 her (by simpa using hm)
      · simp at hm
  have hgone : er = true → ∀ k ∈ ps.old.pubs, (turned env w p nc a ps er).pris.at' k = none := by
    intro her k hk
    unfold turned
    rw [applyAll_append, if_pos her]
    exact removed hk
  have hcame : ∀ k, (turned env w p nc a ps er).pris.at' k ≠ none → w.ks.pris.at' k ≠ none ∨ k ∈ L := by
    intro k hk
    have hcm : Came (storedKeys ((advance env w p nc a).1 ++ (if er then ps.old.pubs.map Wr.prisRem else []))) w.ks (turned env w p nc a ps er) :=
      came_of fun k v hm => by obtain ⟨e, he⟩ := htt _ hm; exact absurd he (by simp [Wr.turns])
    rcases hcm k hk with hc | hc
    · exact .inl hc
    · refine .inr ?_
      rw [storedKeys_append] at hc
      have hz : storedKeys (if er then ps.old.pubs.map Wr.prisRem else []) = [] := by
        split
        · exact storedKeys_rems _
        · rfl
      rw [hz, List.append_nil] at hc
      rcases h.stored with ⟨h1, _⟩ | ⟨h1, _⟩ <;> rw [h1] at hc
      · exact hc
      · simp at hc
  refine ⟨⟨hrest, hprms, hpres, ⟨_, hsit'⟩, fun j hj => by rw [hpubs']; exact hpub.1 j hj, by rw [hpubs']; exact hpub.2, hkept, hgone, hcame⟩, ?_⟩
  have hst : storedKeys (Mgr.exec env.mgr ⟨w.ks, some w.mem⟩ c).1 = storedKeys (advance env w p nc a).1 := by
    rw [hc, storedKeys_append]
    have hz : storedKeys (if er then ps.old.pubs.map Wr.prisRem else []) = [] := by
      split
      · exact storedKeys_rems _
      · rfl
    rw [hz, List.append_nil]
  have := hk.step hpl (by rw [hc]; simp) (by rw [hst]; exact hn) (by rw [hc]; intro q hq; exact fun h0 => hk.lost q hq ((hprms q).symm.trans h0)) (by
    rw [hc]
    intro q s hq1 hq2 j hj
    have hq1 : (turned env w p nc a ps er).prms.at' q ≠ none := hq1
    have hq2 : (turned env w p nc a ps er).sits q = some s := hq2
    show (turned env w p nc a ps er).pubs q j = none
    by_cases hqp : q = p
    · subst hqp
      rw [hsit'] at hq2
      injection hq2 with hq2
      subst hq2
      dsimp only at hj
      rw [hpubs', hpub.1 j (by omega)]
      exact hk.stop q ps h.prms h.sits j (by omega)
    · have r := hrest q hqp
      rw [r.pubs]
      exact hk.stop q s (by rw [← hprms]; exact hq1) (by rw [← r.sits]; exact hq2) j hj)
  rw [hst, hc] at this
  exact this

/-- The key store after a refused rotation: keys of one more set are known, the rest is as before. -/
structure Back (w : World) (p : Nat) (ps : Sit) (L : List Nat) (ks : Ks) : Prop where
  sits : ∀ q, ks.sits q = w.ks.sits q
  prms : ∀ q, ks.prms.at' q = w.ks.prms.at' q
  pres : ∀ q, ks.pres q = w.ks.pres q
  pubs : ∀ q j, ¬ (q = p ∧ j = ps.nxt.ridx + 1) → ks.pubs q j = w.ks.pubs q j
  stash : ks.pubs p (ps.nxt.ridx + 1) = some L
  kept : ∀ k, w.ks.pris.at' k ≠ none → ks.pris.at' k ≠ none
  came : ∀ k, ks.pris.at' k ≠ none → w.ks.pris.at' k ≠ none ∨ k ∈ L

theorem Advanced.back {env : Env} {w : World} {M X : List Nat} (hk : KsInv env.mgr M X w.ks w.mem) {p : Nat} {nc : Int} {a : RotateArgs} {ps : Sit} {L : List Nat}
    (h : Advanced env w p nc a ps L) (hn : (M ++ storedKeys (advance env w p nc a).1).Nodup) :
    Back w p ps L ((turned env w p nc a ps false).apply (.sits p ps)) ∧
      KsInv env.mgr (M ++ storedKeys (advance env w p nc a).1) X ((turned env w p nc a ps false).apply (.sits p ps)) w.mem := by
  obtain ⟨t, ki⟩ := h.turn hk false hn
  generalize turned env w p nc a ps false = k1 at t ki
  have b : Back w p ps L (k1.apply (.sits p ps)) := by
    refine ⟨fun q => ?_, t.prms, t.pres, fun q j hqj => ?_, t.stash, fun k hkk => t.kept k (by simp) hkk, t.came⟩
    · show Kel.upd k1.sits p (some ps) q = _
      by_cases hq : q = p
      · subst hq; simp [Kel.upd, h.sits]
      · rw [upd_ne _ _ hq]; exact (t.rest q hq).sits
    · show k1.pubs q j = _
      by_cases hq : q = p
      · subst hq; exact t.pubs j fun hc => hqj ⟨rfl, hc⟩
      · rw [(t.rest q hq).pubs]
  refine ⟨b, ?_⟩
  have hlot : ∀ q i k, InLot (k1.apply (.sits p ps)) q i k → InLot w.ks q i k ∨ (k ∈ storedKeys (advance env w p nc a).1 ∧ q = p ∧ i = 3) := by
    rintro q i k ⟨s, h1, h2, h3⟩
    rw [b.prms] at h1
    rw [b.sits] at h2
    by_cases hqi : q = p ∧ i = 3
    · obtain ⟨rfl, rfl⟩ := hqi
      rw [h.sits] at h2
      injection h2 with h2
      subst h2
      have h3 : k ∈ ((k1.apply (.sits q ps)).pubs q (ps.nxt.ridx + 1 + 0)).getD [] := h3
      rw [Nat.add_zero, b.stash] at h3
      rcases h.stored with ⟨hs, _⟩ | ⟨_, hs⟩
      · rw [hs]; exact .inr ⟨h3, rfl, rfl⟩
      · refine .inl ⟨ps, h1, h.sits, ?_⟩
        show k ∈ (w.ks.pubs q (ps.nxt.ridx + 1 + 0)).getD []
        rw [Nat.add_zero, hs]; exact h3
    · refine .inl ⟨s, h1, h2, ?_⟩
      match i, h3 with
      | 0, h3 => exact h3
      | 1, h3 => exact h3
      | 2, h3 => exact h3
      | i + 3, h3 =>
        have h3 : k ∈ ((k1.apply (.sits p ps)).pubs q (s.nxt.ridx + 1 + i)).getD [] := h3
        show k ∈ (w.ks.pubs q (s.nxt.ridx + 1 + i)).getD []
        rw [b.pubs] at h3
        · exact h3
        · rintro ⟨hq, hj⟩
          subst hq
          rw [h.sits] at h2
          injection h2 with h2
          subst h2
          exact hqi ⟨rfl, by omega⟩
  refine ⟨ki.kept.apply trivial, ?_, ?_, ?_, ?_, fun q hq => by rw [b.prms]; exact hk.lost q hq, ?_, ?_⟩
  · refine ⟨?_, fun mem hm => ?_⟩
    · have := ki.enc.shut.apply (w := .sits p ps) trivial
      exact this
    · exact ki.enc.mgr mem hm
  · intro q hq
    have : w.ks.pres q ≠ none := by
      rcases hq with hq | hq | ⟨j, hq⟩
      · exact hk.known q (.inl (by rw [← b.prms]; exact hq))
      · exact hk.known q (.inr (.inl (by rw [← b.sits]; exact hq)))
      · by_cases hqj : q = p ∧ j = ps.nxt.ridx + 1
        · rw [hqj.1]; exact hk.known p (.inl h.prms)
        · exact hk.known q (.inr (.inr ⟨j, by rw [← b.pubs q j hqj]; exact hq⟩))
    rw [b.pres]; exact this
  · intro q x hq
    rw [b.prms] at hq
    exact hk.algos q x hq
  · refine hk.lots.pass hn (fun q i q' i' => q = q' ∧ i = i') (fun q i k => q = p ∧ i = 3) (fun q i k hl => ?_) ?_ ?_
    · rcases hlot q i k hl with hl | ⟨h1, h2⟩
      · exact .inl ⟨q, i, ⟨rfl, rfl⟩, hl⟩
      · exact .inr ⟨h1, h2⟩
    · rintro q i r j q' i' ⟨rfl, rfl⟩ ⟨rfl, rfl⟩; exact ⟨rfl, rfl⟩
    · rintro q i r j k _ ⟨rfl, rfl⟩ ⟨rfl, rfl⟩; exact ⟨rfl, rfl⟩
  · intro q i k hqX hi hl
    rcases hlot q i k hl with hl | ⟨h1, rfl, rfl⟩
    · exact b.kept k (hk.whole q i k hqX hi hl)
    · obtain ⟨s, hs1, hs2, hs3⟩ := hl
      rcases h.stored with ⟨hs, _⟩ | ⟨hs, _⟩
      · rw [hs] at h1
        show k1.pris.at' k ≠ none
        obtain ⟨kx, hkx⟩ := t.sits
        exact ki.whole q 2 k hqX (by omega) ⟨_, by rw [t.prms]; exact h.prms, hkx, h1⟩
      · rw [hs] at h1; simp at h1
  · intro q s h1 h2 j hj
    rw [b.prms] at h1
    rw [b.sits] at h2
    rw [b.pubs]
    · exact hk.stop q s h1 h2 j hj
    · rintro ⟨rfl, hjj⟩
      rw [h.sits] at h2
      injection h2 with h2
      subst h2
      omega

end Verif.Hab
