import Verif.Krm.PropsLive

/-! # C99: signatures that arrive one after the other -/

namespace Verif.Krm

open Verif.Kel (Id Dig Sig)

/-! ## Pruning -/

structure SamePart (q : Id × Dig) (k k' : Krm) : Prop where
  pmkm : k'.pmkm.get q = k.pmkm.get q
  pmks : k'.pmks.get q = k.pmks.get q
  pmsk : k'.pmsk.get q = k.pmsk.get q

theorem SamePart.refl (q : Id × Dig) (k : Krm) : SamePart q k k := ⟨rfl, rfl, rfl⟩

theorem SamePart.trans {q : Id × Dig} {a b c : Krm} (h : SamePart q a b) (h' : SamePart q b c) : SamePart q a c := ⟨h'.1.trans h.1, h'.2.trans h.2, h'.3.trans h.3⟩

theorem dropPartial_same {q key : Id × Dig} (h : key ≠ q) (k k1 : Krm) (h1 : SamePart q k k1) : SamePart q k (dropPartial k1 key) := by
  refine h1.trans ?_
  unfold dropPartial
  exact ⟨(get_rem ..).trans (if_neg h), (get_rem ..).trans (if_neg h), (get_rem ..).trans (if_neg h)⟩

theorem pruneMessages_same {rdt : Int} {q : Id × Dig} {k : Krm} (h : ∀ c, (q, c) ∈ k.msgc → keepMsg rdt c = true) : SamePart q k (pruneMessages rdt k) := by
  unfold pruneMessages
  generalize k.msgc = l at h
  induction l generalizing k with
  | nil => exact .refl q k
  | cons e l ih =>
    rw [List.foldl_cons]
    have ih := fun k1 => ih (k := k1) (fun c hc => h c (List.mem_cons_of_mem _ hc))
    split
    · exact ih k
    · rename_i hk
      refine SamePart.trans (dropPartial_same (fun he => hk ?_) k { k with msgc := k.msgc.rem e.1 } ⟨rfl, rfl, rfl⟩) (ih _)
      exact h e.2 (he ▸ List.mem_cons_self)

theorem pruneExchanges_same {rdt : Int} {q : Id × Dig} {k : Krm} (h : ∀ x c, ((q.1, x, q.2), c) ∉ k.tmsc) : SamePart q k (pruneExchanges rdt k) := by
  unfold pruneExchanges
  generalize k.tmsc = l at h
  induction l generalizing k with
  | nil => exact .refl q k
  | cons e l ih =>
    rw [List.foldl_cons]
    have ih := fun k1 => ih (k := k1) (fun x c hc => h x c (List.mem_cons_of_mem _ hc))
    split
    · exact ih k
    · rename_i hk
      refine SamePart.trans (dropPartial_same (fun he => ?_) k { k with tmsc := k.tmsc.rem e.1 } ⟨rfl, rfl, rfl⟩) (ih _)
      refine h e.1.2.1 e.2 ?_
      rw [← he]
      exact List.mem_cons_self

theorem prune_same {now : Int} {q : Id × Dig} {k : Krm} (h : ∀ c, (q, c) ∈ k.msgc → keepMsg (now / 1000) c = true) (h' : ∀ x c, ((q.1, x, q.2), c) ∉ k.tmsc) :
    SamePart q k (prune now k) := by
  unfold prune
  refine (pruneMessages_same h).trans (pruneExchanges_same ?_)
  rw [pruneMessages_tmsc]
  exact h'

/-! ## Deliveries of the message -/

theorem verifyAttached_false {env : Env} {m : Msg} {ks : Ks} {kwa : Kwa} (h : (verifyAttached env m ks kwa).1 = false) : (verifyAttached env m ks kwa).2.1 = [] := by
  unfold verifyAttached at *
  dsimp only at *
  split
  · rfl
  · rename_i hc
    rw [if_neg hc] at h
    simpa using h

/-- What holds as long as the message has not been handed on. -/
inductive Gathering (past : List (Env × Int × Msg × Kwa)) (ks : Ks) (m : Msg) (mdt : Int) (r : Rec) (k : Krm) : Prop where
  | none : (∀ s, ¬ Sent past ks m s) → k.msgc.get (m.sender, m.said) = none → k.pmkm.get (m.sender, m.said) = none → k.pmks.items (m.sender, m.said) = [] →
      Gathering past ks m mdt r k
  | some {c : Cache} : k.msgc.get (m.sender, m.said) = some c → (c.mdt = mdt ∧ c.d = r.d ∧ c.pml = r.pll) → k.pmkm.get (m.sender, m.said) ≠ none →
      k.pmsk.get (m.sender, m.said) = some (ks.sn, ks.said) → ((k.pmks.items (m.sender, m.said)).map Sig.index).Nodup →
      (∀ i, i ∈ (k.pmks.items (m.sender, m.said)).map Sig.index ↔ ∃ s, Sent past ks m s ∧ s.index = i) →
      Verif.Thold.satisfy ks.kt ((k.pmks.items (m.sender, m.said)).map Sig.index) = false → Gathering past ks m mdt r k

theorem Gathering.same {past past' : List (Env × Int × Msg × Kwa)} {ks : Ks} {m : Msg} {mdt : Int} {r : Rec} {k k' : Krm} (h : Gathering past ks m mdt r k)
    (hs : ∀ s, Sent past' ks m s ↔ Sent past ks m s) (hm : k'.msgc.get (m.sender, m.said) = k.msgc.get (m.sender, m.said)) (hp : SamePart (m.sender, m.said) k k') :
    Gathering past' ks m mdt r k' := by
  have h1 : k'.pmks.items (m.sender, m.said) = k.pmks.items (m.sender, m.said) := by unfold Tab.items; rw [hp.pmks]
  cases h with
  | none a b c d => exact .none (fun s => by rw [hs]; exact a s) (hm.trans b) (hp.pmkm.trans c) (h1.trans d)
  | some a b c d e f g =>
    refine .some (hm.trans a) b (by rw [hp.pmkm]; exact c) (hp.pmsk.trans d) (by rw [h1]; exact e) (fun i => ?_) (by rw [h1]; exact g)
    rw [h1, f i]
    simp only [hs]

theorem sent_snoc {past : List (Env × Int × Msg × Kwa)} {env : Env} {now : Int} {m : Msg} {kwa : Kwa} {ks : Ks} {s : Sig} (hk : env.kevers m.sender = some ks) :
    Sent (past ++ [(env, now, m, kwa)]) ks m s ↔ Sent past ks m s ∨ Attached ks m kwa s ∧ Good env ks m s := by
  constructor
  · rintro ⟨x, hx, h1, ks', h2, h3, h4, h5⟩
    rcases List.mem_append.1 hx with hx | hx
    · exact Or.inl ⟨x, hx, h1, ks', h2, h3, h4, h5⟩
    · rw [List.mem_singleton] at hx
      subst hx
      have h2 : env.kevers m.sender = some ks' := h2
      rw [hk] at h2
      injection h2 with h2
      subst h2
      exact Or.inr ⟨h4, h5⟩
  · rintro (⟨x, hx, h1⟩ | h)
    · exact ⟨x, List.mem_append_left _ hx, h1⟩
    · exact ⟨_, List.mem_append_right _ (List.mem_singleton.2 rfl), rfl, ks, hk, rfl, h.1, h.2⟩

theorem sent_other {past : List (Env × Int × Msg × Kwa)} {x : Env × Int × Msg × Kwa} {m : Msg} {ks : Ks} {s : Sig} (hx : x.2.2.1 ≠ m) :
    Sent (past ++ [x]) ks m s ↔ Sent past ks m s := by
  constructor
  · rintro ⟨y, hy, h1, h2⟩
    rcases List.mem_append.1 hy with hy | hy
    · exact ⟨y, hy, h1, h2⟩
    · rw [List.mem_singleton.1 hy] at h1
      exact absurd h1 hx
  · rintro ⟨y, hy, h1⟩
    exact ⟨y, List.mem_append_left _ hy, h1⟩

/-- A delivery of the message hands it on or adds the signatures that come with it. -/
theorem kramit_gather {past : List (Env × Int × Msg × Kwa)} {env : Env} {now mdt : Int} {k : Krm} {m : Msg} {kwa : Kwa} {ks : Ks} {r : Rec} (hl : Lone m)
    (hm : m.stamp = some mdt) (hr : fetch k.ctyp m = .ok r) (hk : env.kevers m.sender = some ks) (hks : ks.keys.length ≠ 1) (hn : ¬ HasSeal m kwa) (ho : ¬ OwnSig env m kwa)
    (ht : InTime now mdt r true) (h1 : OnePerIndex [(env, now, m, kwa)]) (hG : Gathering past ks m mdt r k) :
    isPass (kramit env now k m kwa).2 = true ∨ Gathering (past ++ [(env, now, m, kwa)]) ks m mdt r (kramit env now k m kwa).1 := by
  have hns : hasSeals m.sender (normLast m.sender (normSeals m.sender kwa)) = false := by
    cases h : hasSeals m.sender (normLast m.sender (normSeals m.sender kwa)) with
    | false => rfl
    | true => exact absurd (hasSeals_norm h) hn
  have hno : ¬ OwnSig env m (normLast m.sender (normSeals m.sender kwa)) := fun h => ho (ownSig_norm h)
  have hV : ∀ s, s ∈ (verifyAttached env m ks (normLast m.sender (normSeals m.sender kwa))).2.1 ↔ Attached ks m kwa s ∧ Good env ks m s := fun s => by
    rw [verifyAttached_iff hno]
    exact ⟨fun h => ⟨attached_norm h.1, h.2⟩, fun h => ⟨norm_attached h.1, h.2⟩⟩
  have hVn := verifyAttached_nodup env m ks (normLast m.sender (normSeals m.sender kwa))
  have hVi : ∀ s ∈ (verifyAttached env m ks (normLast m.sender (normSeals m.sender kwa))).2.1, ∀ s' ∈ (verifyAttached env m ks (normLast m.sender (normSeals m.sender kwa))).2.1,
      s.index = s'.index → s = s' := fun s hs s' hs' e =>
    h1 _ (List.mem_singleton.2 rfl) ks hk s s' ((hV s).1 hs).1 ((hV s).1 hs).2 ((hV s').1 hs').1 ((hV s').1 hs').2 e
  have hkeep : (verifyAttached env m ks (normLast m.sender (normSeals m.sender kwa))).2.1 = [] → Gathering (past ++ [(env, now, m, kwa)]) ks m mdt r k := fun he =>
    hG.same (fun s => by
      rw [sent_snoc hk]
      refine or_iff_left fun h => ?_
      have := (hV s).2 h
      rw [he] at this
      simp at this) rfl (.refl _ _)
  have hkeep0 : hasSigs m.sender (normLast m.sender (normSeals m.sender kwa)) = false → Gathering (past ++ [(env, now, m, kwa)]) ks m mdt r k := fun he =>
    hG.same (fun s => by
      rw [sent_snoc hk]
      refine or_iff_left fun h => ?_
      rw [hasSigs_attached h.1] at he
      simp at he) rfl (.refl _ _)
  generalize hW : verifyAttached env m ks (normLast m.sender (normSeals m.sender kwa)) = v at *
  unfold kramit
  rw [hm]
  dsimp only
  rw [hns, lone_exId hl]
  dsimp only
  cases hsg : hasSigs m.sender (normLast m.sender (normSeals m.sender kwa)) with
  | false => exact Or.inr (hkeep0 hsg)
  | true =>
    simp only [Bool.not_false, Bool.not_true, Bool.and_false, Bool.false_eq_true, if_false]
    cases hG with
    | none a b c d =>
      rw [b]
      dsimp only
      unfold fresh1
      rw [hr]
      dsimp only
      rw [hk]
      dsimp only
      have hres : resolve env m (normLast m.sender (normSeals m.sender kwa)) ks false true = some (.asmk, false) := by
        unfold resolve sigAuth
        rw [if_neg hks]
        rfl
      rw [hres]
      dsimp only
      rw [inTime_timely (auth := .asmk) ht (fun r => rfl)]
      simp only [Bool.not_true, Bool.false_eq_true, if_false]
      unfold authenticate
      dsimp only
      rw [hW]
      cases hv : v.1 with
      | false => exact Or.inr (hkeep (by rw [← hW] at hv ⊢; exact verifyAttached_false hv))
      | true =>
        simp only [Bool.not_true, Bool.false_eq_true, if_false]
        cases hsat : Verif.Thold.satisfy ks.kt (v.2.1.map Sig.index) with
        | true => exact Or.inl rfl
        | false =>
          refine Or.inr ?_
          simp only [Bool.false_eq_true, if_false]
          have hit : (addSigs k.pmks (m.sender, m.said) v.2.1).items (m.sender, m.said) = v.2.1 := by
            rw [addSigs_items v.2.1 k.pmks hVn (by rw [d]; simp), d, List.nil_append]
          refine .some (c := _) ((get_pin ..).trans (if_pos rfl)) ⟨rfl, rfl, rfl⟩ ?_ ((get_pin ..).trans (if_pos rfl)) ?_ (fun i => ?_) ?_
          · dsimp only
            rw [get_put, if_pos ⟨rfl, c⟩]
            simp
          · dsimp only
            rw [hit]
            exact map_index_nodup hVn hVi
          · dsimp only
            rw [hit, List.mem_map]
            constructor
            · rintro ⟨s, hs, hi⟩
              exact ⟨s, (sent_snoc hk).2 (Or.inr ((hV s).1 hs)), hi⟩
            · rintro ⟨s, hs, hi⟩
              rcases (sent_snoc hk).1 hs with h | h
              · exact absurd h (a s)
              · exact ⟨s, (hV s).2 h, hi⟩
          · dsimp only
            rw [hit]
            exact hsat
    | @some cc a b c d e f g =>
      rw [a]
      dsimp only
      unfold again
      rw [if_neg (fun h => c h.2)]
      simp only [Bool.not_true, Bool.and_false, Bool.false_eq_true, if_false, Bool.and_true]
      rw [hk]
      dsimp only
      rw [if_neg hks]
      unfold accumulate
      dsimp only
      rw [hW]
      cases hv : v.1 with
      | false =>
        rw [if_pos rfl]
        exact Or.inr (hkeep (by rw [← hW] at hv ⊢; exact verifyAttached_false hv))
      | true =>
        rw [if_neg (by simp)]
        have hst : stale (k.pmsk.get (m.sender, m.said)) ks = false := by rw [d]; simp [stale]
        rw [hst, if_neg (by simp)]
        have hU : ∀ s, s ∈ unseen (k.pmks.items (m.sender, m.said)) v.2.1 ↔ s ∈ v.2.1 ∧ s.index ∉ (k.pmks.items (m.sender, m.said)).map Sig.index := fun s => by
          unfold unseen
          rw [List.mem_filter]
          simp
        have hUn : (unseen (k.pmks.items (m.sender, m.said)) v.2.1).Nodup := hVn.filter _
        have hit : (addSigs k.pmks (m.sender, m.said) (unseen (k.pmks.items (m.sender, m.said)) v.2.1)).items (m.sender, m.said) =
            k.pmks.items (m.sender, m.said) ++ unseen (k.pmks.items (m.sender, m.said)) v.2.1 :=
          addSigs_items _ _ hUn (fun s hs h => ((hU s).1 hs).2 (List.mem_map.2 ⟨s, h, rfl⟩))
        split
        · exact Or.inl rfl
        · rename_i hsat
          refine Or.inr ?_
          unfold gather
          dsimp only
          refine .some (c := cc) a b ?_ ?_ ?_ (fun i => ?_) ?_
          · dsimp only
            split
            · rw [get_put]
              split
              · simp
              · exact c
            · exact c
          · dsimp only
            rw [if_neg (fun h => by rw [d] at h; simp at h)]
            exact d
          · dsimp only
            rw [hit, List.map_append, List.nodup_append]
            refine ⟨e, map_index_nodup hUn (fun s hs s' hs' => hVi s ((hU s).1 hs).1 s' ((hU s').1 hs').1), ?_⟩
            intro i hi j hj hij
            obtain ⟨s, hs, h2⟩ := List.mem_map.1 hj
            exact ((hU s).1 hs).2 (by rw [h2, ← hij]; exact hi)
          · dsimp only
            rw [hit, List.map_append, List.mem_append, f i]
            constructor
            · rintro (⟨s, hs, hi⟩ | h)
              · exact ⟨s, (sent_snoc hk).2 (Or.inl hs), hi⟩
              · obtain ⟨s, hs, hi⟩ := List.mem_map.1 h
                exact ⟨s, (sent_snoc hk).2 (Or.inr ((hV s).1 ((hU s).1 hs).1)), hi⟩
            · rintro ⟨s, hs, hi⟩
              rcases (sent_snoc hk).1 hs with h | h
              · exact Or.inl ⟨s, h, hi⟩
              · by_cases hin : s.index ∈ (k.pmks.items (m.sender, m.said)).map Sig.index
                · exact Or.inl ((f i).1 (hi ▸ hin))
                · exact Or.inr (List.mem_map.2 ⟨s, (hU s).2 ⟨(hV s).2 h, hin⟩, hi⟩)
          · dsimp only
            rw [hit]
            by_cases he : k.pmks.items (m.sender, m.said) ++ unseen (k.pmks.items (m.sender, m.said)) v.2.1 = []
            · rw [he]; exact Verif.Kel.satisfy_nil _
            · cases hq : Verif.Thold.satisfy ks.kt ((k.pmks.items (m.sender, m.said) ++ unseen (k.pmks.items (m.sender, m.said)) v.2.1).map Sig.index) with
              | false => rfl
              | true => exact absurd ⟨he, hq⟩ hsat

/-! ## Histories -/

/-- How the message arrives: with this key state of its sender, without seals, in time. -/
def Arrives (ks : Ks) (m : Msg) (mdt : Int) (r : Rec) (l : List Step) : Prop :=
  ∀ x ∈ delivered l, x.2.2.1 = m → x.1.kevers m.sender = some ks ∧ ¬ HasSeal m x.2.2.2 ∧ ¬ OwnSig x.1 m x.2.2.2 ∧ InTime x.2.1 mdt r true

theorem gather_passes {ks : Ks} {m : Msg} {mdt : Int} {r : Rec} {ct : Tab Ctype Rec} (hl : Lone m) (hm : m.stamp = some mdt) (hr : fetch ct m = .ok r) (hks : ks.keys.length ≠ 1) :
    ∀ (l : List Step) (past : List (Env × Int × Msg × Kwa)) (k : Krm), Uniq k → (∀ x c, ((m.sender, x, m.said), c) ∉ k.tmsc) → Along (Settings ct) k l → Along (Guards m) k l →
      Binds m l → Arrives ks m mdt r l → OnePerIndex (delivered l) → (∀ t, .prune t ∈ l → mdt ≤ t + 1000 * r.d ∧ t ≤ mdt + 1000 * (r.d + r.pll)) →
      Gathering past ks m mdt r k → 1 ≤ passes m.sender m.said k l ∨ Gathering (past ++ delivered l) ks m mdt r (run k l)
  | [], past, k, _, _, _, _, _, _, _, _, h => Or.inr (by simpa [delivered, run] using h)
  | a :: l, past, k, hu, hx, hset, hg, hb, ha, h1, hp, h => by
    have hrest : (1 ≤ passes m.sender m.said (step k a) l ∨ Gathering ((past ++ delivered [a]) ++ delivered l) ks m mdt r (run (step k a) l)) →
        1 ≤ passes m.sender m.said k (a :: l) ∨ Gathering (past ++ delivered (a :: l)) ks m mdt r (run k (a :: l)) := by
      rintro (h | h)
      · refine Or.inl ?_
        show 1 ≤ _ + passes m.sender m.said (step k a) l
        omega
      · rw [delivered_cons, ← List.append_assoc]
        exact Or.inr h
    have ih := fun hx hG => gather_passes hl hm hr hks l (past ++ delivered [a]) (step k a) (step_uniq hu) hx hset.2 hg.2 hb.tail (fun x hx => ha x (delivered_tail hx))
      (fun x hx => h1 x (delivered_tail hx)) (fun t ht => hp t (List.mem_cons_of_mem _ ht)) hG
    have hset1 : Settings ct k := hset.1
    have hg1 : Guards m k := hg.1
    cases a with
    | deliver env now m' kwa =>
      have hst : step k (.deliver env now m' kwa) = (deliver env now k m' kwa).1 := rfl
      by_cases hmm : (m'.sender, m'.said) = (m.sender, m.said)
      · have he : m' = m := hb (env, now, m', kwa) List.mem_cons_self (congrArg Prod.fst hmm) (congrArg Prod.snd hmm)
        subst he
        have hd : deliver env now k m' kwa = kramit env now k m' kwa := by
          unfold deliver
          rw [reconcile_id hset1.2]
          unfold intake
          dsimp only
          rw [hg1.1, hg1.2, if_pos rfl, if_neg (by simp)]
        obtain ⟨a1, a2, a3, a4⟩ := ha (env, now, m', kwa) List.mem_cons_self rfl
        rcases kramit_gather hl hm (by rw [hset1.1]; exact hr) a1 hks a2 a3 a4 (fun x hx => h1 x (by rw [List.mem_singleton.1 hx]; exact List.mem_cons_self)) h with h2 | h2
        · refine Or.inl ?_
          show 1 ≤ (match handed k (.deliver env now m' kwa) with | some m => if m.sender = m'.sender ∧ m.said = m'.said then 1 else 0 | none => 0) + _
          rw [handed_deliver, hd, h2]
          simp only [if_true, and_self]
          omega
        · refine hrest (ih ?_ ?_)
          · rw [hst, hd]
            rcases kramit_tmsc env now k m' kwa with h3 | ⟨x, _, _, _, _, h3, _⟩
            · rw [h3]; exact hx
            · rw [lone_exId hl] at h3; simp at h3
          · rw [hst, hd]
            exact h2
      · have hap := kramit_apart env now (reconcile now k).1 m' kwa
        rw [reconcile_id hset1.2] at hap
        have hne : (m.sender, m.said) ≠ (m'.sender, m'.said) := fun e => hmm e.symm
        have hap : Apart m' k (step k (.deliver env now m' kwa)) := by
          rw [hst]
          rcases deliver_cases env now k m' kwa with h3 | h3
          · rw [h3, reconcile_id hset1.2]; exact .refl _ _
          · rw [h3, reconcile_id hset1.2]; exact hap
        refine hrest (ih ?_ (h.same (fun s => sent_other (fun e => hmm (by dsimp only at e; rw [e]))) ?_ ⟨hap.pmkm _ hne, hap.pmks _ hne, hap.pmsk _ hne⟩))
        · intro x c hc
          exact hx x c ((hap.tmsc (m.sender, x, m.said) hne c).1 hc)
        · exact hap.getm _ hne
    | prune t =>
      have hpt := hp t List.mem_cons_self
      have hkeep : ∀ c, ((m.sender, m.said), c) ∈ k.msgc → keepMsg (t / 1000) c = true := by
        intro c hc
        cases h with
        | none _ b _ _ =>
          obtain ⟨w, hw⟩ := get_of_mem hc
          rw [b] at hw
          simp at hw
        | some a b _ _ _ _ _ =>
          rw [uniq_mem hu.1 a hc]
          unfold keepMsg
          rw [b.1, b.2.1, b.2.2]
          exact decide_eq_true (by omega)
      refine hrest (ih ?_ (h.same (fun s => by simp [delivered]) ?_ (prune_same hkeep hx)))
      · intro x c hc
        exact hx x c ((prune_less t k).tmsc _ hc)
      · rcases prune_msgc t k (m.sender, m.said) with h2 | ⟨c, h2, h3⟩
        · exact h2
        · rw [hkeep c h2] at h3; simp at h3
    | change now cf o =>
      have ht := (changeConfig_held now k cf o).tables
      have hst : step k (.change now cf o) = (changeConfig now k cf o).1 := rfl
      rw [← hst] at ht
      exact hrest (ih (by rw [ht.tmsc]; exact hx) (h.same (fun s => by simp [delivered]) (by rw [ht.msgc]) ⟨by rw [ht.pmkm], by rw [ht.pmks], by rw [ht.pmsk]⟩))
    | restart now e d cf =>
      have ht := restart_tables k now e d cf
      exact hrest (ih (by rw [ht.tmsc]; exact hx) (h.same (fun s => by simp [delivered]) (by rw [ht.msgc]) ⟨by rw [ht.pmkm], by rw [ht.pmks], by rw [ht.pmsk]⟩))

/-- **C99.**  A message of a sender with several keys is handed on once the signatures that came with it, over all its deliveries, satisfy the threshold, if nothing is
pruned before its time. -/
theorem c99_gathered {k : Krm} {l : List Step} {m : Msg} {mdt : Int} {ct : Tab Ctype Rec} {r : Rec} {ks : Ks} {is : List Nat} (hf : Fresh k) (hset : Along (Settings ct) k l)
    (hg : Along (Guards m) k l) (hb : Binds m l) (hl : Lone m) (hm : m.stamp = some mdt) (hr : fetch ct m = .ok r) (hks : ks.keys.length ≠ 1) (ha : Arrives ks m mdt r l)
    (h1 : OnePerIndex (delivered l)) (hp : ∀ t, .prune t ∈ l → mdt ≤ t + 1000 * r.d ∧ t ≤ mdt + 1000 * (r.d + r.pll))
    (hn : is.Nodup) (hi : ∀ i, i ∈ is ↔ ∃ s, Sent (delivered l) ks m s ∧ s.index = i) (hs : Verif.Thold.satisfy ks.kt is = true) : 1 ≤ passes m.sender m.said k l := by
  have h0 : Gathering [] ks m mdt r k := by
    refine .none ?_ (by rw [hf.1]; rfl) (by rw [hf.2.2.1]; rfl) (by rw [hf.2.2.2.1]; rfl)
    rintro s ⟨x, hx, _⟩
    simp at hx
  rcases gather_passes hl hm hr hks l [] k (fresh_uniq hf) (by rw [hf.2.1]; simp) hset hg hb ha h1 hp h0 with h | h
  · exact h
  · rw [List.nil_append] at h
    exfalso
    have hne : is ≠ [] := by intro he; rw [he, Verif.Kel.satisfy_nil] at hs; simp at hs
    cases h with
    | none a _ _ _ =>
      obtain ⟨i, hi1⟩ := List.exists_mem_of_ne_nil _ hne
      obtain ⟨s, h2, _⟩ := (hi i).1 hi1
      exact a s h2
    | some _ _ _ _ e f g =>
      have hperm : ((run k l).pmks.items (m.sender, m.said)).map Sig.index |>.Perm is := (List.perm_ext_iff_of_nodup e hn).2 (fun i => by rw [f, hi])
      rw [satisfy_perm hperm, hs] at g
      simp at g

end Verif.Krm
