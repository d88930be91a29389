import Verif.Bsr.PropsKept
import Verif.Bsr.Find

/-!
# C166: one pass over the escrows accepts a complete chain of sealed events
-/

namespace Verif.Bsr

open Verif.Kel (Id Dig Node Seal)

/-! ## The queue is drained as far as it goes -/

theorem verdict_congr {s s' : Store} (h1 : s'.evts = s.evts) (h2 : s'.tels = s.tels) (h3 : s'.ancs = s.ancs) (k : Dig) (n : Nat) (d : Dig) :
    verdict s' k n d = verdict s k n d := by
  have hq : ∀ k n, s'.seqEvent k n = s.seqEvent k n := fun k n => by unfold Store.seqEvent; rw [h1, h2]
  have hb : ∀ k n, s'.before k n = s.before k n := fun k n => by cases n with
    | zero => rfl
    | succ n => exact hq k n
  unfold verdict; rw [h1, h3, hq, hb]

def NoAddO (l : List Wr) : Prop := ∀ k n d, Wr.addO k n d ∉ l

theorem sub1 {w : Wr} (s : Store) (k : Dig) (h : ∀ k n d, w ≠ .addO k n d) : ((s.apply w).ooes k).Sublist (s.ooes k) := by
  cases w with
  | addO k' n d => exact absurd rfl (h k' n d)
  | remO k' n d =>
    simp only [Store.apply, put]
    split
    · rename_i hk; subst hk; exact List.filter_sublist
    · exact List.Sublist.refl _
  | tel k' n d => simp only [Store.apply]; split <;> exact List.Sublist.refl _
  | _ => exact List.Sublist.refl _

theorem subAll (l : List Wr) (s : Store) (k : Dig) (h : NoAddO l) : ((s.applyAll l).ooes k).Sublist (s.ooes k) := by
  induction l generalizing s with
  | nil => exact List.Sublist.refl _
  | cons w l ih =>
    exact (ih (s.apply w) (fun k n d hm => h k n d (List.mem_cons_of_mem _ hm))).trans (sub1 s k (fun k n d he => h k n d (by rw [he]; exact List.mem_cons_self)))

theorem remAll (l : List Wr) (s : Store) (k : Dig) (n : Nat) (d : Dig) (h : NoAddO l) (hm : Wr.remO k n d ∈ l) : (n, d) ∉ (s.applyAll l).ooes k := by
  induction l generalizing s with
  | nil => cases hm
  | cons w l ih =>
    have hl : NoAddO l := fun k n d hm => h k n d (List.mem_cons_of_mem _ hm)
    rcases List.mem_cons.1 hm with rfl | hm
    · intro hc
      have := (subAll l (s.apply (.remO k n d)) k hl).subset hc
      simp only [Store.apply, put_same] at this
      exact ((mem_ioRem _ _ _ _).1 this).2 rfl
    · exact ih _ hl hm

theorem noAdd_commit (s : Store) (e : REvt) : NoAddO (commit s e) := fun k n d hm => by
  obtain ⟨l, h1, h2⟩ := commit_parts s e
  rw [h1] at hm
  rcases List.mem_append.1 hm with hm | hm
  · simp at hm
  · rcases h2 _ hm with ⟨_, _, _, h⟩ | ⟨_, _, _, h⟩ <;> cases h

theorem commit_removes (s : Store) (e : REvt) (d : Dig) : (e.n, d) ∉ (s.applyAll (commit s e)).ooes e.regk := fun hm => by
  have hin := (subAll _ s e.regk (noAdd_commit s e)).subset hm
  refine remAll _ s e.regk e.n d (noAdd_commit s e) ?_ hm
  unfold commit
  exact List.mem_append_right _ (List.mem_map.2 ⟨d, (mem_at _ _ _).2 hin, rfl⟩)

theorem noAdd_walk (k : Dig) (n : Nat) (l : List Dig) (s : Store) : NoAddO (walk s k n l).1 := by
  induction l generalizing s with
  | nil => intro k n d h; cases h
  | cons d l ih =>
    unfold walk
    split
    · intro k' n' d' hm
      rcases List.mem_append.1 hm with hm | hm
      · simp [clear] at hm
      · exact ih _ k' n' d' hm
    · exact ih s
    · exact noAdd_commit s _

theorem walk_none (k : Dig) (n : Nat) (l : List Dig) (s : Store) (h : (walk s k n l).2 = none) :
    (s.applyAll (walk s k n l).1).evts = s.evts ∧ (s.applyAll (walk s k n l).1).tels = s.tels ∧ (s.applyAll (walk s k n l).1).ancs = s.ancs ∧
      (s.applyAll (walk s k n l).1).heads = s.heads ∧ ∀ d ∈ l, ∀ e, verdict s k n d ≠ .commit e := by
  induction l generalizing s with
  | nil => exact ⟨rfl, rfl, rfl, rfl, fun d hd => by cases hd⟩
  | cons d l ih =>
    unfold walk at h ⊢
    cases hv : verdict s k n d with
    | clear =>
      rw [hv] at h
      dsimp only at h ⊢
      obtain ⟨h1, h2, h3, h4, h5⟩ := ih _ h
      rw [applyAll_append, h1, h2, h3, h4]
      refine ⟨rfl, rfl, rfl, rfl, fun x hx e => ?_⟩
      rcases List.mem_cons.1 hx with rfl | hx
      · rw [hv]; simp
      · have := h5 x hx e
        rw [verdict_congr (s := s) (s' := s.applyAll (clear k n d)) rfl rfl rfl] at this; exact this
    | wait =>
      rw [hv] at h
      dsimp only at h ⊢
      obtain ⟨h1, h2, h3, h4, h5⟩ := ih _ h
      refine ⟨h1, h2, h3, h4, fun x hx e => ?_⟩
      rcases List.mem_cons.1 hx with rfl | hx
      · rw [hv]; simp
      · exact h5 x hx e
    | commit e => rw [hv] at h; cases h

theorem walk_some {V : REvt → Prop} (hnc : NoColl V) {k : Dig} {n : Nat} (l : List Dig) {s : Store} (hi : SInv V s) (hq : Queued s k n l) {e : REvt}
    (h : (walk s k n l).2 = some e) : e.regk = k ∧ e.n = n ∧ e.said ∈ l ∧ (n, e.said) ∉ (s.applyAll (walk s k n l).1).ooes k := by
  induction l generalizing s with
  | nil => cases h
  | cons d l ih =>
    have hq' : ∀ s', Ext s s' → Queued s' k n l := fun s' hx =>
      ⟨hq.1, fun d hd => let ⟨e, a, b⟩ := hq.2 d (List.mem_cons_of_mem _ hd); ⟨e, hx.evts _ _ a, b⟩⟩
    unfold walk at h ⊢
    cases hv : verdict s k n d with
    | clear =>
      rw [hv] at h
      have hg := good_inv hnc hi (good_clear (V := V) (J := fun _ _ => True) s k n d)
      obtain ⟨h1, h2, h3, h4⟩ := ih hg.1 (hq' _ hg.2) h
      refine ⟨h1, h2, List.mem_cons_of_mem _ h3, ?_⟩
      dsimp only; rw [applyAll_append]; exact h4
    | wait =>
      rw [hv] at h
      obtain ⟨h1, h2, h3, h4⟩ := ih hi (hq' _ (Ext.refl _)) h
      exact ⟨h1, h2, List.mem_cons_of_mem _ h3, h4⟩
    | commit x =>
      rw [hv] at h
      cases h
      obtain ⟨e0, h0, hs⟩ := hq.2 d List.mem_cons_self
      obtain ⟨rfl, hsaid, _⟩ := verdict_ready hi h0 hs hq.1 hv
      refine ⟨hs.regk, hs.num, by rw [hsaid]; exact List.mem_cons_self, ?_⟩
      have := commit_removes s e e.said
      rw [hs.regk, hs.num] at this; exact this

/-- The rounds of `drain` are enough: afterwards nothing that is queued for the next number can be committed. -/
theorem drain_stops {V : REvt → Prop} (hnc : NoColl V) (f : Nat) {s : Store} (hi : SInv V s) (k : Dig) (hf : (s.ooes k).length < f) (d : Dig) (e : REvt)
    (hd : d ∈ at' ((s.applyAll (drain f s k)).ooes k) ((s.applyAll (drain f s k)).next k)) :
    verdict (s.applyAll (drain f s k)) k ((s.applyAll (drain f s k)).next k) d ≠ .commit e := by
  induction f generalizing s with
  | zero => omega
  | succ f ih =>
    unfold drain at hd ⊢
    by_cases h : at' (s.ooes k) (s.next k) = []
    · rw [if_pos h] at hd
      have hd' : d ∈ at' (s.ooes k) (s.next k) := hd
      rw [h] at hd'; cases hd'
    · rw [if_neg h] at hd ⊢
      have hq := queued_of hi k _ h
      cases hw : walk s k (s.next k) (sortQ s (at' (s.ooes k) (s.next k))) with
      | mk ws r =>
        rw [hw] at hd
        cases r with
        | none =>
          dsimp only at hd ⊢
          obtain ⟨h1, h2, h3, h4, h5⟩ := walk_none k _ _ s (by rw [hw])
          rw [hw] at h1 h2 h3 h4
          dsimp only at h1 h2 h3 h4
          have hnx : (s.applyAll ws).next k = s.next k := by unfold Store.next Store.headEvent; rw [h4, h1]
          rw [hnx] at hd ⊢
          rw [verdict_congr h1 h2 h3]
          refine h5 d ((mem_sortQ _ _ _).2 ((mem_at _ _ _).2 ?_)) e
          have hna := noAdd_walk k (s.next k) (sortQ s (at' (s.ooes k) (s.next k))) s
          rw [hw] at hna
          exact (subAll ws s k hna).subset ((mem_at _ _ _).1 hd)
        | some x =>
          dsimp only at hd ⊢
          obtain ⟨h1, h2, h3, h4⟩ := walk_some hnc _ hi hq (e := x) (by rw [hw])
          have hb := blk_walk hnc (J := fun _ _ => True) (R := fun _ => True) _ hi hq rfl
          rw [hw] at h4 hb
          dsimp only at h4 hb
          rw [h1, applyAll_append] at hd ⊢
          refine ih (blk_inv hnc hi hb.1).1 ?_ hd
          have hna := noAdd_walk k (s.next k) (sortQ s (at' (s.ooes k) (s.next k))) s
          rw [hw] at hna
          have hsub := subAll ws s k hna
          have hin : (s.next k, x.said) ∈ s.ooes k := (mem_at _ _ _).1 ((mem_sortQ _ _ _).1 h3)
          have hlt : ((s.applyAll ws).ooes k).length < (s.ooes k).length := by
            rcases Nat.lt_or_ge ((s.applyAll ws).ooes k).length (s.ooes k).length with hlt | hge
            · exact hlt
            · have := hsub.eq_of_length_le hge
              rw [this] at h4; exact absurd hin h4
          omega

/-! ## The chain -/

/-- The seal of the event is known or can be found. -/
def Findable (nd : Node) (hab : Id) (s : Store) (e : REvt) : Prop :=
  (s.ancs e.said).isSome = true ∨ ∃ a, nd.findSeal hab e.seal = some a ∧ verifyAnchor nd hab e (a.sn, a.said) = true

theorem anc_found {nd : Node} {hab : Id} {s : Store} {e : REvt} (h : Findable nd hab s e) :
    ((s.applyAll (.evt e :: anchorWrites nd s hab e)).ancs e.said).isNone ≠ true := by
  unfold anchorWrites
  cases ha : s.ancs e.said with
  | some c =>
    show ¬ (s.ancs e.said).isNone = true
    rw [ha]; simp
  | none =>
    rcases h with h | ⟨a, h1, h2⟩
    · rw [ha] at h; cases h
    · rw [h1]
      dsimp only
      rw [if_pos h2]
      show ¬ (put s.ancs e.said (some (a.sn, a.said)) e.said).isNone = true
      rw [put_same]; simp

theorem found_processEvent {nd : Node} {s : Store} {o : Obj} {e : REvt} (hv : validate s o e ≠ none) (hf : Findable nd o.hab s e) :
    (processEvent nd s o e).out = some true ∨ (e.n, e.said) ∈ (s.applyAll (processEvent nd s o e).ws).ooes e.regk := by
  unfold processEvent
  cases h : validate s o e with
  | none => exact absurd h hv
  | some r =>
    obtain ⟨x, prior⟩ := r
    cases x with
    | some x => exact .inl rfl
    | none =>
      dsimp only
      rw [if_neg (anc_found hf)]
      unfold advance
      split
      · exact .inl rfl
      · right
        dsimp only
        rw [applyAll_append]
        show _ ∈ put _ e.regk (ioAdd _ e.n e.said) e.regk
        rw [put_same]; exact (mem_ioAdd _ _ _ _).2 (.inr rfl)

/-- The chain of events of registry `k` up to number `m`. -/
structure ChainOf (V : REvt → Prop) (k : Dig) (hab : Id) (es : Nat → REvt) (m : Nat) : Prop where
  v : ∀ i, i ≤ m → V (es i)
  slot : ∀ i, i ≤ m → Slot (es i) k i
  iss : (es 0).iss = hab
  link : ∀ i, i < m → (es (i + 1)).prior = (es i).said

theorem single_at {V : REvt → Prop} (hsg : Single V) {s : Store} (hi : SInv V s) {k : Dig} {hab : Id} {es : Nat → REvt} {m : Nat} (hc : ChainOf V k hab es m)
    {i : Nat} (him : i ≤ m) {d : Dig} (h : s.tels k i = some d) : Accepted s k i (es i) := by
  obtain ⟨x, hx, hs, _⟩ := hi.tel _ _ _ h
  have hd := hi.evt _ _ hx
  have := hsg x (es i) hd.2 (hc.v i him) (by rw [show (if x.ilk = .rip then x.said else x.rd) = x.regk from rfl, hs.regk]; exact (hc.slot i him).regk.symm)
    (by rw [hs.num, (hc.slot i him).num])
  subst this
  rw [← hd.1] at hx h
  exact ⟨h, hx⟩

theorem chain_prior {V : REvt → Prop} (hsg : Single V) {s : Store} (hi : SInv V s) {k : Dig} {hab : Id} {es : Nat → REvt} {m : Nat} (hc : ChainOf V k hab es m)
    {i : Nat} (him : i ≤ m) {p : REvt} (h : s.before k i = some p) : p.said = (es i).prior := by
  cases i with
  | zero => cases h
  | succ j =>
    have ha := accepted_of hi (show s.seqEvent k j = some p from h)
    have hb := single_at hsg hi hc (i := j) (by omega) ha.1
    have : p = es j := by
      have h1 := ha.1; rw [hb.1] at h1; injection h1 with h1
      have h2 := ha.2; rw [← h1, hb.2] at h2; injection h2 with h2; exact h2.symm
    rw [this, hc.link j (by omega)]

theorem gone_accepted {V : REvt → Prop} (hsg : Single V) {s : Store} (hi : SInv V s) {k : Dig} {hab : Id} {es : Nat → REvt} {m : Nat}
    (hc : ChainOf V k hab es m) {i : Nat} (him : i ≤ m) (h : Gone s (es i)) : Accepted s k i (es i) := by
  have hs := hc.slot i him
  unfold Gone at h
  rw [hs.regk, hs.num] at h
  rcases h with ⟨d, h⟩ | ⟨p, h1, h2⟩
  · exact single_at hsg hi hc him h
  · exact absurd (chain_prior hsg hi hc him h1) h2

theorem chain_valid {V : REvt → Prop} (hsg : Single V) {s : Store} (hi : SInv V s) {k : Dig} {es : Nat → REvt} {m : Nat} {o : Obj}
    (hc : ChainOf V k o.hab es m) (hk : o.regk = some k) {i : Nat} (him : i ≤ m) (hseq : s.seqEvent k i = none) : validate s o (es i) ≠ none := fun hv => by
  rcases validate_none (hc.slot i him) hk hseq hv with ⟨p, h1, h2⟩ | ⟨h1, h2⟩
  · exact h2 (chain_prior hsg hi hc him h1)
  · rcases (hc.slot i him).kind with ⟨_, h3⟩ | ⟨h3, _⟩
    · subst h3; exact h2 hc.iss
    · rw [h3] at h1; cases h1

/-- An event of the chain that is through, or queued. -/
def Through (s : Store) (k : Dig) (es : Nat → REvt) (i : Nat) : Prop := Accepted s k i (es i) ∨ (i, (es i).said) ∈ s.ooes k

theorem through_blk {V : REvt → Prop} (hnc : NoColl V) (hsg : Single V) {J : REvt → Nat × Dig → Prop} {R : REvt → Prop} {s : Store} {l : List Wr}
    (h : Blocks V J R s l) (hi : SInv V s) {k : Dig} {hab : Id} {es : Nat → REvt} {m : Nat} (hc : ChainOf V k hab es m) {i : Nat} (him : i ≤ m)
    (ht : Through s k es i) : Through (s.applyAll l) k es i := by
  have hx := blk_inv hnc hi h
  rcases ht with ha | hq
  · exact .inl ⟨hx.2.tels _ _ _ ha.1, hx.2.evts _ _ ha.2⟩
  · have hs := hc.slot i him
    obtain ⟨e, he, _, hn0, _⟩ := hi.ooe _ _ _ hq
    have hev := hi.evt _ _ he
    have : e = es i := hnc _ _ hev.2 (hc.v i him) hev.1
    subst this
    have := (kept_blk hnc h hi he (fun hr => by
      rcases hs.kind with ⟨_, h0⟩ | ⟨h1, _⟩
      · exact absurd h0 hn0
      · rw [h1] at hr; cases hr)).2
    rw [hs.regk, hs.num] at this
    rcases this hq with h | h
    · exact .inr h
    · exact .inl (gone_accepted hsg hx.1 hc him h)

theorem miss_chain {V : REvt → Prop} (hnc : NoColl V) (hsg : Single V) (nd : Node) {k : Dig} {es : Nat → REvt} {m : Nat} {o : Obj} {s : Store} (hi : SInv V s)
    (hc : ChainOf V k o.hab es m) (hk : o.regk = some k) {i : Nat} (him : i ≤ m) (hst : s.evts (es i).said = some (es i)) (hf : Findable nd o.hab s (es i)) :
    Through (s.applyAll (missOne nd s o k (i, (es i).said)).1) k es i := by
  have hs := hc.slot i him
  have hb := missOne_blk hnc nd hi o k hk (i, (es i).said) ⟨es i, hst, hs⟩
  have hx := blk_inv hnc hi hb
  unfold missOne at hx ⊢
  dsimp only at hx ⊢
  rw [hst] at hx ⊢
  dsimp only at hx ⊢
  by_cases hseq : (s.seqEvent k i).isSome = true
  · rw [if_pos hseq] at hx ⊢
    left
    cases hsq : s.seqEvent k i with
    | none => rw [hsq] at hseq; cases hseq
    | some x =>
      have := single_at hsg hi hc him (accepted_of hi hsq).1
      exact ⟨hx.2.tels _ _ _ this.1, hx.2.evts _ _ this.2⟩
  · rw [if_neg hseq] at hx ⊢
    have hno : s.seqEvent k i = none := by cases h : s.seqEvent k i <;> simp_all
    have hv := chain_valid hsg hi hc hk him hno
    cases ho : (processEvent nd s o (es i)).out with
    | none => exact absurd (out_none ho) hv
    | some b =>
      rw [ho] at hx
      dsimp only at hx ⊢
      rcases found_processEvent hv hf with h | h
      · left
        have := true_processEvent hnc nd hi o (hc.v i him) h
        rw [hs.regk, hs.num] at this
        exact ⟨this, hx.2.evts _ _ hst⟩
      · right
        rw [hs.regk, hs.num] at h; exact h

theorem missAll_chain {V : REvt → Prop} (hnc : NoColl V) (hsg : Single V) (nd : Node) {k : Dig} {es : Nat → REvt} {m : Nat} (l : List (Nat × Dig)) {s : Store}
    {o : Obj} (hi : SInv V s) (hc : ChainOf V k o.hab es m) (hk : o.regk = some k) (hl : ∀ x ∈ l, ∃ e, s.evts x.2 = some e ∧ Slot e k x.1) {i : Nat}
    (him : i ≤ m) (h : Through s k es i ∨ ((i, (es i).said) ∈ l ∧ Findable nd o.hab s (es i))) : Through (s.applyAll (missAll nd k l s o).1) k es i := by
  induction l generalizing s o with
  | nil =>
    rcases h with h | ⟨h, _⟩
    · exact h
    · cases h
  | cons x l ih =>
    have h1 := missOne_blk hnc nd hi o k hk x (hl x List.mem_cons_self)
    have h2 := missOne_obj nd s o k hk x
    have hx := blk_inv hnc hi h1
    have hl' : ∀ y ∈ l, ∃ e, (s.applyAll (missOne nd s o k x).1).evts y.2 = some e ∧ Slot e k y.1 := fun y hy =>
      let ⟨e, a, b⟩ := hl y (List.mem_cons_of_mem _ hy); ⟨e, hx.2.evts _ _ a, b⟩
    show Through (s.applyAll ((missOne nd s o k x).1 ++ (missAll nd k l (s.applyAll (missOne nd s o k x).1) (missOne nd s o k x).2).1)) k es i
    rw [applyAll_append]
    refine ih hx.1 (by rw [h2.1]; exact hc) h2.2 hl' ?_
    rw [h2.1]
    rcases h with h | ⟨h, hf⟩
    · exact .inl (through_blk hnc hsg h1 hi hc him h)
    · by_cases hxi : x = (i, (es i).said)
      · subst hxi
        obtain ⟨e, he, _⟩ := hl _ List.mem_cons_self
        have hev := hi.evt _ _ he
        have : e = es i := hnc _ _ hev.2 (hc.v i him) hev.1
        subst this
        exact .inl (miss_chain hnc hsg nd hi hc hk him he hf)
      · rcases List.mem_cons.1 h with h | h
        · exact absurd h.symm hxi
        · exact .inr ⟨h, hf.imp (fun h => hx.2.ancs _ h) (fun h => h)⟩

/-- C166. One pass over the escrows of a registry whose head is up to date accepts every chain of events each of which is accepted, queued, or waiting for a
seal that the key event log of its habitat now has, when nobody made competing events. -/
theorem c166_pass {env env' : Kel.Env} {U : Kel.Event → Prop} {V : REvt → Prop} (hnc : NoColl V) (hsg : Single V) (hnu : Kel.NoColl U) {w : World}
    (hr : Reached env V w) (hn : Kel.Reached env' U w.nd) (h : Nat) (o : Obj) (ho : w.objs[h]? = some o) (k : Dig) (hk : o.regk = some k)
    (hup : UpToDate w.s k) (es : Nat → REvt) (m : Nat) (hV : ∀ i, i ≤ m → V (es i)) (hnum : ∀ i, i ≤ m → (es i).n = i)
    (hrip : (es 0).ilk = .rip ∧ (es 0).said = k ∧ (es 0).iss = o.hab) (hbup : ∀ i, 0 < i → i ≤ m → (es i).ilk = .bup ∧ (es i).rd = k)
    (hlink : ∀ i, i < m → (es (i + 1)).prior = (es i).said)
    (hw : ∀ i, i ≤ m → Accepted w.s k i (es i) ∨ (i, (es i).said) ∈ w.s.ooes k ∨
      ((i, (es i).said) ∈ w.s.maes k ∧ Sealed w.nd o.hab ⟨k, i, (es i).said⟩)) :
    ∀ i, i ≤ m → Accepted (w.step env (.call (.escrows h))).s k i (es i) := by
  have hi := hr.inv hnc
  have hc : ChainOf V k o.hab es m := by
    refine ⟨hV, fun i him => ?_, hrip.2.2, hlink⟩
    by_cases h0 : i = 0
    · subst h0
      exact ⟨by unfold REvt.regk; rw [if_pos hrip.1]; exact hrip.2.1, hnum 0 him, .inl ⟨hrip.1, rfl⟩⟩
    · have := hbup i (by omega) him
      exact ⟨by unfold REvt.regk; rw [if_neg (by rw [this.1]; decide)]; exact this.2, hnum i him, .inr ⟨this.1, h0⟩⟩
  have hmb := missAll_blk hnc w.nd k (w.s.maes k) hi o hk (fun x hx => hi.mae k x.1 x.2 hx)
  have hm : ∀ i, i ≤ m → Through (w.s.applyAll (missAll w.nd k (w.s.maes k) w.s o).1) k es i := fun i him => by
    refine missAll_chain hnc hsg w.nd (w.s.maes k) hi hc hk (fun x hx => hi.mae k x.1 x.2 hx) him ?_
    rcases hw i him with h1 | h1 | ⟨h1, h2⟩
    · exact .inl (.inl h1)
    · exact .inl (.inr h1)
    · have hs := hc.slot i him
      refine .inr ⟨h1, .inr (found hnu hn o.hab (es i) ?_)⟩
      unfold REvt.seal; rw [hs.regk, hs.num]; exact h2
  have hstep : (w.step env (.call (.escrows h))).s = (w.s.applyAll (missAll w.nd k (w.s.maes k) w.s o).1).applyAll
      (processQueued (w.s.applyAll (missAll w.nd k (w.s.maes k) w.s o).1) k) := by
    show w.s.applyAll (w.onObj h _).ws = _
    rw [onObj_some ho]
    dsimp only
    unfold escrows
    rw [hk]
    dsimp only
    rw [applyAll_append]
  rw [hstep]
  have hi1 := (blk_inv hnc hi hmb.1).1
  have hup1 := upto_blk hnc hmb.1 hi hup
  generalize hs1 : w.s.applyAll (missAll w.nd k (w.s.maes k) w.s o).1 = s1 at hm hi1 hup1
  unfold processQueued
  have hd := blk_drain hnc (J := fun _ _ => True) (R := fun _ => True) ((s1.ooes k).length + 1) hi1 k
  have hstop := drain_stops hnc ((s1.ooes k).length + 1) hi1 k (by omega)
  have hi2 := (blk_inv hnc hi1 hd).1
  have hup2 := upto_blk hnc hd hi1 hup1
  have ht2 : ∀ i, i ≤ m → Through (s1.applyAll (drain ((s1.ooes k).length + 1) s1 k)) k es i := fun i him => through_blk hnc hsg hd hi1 hc him (hm i him)
  generalize s1.applyAll (drain ((s1.ooes k).length + 1) s1 k) = s2 at hstop hi2 hup2 ht2
  -- the first event of the chain that is not accepted would be next and could be committed
  intro i
  induction i with
  | zero =>
    intro h0
    rcases ht2 0 h0 with h1 | h1
    · exact h1
    · obtain ⟨_, _, _, hn0, _⟩ := hi2.ooe _ _ _ h1
      exact absurd rfl hn0
  | succ j ih =>
    intro hj
    have hp := ih (by omega)
    rcases ht2 (j + 1) hj with h1 | h1
    · exact h1
    · cases htel : s2.tels k (j + 1) with
      | some d => exact single_at hsg hi2 hc hj htel
      | none =>
        exfalso
        have hnx : s2.next k = j + 1 := by
          cases hh : s2.heads k with
          | none => have := hp.1; rw [hup2.1 hh j] at this; cases this
          | some d =>
            obtain ⟨n, hn1, hn2⟩ := hup2.2 d hh
            have hnj : n = j := by
              rcases Nat.lt_trichotomy n j with hlt | heq | hgt
              · have := hp.1; rw [hn2 j hlt] at this; cases this
              · exact heq
              · have := gapless hi2 (k := k) (n := n) (by rw [hn1]; rfl) (j + 1) (by omega)
                rw [htel] at this; cases this
            obtain ⟨x, hx, hsx, _⟩ := hi2.tel _ _ _ hn1
            unfold Store.next Store.headEvent
            rw [hh]
            simp only [Option.bind_some, hx]
            rw [hsx.num, hnj]
        obtain ⟨x, hx, hsx, _, hanc⟩ := hi2.ooe _ _ _ h1
        have hev := hi2.evt _ _ hx
        have hxe : x = es (j + 1) := hnc _ _ hev.2 (hV _ hj) hev.1
        refine hstop (es (j + 1)).said x (by rw [hnx]; exact (mem_at _ _ _).2 h1) ?_
        rw [hnx]
        unfold verdict
        rw [hx]
        dsimp only
        have hq : s2.seqEvent k (j + 1) = none := by unfold Store.seqEvent; rw [htel]; rfl
        rw [hq]
        have hb : s2.before k (j + 1) = some (es j) := seq_of hp
        rw [hb]
        have hlk := hlink j (by omega)
        rw [hxe] at *
        cases ha : s2.ancs (es (j + 1)).said with
        | none => rw [ha] at hanc; cases hanc
        | some c => simp [hlk]

end Verif.Bsr
