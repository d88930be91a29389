import Verif.Bsr.PropsPass

/-!
# C167, C168: competing updates, updates made by a registry
-/

namespace Verif.Bsr

open Verif.Kel (Id Dig Node Seal)

theorem qle_total (s : Store) (a b : Dig) (h : qle s a b = false) : qle s b a = true := by
  unfold qle at *
  cases ha : s.ancs a with
  | none =>
    cases hb : s.ancs b with
    | none =>
      rw [ha, hb] at h
      simp only [decide_eq_false_iff_not, decide_eq_true_eq] at *
      exact Nat.le_of_lt (Nat.lt_of_not_le h)
    | some y => rfl
  | some x =>
    cases hb : s.ancs b with
    | none => rw [ha, hb] at h; cases h
    | some y =>
      rw [ha, hb] at h
      simp only [decide_eq_false_iff_not, decide_eq_true_eq] at *
      obtain ⟨x1, x2⟩ := x
      obtain ⟨y1, y2⟩ := y
      dsimp only at *
      have key : ∀ (p q r t u v : Nat), ¬ (p < q ∨ p = q ∧ (r < t ∨ r = t ∧ u ≤ v)) → (q < p ∨ q = p ∧ (t < r ∨ t = r ∧ v ≤ u)) := by
        intro p q r t u v h; omega
      exact key _ _ _ _ _ _ h

theorem qle_trans (s : Store) (a b c : Dig) (h1 : qle s a b = true) (h2 : qle s b c = true) : qle s a c = true := by
  unfold qle at *
  cases ha : s.ancs a with
  | none =>
    cases hb : s.ancs b with
    | some y => rw [ha, hb] at h1; cases h1
    | none =>
      rw [ha, hb] at h1
      cases hc : s.ancs c with
      | some z => rw [hb, hc] at h2; cases h2
      | none =>
        rw [hb, hc] at h2
        simp only [decide_eq_true_eq] at *
        exact Nat.le_trans h1 h2
  | some x =>
    cases hb : s.ancs b with
    | none =>
      rw [hb] at h2
      cases hc : s.ancs c with
      | some z => rw [hc] at h2; cases h2
      | none => rfl
    | some y =>
      cases hc : s.ancs c with
      | none => rfl
      | some z =>
        rw [ha, hb] at h1
        rw [hb, hc] at h2
        simp only [decide_eq_true_eq] at *
        obtain ⟨x1, x2⟩ := x
        obtain ⟨y1, y2⟩ := y
        obtain ⟨z1, z2⟩ := z
        dsimp only at *
        have key : ∀ (p q r t u v p' r' u' : Nat), (p < q ∨ p = q ∧ (r < t ∨ r = t ∧ u ≤ v)) → (q < p' ∨ q = p' ∧ (t < r' ∨ t = r' ∧ v ≤ u')) →
            (p < p' ∨ p = p' ∧ (r < r' ∨ r = r' ∧ u ≤ u')) := by
          intro p q r t u v p' r' u' h h'; omega
        exact key _ _ _ _ _ _ _ _ _ h1 h2

theorem sorted_ins (s : Store) (a : Dig) (l : List Dig) (h : l.Pairwise (fun x y => qle s x y = true)) : (ins s a l).Pairwise (fun x y => qle s x y = true) := by
  induction l with
  | nil => simp [ins]
  | cons b l ih =>
    have h' := List.pairwise_cons.1 h
    unfold ins
    split
    · rename_i hab
      refine List.pairwise_cons.2 ⟨fun x hx => ?_, h⟩
      rcases List.mem_cons.1 hx with rfl | hx
      · exact hab
      · exact qle_trans s a b x hab (h'.1 x hx)
    · rename_i hab
      refine List.pairwise_cons.2 ⟨fun x hx => ?_, ih h'.2⟩
      rcases (mem_ins _ _ _ _).1 hx with rfl | hx
      · exact qle_total s x b (by simpa using hab)
      · exact h'.1 x hx

theorem sorted_sortQ (s : Store) (l : List Dig) : (sortQ s l).Pairwise (fun x y => qle s x y = true) := by
  induction l with
  | nil => exact List.Pairwise.nil
  | cons a l ih => exact sorted_ins s a _ ih

theorem walk_first {V : REvt → Prop} {k : Dig} {n : Nat} (l : List Dig) {s : Store} (hi : SInv V s) (d : Dig) (e : REvt) (hd : d ∈ l)
    (hv : verdict s k n d = .commit e) : ∃ l1 d0 l2 x, l = l1 ++ d0 :: l2 ∧ (∀ y ∈ l1, ∀ z, verdict s k n y ≠ .commit z) ∧ verdict s k n d0 = .commit x ∧
      (walk s k n l).2 = some x := by
  induction l generalizing s with
  | nil => cases hd
  | cons a l ih =>
    have keep : verdict s k n a ≠ .commit e ∨ verdict s k n a = .commit e := by
      cases h : verdict s k n a with
      | clear => left; simp
      | wait => left; simp
      | commit z => by_cases hz : z = e
                    · right; rw [hz]
                    · left; intro hh; cases hh; exact hz rfl
    unfold walk
    cases ha : verdict s k n a with
    | commit x => exact ⟨[], a, l, x, rfl, (fun y hy => by cases hy), ha, rfl⟩
    | wait =>
      have hdl : d ∈ l := by
        rcases List.mem_cons.1 hd with rfl | h
        · rw [ha] at hv; cases hv
        · exact h
      obtain ⟨l1, d0, l2, x, h1, h2, h3, h4⟩ := ih hi hdl hv
      refine ⟨a :: l1, d0, l2, x, by rw [h1]; rfl, fun y hy z => ?_, h3, h4⟩
      rcases List.mem_cons.1 hy with rfl | hy
      · rw [ha]; simp
      · exact h2 y hy z
    | clear =>
      have hdl : d ∈ l := by
        rcases List.mem_cons.1 hd with rfl | h
        · rw [ha] at hv; cases hv
        · exact h
      have hi' : SInv V (s.applyAll (clear k n a)) := by
        have h1 := hi
        exact ⟨h1.evt, h1.tel, h1.head, fun k' n' d' hm => h1.mae k' n' d' (by
            simp only [clear, Store.applyAll, List.foldl, Store.apply, put] at hm
            split at hm
            · rename_i hk; subst hk; exact ((mem_ioRem _ _ _ _).1 hm).1
            · exact hm), fun k' n' d' hm => h1.ooe k' n' d' (by
            simp only [clear, Store.applyAll, List.foldl, Store.apply, put] at hm
            split at hm
            · rename_i hk; subst hk; exact ((mem_ioRem _ _ _ _).1 hm).1
            · exact hm), h1.rcd⟩
      have hvc := fun y => verdict_congr (s := s) (s' := s.applyAll (clear k n a)) rfl rfl rfl k n y
      obtain ⟨l1, d0, l2, x, h1, h2, h3, h4⟩ := ih hi' hdl (by rw [hvc]; exact hv)
      refine ⟨a :: l1, d0, l2, x, by rw [h1]; rfl, fun y hy z => ?_, by rw [← hvc]; exact h3, h4⟩
      rcases List.mem_cons.1 hy with rfl | hy
      · rw [ha]; simp
      · rw [← hvc]; exact h2 y hy z

/-- C167. Among queued updates that compete for the number after the head, the one whose seal comes first in the key event log is accepted: no other one
that names the head has an anchor with a smaller number, or of the same number and a smaller digest. -/
theorem c167_queue_partial {env : Kel.Env} {V : REvt → Prop} (hnc : NoColl V) {w : World} (hr : Reached env V w) (h : Nat) (o : Obj)
    (ho : w.objs[h]? = some o) (k : Dig) (hk : o.regk = some k) (hup : UpToDate w.s k) (hm : w.s.maes k = []) (n : Nat) (hd : REvt)
    (hh : w.s.heads k = some hd.said) (ha : Accepted w.s k n hd) (e : REvt) (he : (n + 1, e.said) ∈ w.s.ooes k) (hev : w.s.evts e.said = some e)
    (hp : e.prior = hd.said) :
    ∃ x c, Accepted (w.step env (.call (.escrows h))).s k (n + 1) x ∧ (n + 1, x.said) ∈ w.s.ooes k ∧ x.prior = hd.said ∧ w.s.ancs x.said = some c ∧
      ∀ y, (n + 1, y.said) ∈ w.s.ooes k → w.s.evts y.said = some y → y.prior = hd.said →
        ∃ c', w.s.ancs y.said = some c' ∧ (c.1 < c'.1 ∨ (c.1 = c'.1 ∧ (c.2 < c'.2 ∨ (c.2 = c'.2 ∧ x.said ≤ y.said)))) := by
  have hi := hr.inv hnc
  have hslot : Slot hd k n := by
    obtain ⟨x, hx, hs, _⟩ := hi.tel _ _ _ ha.1
    rw [ha.2] at hx; cases hx; exact hs
  have hnx : w.s.next k = n + 1 := by
    unfold Store.next Store.headEvent; rw [hh]; simp only [Option.bind_some, ha.2]; rw [hslot.num]
  have hfree : w.s.tels k (n + 1) = none := by rw [← hnx]; exact upto_next hi hup
  have hcommit : ∀ y, (n + 1, y.said) ∈ w.s.ooes k → w.s.evts y.said = some y → y.prior = hd.said → verdict w.s k (n + 1) y.said = .commit y := by
    intro y hy hye hyp
    obtain ⟨y', hy', _, _, hanc⟩ := hi.ooe _ _ _ hy
    unfold verdict
    rw [hye]
    dsimp only
    have hq : w.s.seqEvent k (n + 1) = none := by unfold Store.seqEvent; rw [hfree]; rfl
    have hb : w.s.before k (n + 1) = some hd := seq_of ha
    rw [hq, hb]
    cases hc : w.s.ancs y.said with
    | none => rw [hc] at hanc; cases hanc
    | some c => simp [hyp]
  have hne : at' (w.s.ooes k) (w.s.next k) ≠ [] := fun hn => by
    have : e.said ∈ at' (w.s.ooes k) (w.s.next k) := by rw [hnx]; exact (mem_at _ _ _).2 he
    rw [hn] at this; cases this
  have hq := queued_of hi k _ hne
  obtain ⟨l1, d0, l2, x, h1, h2, h3, h4⟩ := walk_first (k := k) (n := w.s.next k) (sortQ w.s (at' (w.s.ooes k) (w.s.next k))) hi e.said e
    ((mem_sortQ _ _ _).2 (by rw [hnx]; exact (mem_at _ _ _).2 he)) (by rw [hnx]; exact hcommit e he hev hp)
  have hd0 : d0 ∈ sortQ w.s (at' (w.s.ooes k) (w.s.next k)) := by rw [h1]; simp
  have hd0' : (n + 1, d0) ∈ w.s.ooes k := by rw [← hnx]; exact (mem_at _ _ _).1 ((mem_sortQ _ _ _).1 hd0)
  obtain ⟨e0, he0, hs0⟩ := hq.2 d0 hd0
  obtain ⟨rfl, hsaid, hready⟩ := verdict_ready hi he0 hs0 hq.1 h3
  obtain ⟨_, _, _, _, hanc⟩ := hi.ooe _ _ _ hd0'
  have hxp : x.prior = hd.said := by
    have hb : w.s.before k (n + 1) = some hd := seq_of ha
    obtain ⟨p, hp1, hp2⟩ := hready.prior (by rw [hs0.num]; exact hq.1)
    rw [hs0.regk, hs0.num, hnx, hb] at hp1
    cases hp1; exact hp2.symm
  cases hc : w.s.ancs d0 with
  | none => rw [hc] at hanc; cases hanc
  | some c =>
    refine ⟨x, c, ?_, by rw [hsaid]; exact hd0', hxp, by rw [hsaid]; exact hc, fun y hy hye hyp => ?_⟩
    · -- what the pass does
      have hstep : (w.step env (.call (.escrows h))).s = w.s.applyAll (processQueued w.s k) := by
        show w.s.applyAll (w.onObj h _).ws = _
        rw [onObj_some ho]
        dsimp only
        unfold escrows
        rw [hk]
        dsimp only
        rw [hm]
        rfl
      rw [hstep]
      have hdr := blk_drain hnc (J := fun _ _ => True) (R := fun _ => True) ((w.s.ooes k).length + 1) hi k
      have hx1 := blk_inv hnc hi hdr
      unfold processQueued
      refine ⟨?_, hx1.2.evts _ _ (by rw [hsaid]; exact he0)⟩
      unfold drain
      rw [if_neg hne]
      cases hw : walk w.s k (w.s.next k) (sortQ w.s (at' (w.s.ooes k) (w.s.next k))) with
      | mk ws r =>
        rw [hw] at h4
        dsimp only at h4
        subst h4
        dsimp only
        have hb := blk_walk hnc (J := fun _ _ => True) (R := fun _ => True) _ hi hq rfl
        rw [hw] at hb
        rw [applyAll_append]
        have hi1 := blk_inv hnc hi hb.1
        refine (blk_inv hnc hi1.1 (blk_drain hnc (J := fun _ _ => True) (R := fun _ => True) (w.s.ooes k).length hi1.1 x.regk)).2.tels _ _ _ ?_
        have hcm : ∀ (l : List Dig) (s : Store), SInv V s → Queued s k (w.s.next k) l → (walk s k (w.s.next k) l).2 = some x →
            (s.applyAll (walk s k (w.s.next k) l).1).tels k (w.s.next k) = some x.said := by
          intro l
          induction l with
          | nil => intro s _ _ hn; cases hn
          | cons a l ih =>
            intro s hs hqs hres
            have hq' : ∀ s', Ext s s' → Queued s' k (w.s.next k) l := fun s' hx =>
              ⟨hqs.1, fun d hd => let ⟨e, a, b⟩ := hqs.2 d (List.mem_cons_of_mem _ hd); ⟨e, hx.evts _ _ a, b⟩⟩
            unfold walk at hres ⊢
            cases hva : verdict s k (w.s.next k) a with
            | clear =>
              rw [hva] at hres
              dsimp only at hres ⊢
              rw [applyAll_append]
              have hg := good_inv hnc hs (good_clear (V := V) (J := fun _ _ => True) s k (w.s.next k) a)
              exact ih _ hg.1 (hq' _ hg.2) hres
            | wait =>
              rw [hva] at hres
              exact ih _ hs (hq' _ (Ext.refl _)) hres
            | commit z =>
              rw [hva] at hres
              cases hres
              obtain ⟨z0, hz0, hsz⟩ := hqs.2 a List.mem_cons_self
              obtain ⟨rfl, _, hrz⟩ := verdict_ready hs hz0 hsz hqs.1 hva
              have := commit_taken s x hrz.free
              rw [hsz.regk, hsz.num] at this
              exact this
        have := hcm _ w.s hi hq (by rw [hw])
        rw [hw, hnx] at this
        exact this
    · obtain ⟨y', hy', _, _, hay⟩ := hi.ooe _ _ _ hy
      cases hcy : w.s.ancs y.said with
      | none => rw [hcy] at hay; cases hay
      | some c' =>
        refine ⟨c', rfl, ?_⟩
        have hyl : y.said ∈ sortQ w.s (at' (w.s.ooes k) (w.s.next k)) := (mem_sortQ _ _ _).2 (by rw [hnx]; exact (mem_at _ _ _).2 hy)
        rw [h1] at hyl
        have hle : y.said = d0 ∨ qle w.s d0 y.said = true := by
          rcases List.mem_append.1 hyl with hyl | hyl
          · exact absurd (by rw [hnx]; exact hcommit y hy hye hyp) (h2 _ hyl y)
          · rcases List.mem_cons.1 hyl with hyl | hyl
            · exact .inl hyl
            · have hs := sorted_sortQ w.s (at' (w.s.ooes k) (w.s.next k))
              rw [h1] at hs
              exact .inr ((List.pairwise_cons.1 (List.pairwise_append.1 hs).2.1).1 _ hyl)
        rw [hsaid]
        rcases hle with hle | hle
        · rw [hle, hc] at hcy; cases hcy
          rw [hle]
          exact .inr ⟨rfl, .inr ⟨rfl, Nat.le_refl _⟩⟩
        · unfold qle at hle
          rw [hc, hcy] at hle
          simpa using hle

/-- C168. While the head is up to date, an update that a registry makes for one of its credentials is an event right after the head: it is accepted there, or
waits. -/
theorem c168_issue_partial {env : Kel.Env} {V : REvt → Prop} (hnc : NoColl V) {w : World} (hr : Reached env V w) (i : Nat) (o : Obj) (ho : w.objs[i]? = some o) (k : Dig)
    (hk : o.regk = some k) (hup : UpToDate w.s k) (n : Nat) (hd : REvt) (hh : w.s.heads k = some hd.said) (ha : Accepted w.s k n hd) (said : Dig)
    (hv : V ⟨.bup, said, 0, k, n + 1, hd.said⟩) :
    ((w.call (.blind i ⟨true, some k, some o.hab⟩ said)).out = .done true ∧
        Accepted (w.step env (.call (.blind i ⟨true, some k, some o.hab⟩ said))).s k (n + 1) ⟨.bup, said, 0, k, n + 1, hd.said⟩) ∨
    ((w.call (.blind i ⟨true, some k, some o.hab⟩ said)).out = .done false ∧
        Waits (w.step env (.call (.blind i ⟨true, some k, some o.hab⟩ said))).s ⟨.bup, said, 0, k, n + 1, hd.said⟩) := by
  have hi := hr.inv hnc
  have hslot : Slot hd k n := by
    obtain ⟨x, hx, hs, _⟩ := hi.tel _ _ _ ha.1
    rw [ha.2] at hx; cases hx; exact hs
  have hhd : w.s.headEvent k = some hd := by unfold Store.headEvent; rw [hh]; exact ha.2
  have hnx : w.s.next k = n + 1 := by unfold Store.next; rw [hhd]; dsimp only; rw [hslot.num]
  have hfree : w.s.tels k (n + 1) = none := by rw [← hnx]; exact upto_next hi hup
  have hbh : blindHead w.s o ⟨true, some k, some o.hab⟩ = some (k, hd) := by
    unfold blindHead; rw [hk]; dsimp only; rw [hhd]; simp
  have hu : update w.s k said hd = ⟨.bup, said, 0, k, n + 1, hd.said⟩ := by unfold update; rw [hnx]
  have hres : blind w.nd w.s o ⟨true, some k, some o.hab⟩ said = ((processEvent w.nd w.s o ⟨.bup, said, 0, k, n + 1, hd.said⟩).ws,
      (processEvent w.nd w.s o ⟨.bup, said, 0, k, n + 1, hd.said⟩).obj, outOf (processEvent w.nd w.s o ⟨.bup, said, 0, k, n + 1, hd.said⟩).out) := by
    unfold blind; rw [hbh]; dsimp only; rw [hu]
  show ((w.onObj i _).out = _ ∧ Accepted (w.s.applyAll (w.onObj i _).ws) _ _ _) ∨ ((w.onObj i _).out = _ ∧ Waits (w.s.applyAll (w.onObj i _).ws) _)
  rw [onObj_some ho]
  dsimp only
  rw [hres]
  dsimp only
  cases hp : (processEvent w.nd w.s o ⟨.bup, said, 0, k, n + 1, hd.said⟩).out with
  | none =>
    have hvn := out_none hp
    rcases validate_none (k := k) (n := n + 1) ⟨rfl, rfl, .inr ⟨rfl, by omega⟩⟩ hk (by unfold Store.seqEvent; rw [hfree]; rfl) hvn with ⟨p, h1, h2⟩ | ⟨h1, _⟩
    · have hb : w.s.before k (n + 1) = some hd := seq_of ha
      rw [hb] at h1; cases h1; exact absurd rfl h2
    · cases h1
  | some b =>
    cases b with
    | true =>
      exact .inl ⟨rfl, true_processEvent hnc w.nd hi o hv hp, stored_processEvent hnc w.nd hi o hv (by rw [hp]; simp)⟩
    | false => exact .inr ⟨rfl, false_processEvent _ _ _ _ hp⟩

/-- C168. For a credential that is not valid, or names another registry or another issuer than those of the object, nothing is made: the call is refused and
writes nothing. -/
theorem c168_refused (w : World) (i : Nat) (o : Obj) (ho : w.objs[i]? = some o) (a : Acdc) (said : Dig)
    (h : a.valid = false ∨ a.rd ≠ o.regk ∨ a.iss ≠ some o.hab) :
    (w.call (.blind i a said)).out = .config ∧ (w.call (.blind i a said)).ws = [] := by
  have hb : blindHead w.s o a = none := by
    unfold blindHead
    cases hk : o.regk with
    | none => rfl
    | some k =>
      dsimp only
      cases w.s.headEvent k with
      | none => rfl
      | some hd =>
        dsimp only
        rw [if_neg]
        rintro ⟨h1, h2, h3⟩
        rw [hk] at h
        rcases h with h | h | h
        · rw [h1] at h; cases h
        · exact h h2
        · exact h h3
  show (w.onObj i _).out = _ ∧ (w.onObj i _).ws = _
  rw [onObj_some ho]
  unfold blind
  rw [hb]
  exact ⟨rfl, rfl⟩

end Verif.Bsr
