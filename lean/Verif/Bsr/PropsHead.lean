import Verif.Bsr.Frame

/-!
# C162: the recorded head of a registry is its last accepted event, as long as no call is cut off
-/

namespace Verif.Bsr

open Verif.Kel (Id Dig Node Seal)

theorem upto_next {V : REvt → Prop} {s : Store} (hi : SInv V s) {k : Dig} (hf : UpToDate s k) : s.tels k (s.next k) = none := by
  unfold Store.next Store.headEvent
  cases hh : s.heads k with
  | none => exact hf.1 hh _
  | some d =>
    obtain ⟨n, h1, h2⟩ := hf.2 d hh
    obtain ⟨e, he, hs, _⟩ := hi.tel _ _ _ h1
    simp only [Option.bind_some, he]
    rw [hs.num]
    exact h2 _ (by omega)

theorem upto_commit {V : REvt → Prop} {s : Store} (hi : SInv V s) {k : Dig} (hf : UpToDate s k) {e : REvt} (hfree : Free s e) :
    UpToDate (s.applyAll (commit s e)) k := by
  unfold UpToDate
  rw [commit_heads, commit_tels]
  by_cases hk : k = e.regk
  · subst hk
    have hno : s.tels e.regk e.n = none := by
      rcases hfree with h | ⟨_, h⟩
      · exact h
      · rw [h]; exact upto_next hi hf
    rw [show put s.heads e.regk (some e.said) e.regk = some e.said from by simp [put]]
    refine ⟨fun h => (by cases h), fun d hd => ?_⟩
    cases hd
    refine ⟨e.n, tel_set _ _ _ _ (.inl hno), fun m hm => ?_⟩
    cases ht : (s.apply (.tel e.regk e.n e.said)).tels e.regk m with
    | none => rfl
    | some d =>
      rcases tel_cases ht with h | ⟨_, h, _⟩
      · have := gapless hi (k := e.regk) (n := m) (by rw [h]; rfl) e.n (by omega)
        rw [hno] at this; cases this
      · omega
  · have h1 : put s.heads e.regk (some e.said) k = s.heads k := put_ne _ _ hk
    have h2 : (s.apply (.tel e.regk e.n e.said)).tels k = s.tels k := (same_apply hk s (.tel e.regk e.n e.said) rfl).tels
    rw [h1, h2]; exact hf

theorem upto_congr {s s' : Store} {k : Dig} (h : UpToDate s k) (h1 : s'.tels = s.tels) (h2 : s'.heads = s.heads) : UpToDate s' k := by
  unfold UpToDate; rw [h1, h2]; exact h

theorem upto_blk {V : REvt → Prop} (hnc : NoColl V) {J : REvt → Nat × Dig → Prop} {R : REvt → Prop} {s : Store} {l : List Wr} (h : Blocks V J R s l)
    (hi : SInv V s) {k : Dig} (hf : UpToDate s k) : UpToDate (s.applyAll l) k := by
  induction h with
  | nil s => exact hf
  | @plain s w l hp ho _ ih =>
    rw [applyAll_cons]
    refine ih (inv_apply hnc hi ho) (upto_congr hf ?_ ?_) <;> cases w <;> first | rfl | cases hp
  | drop hr _ ih =>
    rw [applyAll_append]
    exact ih (good_inv hnc hi (good_clear (J := J) _ _ _ _)).1 (upto_congr hf rfl rfl)
  | @move s e l ho _ ih =>
    rw [applyAll_append]
    have hg : Good V J s [.remM e.regk e.n e.said, .addO e.regk e.n e.said] := ⟨trivial, ho, trivial⟩
    exact ih (good_inv hnc hi hg).1 (upto_congr hf rfl rfl)
  | @take s e l hr hn _ ih =>
    rw [applyAll_cons, applyAll_append]
    have h1 := inv_apply hnc (J := J) hi (w := .remM e.regk e.n e.said) trivial
    have hg := good_commit hnc (J := J) h1 (hr.remM _ _ _)
    exact ih (good_inv hnc h1 hg).1 (upto_commit h1 (upto_congr hf rfl rfl) (.inl hn))
  | com hr hn _ ih =>
    rw [applyAll_append]
    have hg := good_commit hnc (J := J) hi hr
    exact ih (good_inv hnc hi hg).1 (upto_commit hi hf hn)

theorem reopen_s (env : Kel.Env) (w : World) : (w.step env .reopen).s = w.s := by
  show ((w.down.load w.s.records).getD w.down).s = w.s
  cases h : w.down.load w.s.records with
  | none => rfl
  | some w' =>
    have : ∀ (l : List (Name × Dig)) (w w' : World), w.load l = some w' → w'.s = w.s := by
      intro l
      induction l with
      | nil => intro w w' h; cases h; rfl
      | cons x l ih =>
        intro w w' h
        unfold World.load at h
        cases h1 : w.load1 x with
        | none => rw [h1] at h; cases h
        | some w1 =>
          rw [h1] at h
          rw [ih w1 w' h]
          unfold World.load1 at h1
          split at h1
          · cases h1
          · split at h1
            · cases h1
            · split at h1
              · cases h1
              · split at h1
                · cases h1
                · split at h1 <;> cases h1 <;> rfl
    exact this _ w.down _ h

theorem upto_hist {env : Kel.Env} {V : REvt → Prop} (hnc : NoColl V) {w0 w : World} (h0 : SInv V w0.s) {k : Dig} (hf : UpToDate w0.s k)
    (h : Hist env (fun w i => Within V w i ∧ Whole i) w0 w) : UpToDate w.s k := by
  induction h with
  | nil => exact hf
  | @step w i hh g ih =>
    have hi := (hist_inv hnc (fun _ _ h => h.1) h0 hh).1
    cases i with
    | kel i => exact ih
    | config h => exact ih
    | crash c m => exact absurd rfl (g.2 c m)
    | reopen => rw [reopen_s]; exact ih
    | call c => exact upto_blk hnc (call_blk (P := PTrue) hnc hi (fun _ _ _ _ => trivial) (lic_true g.1 c rfl)).1 hi ih

theorem upto_empty (k : Dig) : UpToDate Store.empty k := ⟨fun _ _ => rfl, fun d h => by cases h⟩

/-- C162. While no call is cut off, the recorded head of a registry is the last event accepted for it, and there is one as soon as any event is
accepted. -/
theorem c162_head_partial {env : Kel.Env} {V : REvt → Prop} (hnc : NoColl V) {w : World} (h : Calm env V w) (k d : Dig) :
    w.s.heads k = some d ↔ ∃ n, w.s.tels k n = some d ∧ ∀ m, n < m → w.s.tels k m = none := by
  obtain ⟨nd, habs, h⟩ := h
  have hf := upto_hist hnc (w0 := World.start nd habs) (sinv_empty V) (upto_empty k) h
  have hi := (hist_inv hnc (fun _ _ h => h.1) (w0 := World.start nd habs) (sinv_empty V) h).1
  refine ⟨hf.2 d, fun ⟨n, h1, h2⟩ => ?_⟩
  cases hh : w.s.heads k with
  | none => rw [hf.1 hh n] at h1; cases h1
  | some d' =>
    obtain ⟨n', h1', h2'⟩ := hf.2 d' hh
    have : n = n' := by
      rcases Nat.lt_trichotomy n n' with hlt | heq | hgt
      · rw [h2 _ hlt] at h1'; cases h1'
      · exact heq
      · rw [h2' _ hgt] at h1; cases h1
    subst this
    rw [h1] at h1'; cases h1'; rfl

/-- C162. In every state, after crashes too, the recorded head is an accepted event. -/
theorem c162_accepted {env : Kel.Env} {V : REvt → Prop} (hnc : NoColl V) {w : World} (h : Reached env V w) (k d : Dig) (hd : w.s.heads k = some d) :
    ∃ n e, Accepted w.s k n e ∧ e.said = d ∧ e.n = n := by
  obtain ⟨n, hn⟩ := (h.inv hnc).head k d hd
  obtain ⟨e, h1, h2, h3, _⟩ := c160_log hnc h k n d hn
  exact ⟨n, e, h1, h2, h3⟩

theorem processEvent_taken {nd : Node} {s : Store} {o : Obj} {e : REvt} (h : (s.seqEvent e.regk e.n).isSome = true) : (processEvent nd s o e).ws = [] := by
  unfold processEvent
  cases hv : validate s o e with
  | none => rfl
  | some r =>
    obtain ⟨x, p⟩ := r
    have := (validate_some hv).2.2.2.1
    cases x with
    | none => rw [← this] at h; cases h
    | some x => rfl

/-- C162. When the head is behind, an update made by the registry is turned away, unless it is the very event that the log has after the head. -/
theorem c162_behind {w : World} (k : Dig) (n : Nat) (h : REvt) (x : REvt) (hn : h.n = n) (hh : w.s.heads k = some h.said) (ha : Accepted w.s k n h)
    (hx : Accepted w.s k (n + 1) x) (i : Nat) (o : Obj) (ho : w.objs[i]? = some o) (hk : o.regk = some k) (a : Acdc) (said : Dig)
    (hne : said ≠ x.said) : (w.call (.blind i a said)).out = .config ∨ (w.call (.blind i a said)).out = .validation := by
  show (w.onObj i _).out = _ ∨ (w.onObj i _).out = _
  rw [onObj_some ho]
  dsimp only
  unfold blind
  cases hb : blindHead w.s o a with
  | none => exact .inl rfl
  | some r =>
    obtain ⟨k', hd⟩ := r
    right
    obtain ⟨_, hk', hhd⟩ := hands_blind (said := said) ho hb
    rw [hk] at hk'; cases hk'
    have hhd' : w.s.headEvent k = some h := by unfold Store.headEvent; rw [hh]; exact ha.2
    rw [hhd'] at hhd; cases hhd
    have hnx : w.s.next k = n + 1 := by unfold Store.next; rw [hhd', ← hn]
    have hv : validate w.s o (update w.s k said h) = none := by
      cases hv : validate w.s o (update w.s k said h) with
      | none => rfl
      | some r =>
        obtain ⟨y, p⟩ := r
        have := validate_some hv
        have hr : (update w.s k said h).regk = k := rfl
        refine absurd (this.2.2.2.2.1 x ?_) (fun h => hne h.symm)
        rw [this.2.2.2.1, hr]
        show w.s.seqEvent k (w.s.next k) = some x
        rw [hnx]; exact seq_of hx
    dsimp only
    unfold processEvent; rw [hv]; rfl

/-! ## Nothing brings the head up to date -/

/-- Writes about other registries than `k`. -/
def Off (k : Dig) (ws : List Wr) : Prop := ∀ w ∈ ws, ∃ k', k ≠ k' ∧ w.only k'

theorem Off.append {k : Dig} {a b : List Wr} (ha : Off k a) (hb : Off k b) : Off k (a ++ b) := fun w hw => by
  rcases List.mem_append.1 hw with h | h
  · exact ha w h
  · exact hb w h

theorem off_nil (k : Dig) : Off k [] := fun _ h => by cases h

theorem off_only {k k' : Dig} (h : k ≠ k') {ws : List Wr} (hw : Only k' ws) : Off k ws := fun w h' => ⟨k', h, hw w h'⟩

theorem off_take {k : Dig} {ws : List Wr} (h : Off k ws) (m : Nat) : Off k (ws.take m) := fun w hw => h w (List.mem_of_mem_take hw)

theorem off_same {k : Dig} {ws : List Wr} (h : Off k ws) (s : Store) : Same k s (s.applyAll ws) := by
  induction ws generalizing s with
  | nil => exact Same.refl _ _
  | cons w l ih =>
    obtain ⟨k', h1, h2⟩ := h w List.mem_cons_self
    exact (same_apply h1 s w h2).trans (ih (fun x hx => h x (List.mem_cons_of_mem _ hx)) _)

theorem escrows_empty (nd : Node) (s : Store) (o : Obj) (k : Dig) (hk : o.regk = some k) (hm : s.maes k = []) (ho : s.ooes k = []) :
    (escrows nd s o).1 = [] := by
  unfold escrows
  rw [hk]
  dsimp only
  rw [hm]
  unfold processQueued missAll
  show drain _ s k = []
  unfold drain
  rw [if_pos]
  show at' (s.ooes k) _ = []
  rw [ho]; rfl

theorem off_escrows {V : REvt → Prop} (hnc : NoColl V) (nd : Node) {s : Store} (hi : SInv V s) (o : Obj) (k : Dig) (hm : s.maes k = []) (ho : s.ooes k = []) :
    Off k (escrows nd s o).1 := by
  cases hk : o.regk with
  | none => unfold escrows; rw [hk]; exact off_nil k
  | some k' =>
    by_cases hkk : k = k'
    · subst hkk; rw [escrows_empty nd s o k hk hm ho]; exact off_nil k
    · exact off_only hkk (only_escrows hnc nd hi o k' hk)

theorem off_sweep {V : REvt → Prop} (hnc : NoColl V) (nd : Node) (k : Dig) (l : List Nat) {s : Store} (hi : SInv V s) (os : List Obj) (hm : s.maes k = [])
    (ho : s.ooes k = []) : Off k (sweepAll nd l s os).1 := by
  induction l generalizing s os with
  | nil => exact off_nil k
  | cons h l ih =>
    unfold sweepAll
    split
    · exact ih hi os hm ho
    · rename_i o _
      have h1 := off_escrows hnc nd hi o k hm ho
      have hs := off_same h1 s
      exact h1.append (ih (blk_inv hnc hi (escrows_blk hnc nd hi o).1).1 _ (by rw [hs.maes, hm]) (by rw [hs.ooes, ho]))

/-- The events of registry `k` that a call is given are accepted ones; updates that the registry makes itself do not count. -/
def Settled (k : Dig) (w : World) (i : Inp) : Prop := ∀ c e, i.calls = some c →
  (Hands w c e ∨ ∃ h num dig d, c = .anchor h d num dig ∧ w.s.evts d = some e) → (if e.ilk = .rip then e.said else e.rd) = k →
    (∃ h a said, c = .blind h a said) ∨ ∃ n, e.n = n ∧ Accepted w.s k n e

theorem off_event {V : REvt → Prop} (hnc : NoColl V) (nd : Node) {s : Store} (hi : SInv V s) (o : Obj) {e : REvt} (he : V e) (k : Dig)
    (h : e.regk = k → (s.seqEvent k e.n).isSome = true) : Off k (processEvent nd s o e).ws := by
  by_cases hk : k = e.regk
  · rw [processEvent_taken (by rw [← hk]; exact h hk.symm)]; exact off_nil k
  · exact off_only hk (only_processEvent hnc nd hi o he)

theorem off_call {V : REvt → Prop} (hnc : NoColl V) {w : World} (hi : SInv V w.s) {k : Dig} {n : Nat} {h : REvt} (hn : h.n = n) (hh : w.s.heads k = some h.said)
    (ha : Accepted w.s k n h) (hx : (w.s.tels k (n + 1)).isSome = true) (hm : w.s.maes k = []) (ho : w.s.ooes k = []) {i : Inp} {c : Call}
    (hc : i.calls = some c) (hw : Within V w i) (hs : Settled k w i) : Off k (w.call c).ws := by
  have given : ∀ e, (Hands w c e ∨ ∃ h num dig d, c = .anchor h d num dig ∧ w.s.evts d = some e) → (∀ h a said, c ≠ .blind h a said) →
      e.regk = k → (w.s.seqEvent k e.n).isSome = true := fun e he hb hk => by
    rcases hs c e hc he hk with ⟨i, a, said, h⟩ | ⟨m, hm, h⟩
    · exact absurd h (hb i a said)
    · rw [hm, seq_of h]; rfl
  have onO : ∀ (i : Nat) (f : Obj → List Wr × Obj × Out), (∀ o, w.objs[i]? = some o → Off k (f o).1) → Off k (w.onObj i f).ws := fun i f hf => by
    cases hob : w.objs[i]? with
    | none => rw [onObj_none hob]; exact off_nil k
    | some o => rw [onObj_some hob]; exact hf o hob
  cases c with
  | attach hab k' => exact off_nil k
  | event i e => exact onO i _ fun o hob => off_event hnc _ hi o (hw _ e hc (.event i e)) k (given e (.inl (.event i e)) (by simp))
  | anchor i d num dig =>
    refine onO i _ fun o hob => ?_
    dsimp only
    unfold anchorMsg
    split
    · exact off_nil k
    · rename_i e he
      split
      · exact off_nil k
      · split
        · exact off_nil k
        · split
          · exact off_nil k
          · split
            · exact off_nil k
            · rename_i cp _
              split
              · rename_i hv
                have hwo : Wr.ok V (fun _ _ => True) w.s (.anc d cp) := ⟨e, he, trivial⟩
                intro x hx
                rcases List.mem_cons.1 hx with rfl | hx
                · exact ⟨Nat.succ k, fun h => Nat.succ_ne_self k h.symm, trivial⟩
                · exact off_event hnc w.nd (inv_apply hnc hi hwo) o (hi.evt _ _ he).2 k (given e (.inr ⟨i, num, dig, d, rfl, he⟩) (by simp)) x hx
              · exact off_nil k
  | escrows i => exact onO i _ fun o hob => off_escrows hnc _ hi o k hm ho
  | make i said =>
    exact onO i _ fun o hob => off_event hnc _ hi o (hw _ _ hc (.make i said o hob)) k (given _ (.inl (.make i said o hob)) (by simp))
  | blind i a said =>
    refine onO i _ fun o hob => ?_
    unfold blind
    cases hb : blindHead w.s o a with
    | none => exact off_nil k
    | some r =>
      obtain ⟨k', hd⟩ := r
      obtain ⟨h1, hk', hhd⟩ := hands_blind (said := said) hob hb
      refine off_event hnc _ hi o (hw _ _ hc h1) k fun hkk => ?_
      have hkk' : k' = k := hkk
      subst hkk'
      have hhd' : w.s.headEvent k' = some h := by unfold Store.headEvent; rw [hh]; exact ha.2
      rw [hhd'] at hhd; cases hhd
      have hnx : w.s.next k' = n + 1 := by unfold Store.next; rw [hhd', ← hn]
      show (w.s.seqEvent k' (w.s.next k')).isSome = true
      rw [hnx]
      cases ht : w.s.tels k' (n + 1) with
      | none => rw [ht] at hx; cases hx
      | some d =>
        obtain ⟨e, he, _⟩ := hi.tel _ _ _ ht
        unfold Store.seqEvent; rw [ht]; simp [he]
  | makeRegistry name pre said =>
    show Off k (w.makeRegistry name pre said).ws
    unfold World.makeRegistry
    split
    · exact off_nil k
    · split
      · exact off_nil k
      · split
        · exact off_nil k
        · split
          · exact off_nil k
          · refine Off.append (off_event hnc _ hi _ (hw _ _ hc (.registry name pre said)) k (given _ (.inl (.registry name pre said)) (by simp))) fun x hx => ?_
            simp only [List.mem_singleton] at hx; subst hx
            exact ⟨Nat.succ k, fun h => Nat.succ_ne_self k h.symm, trivial⟩
  | sweep => exact off_sweep hnc _ k _ hi _ hm ho

/-- C162. A head that is behind stays behind: no history of further calls on the registry, of passes over the escrows, of crashes and of reopenings,
with any traffic on other registries, moves it or adds to the log, unless an event that is not accepted is handed in or waits in an escrow. -/
theorem c162_stuck {env : Kel.Env} {V : REvt → Prop} (hnc : NoColl V) {w w' : World} (hr : Reached env V w) (k : Dig) (n : Nat) (h : REvt) (hn : h.n = n)
    (hh : w.s.heads k = some h.said) (ha : Accepted w.s k n h) (hx : w.s.tels k (n + 1) ≠ none) (hm : w.s.maes k = []) (ho : w.s.ooes k = [])
    (hist : Hist env (fun w i => Within V w i ∧ Settled k w i) w w') : w'.s.heads k = some h.said ∧ w'.s.tels k = w.s.tels k := by
  have hi := hr.inv hnc
  have hx' : (w.s.tels k (n + 1)).isSome = true := by cases ht : w.s.tels k (n + 1) with
    | none => exact absurd ht hx
    | some d => rfl
  have key : SInv V w'.s ∧ Ext w.s w'.s ∧ Same k w.s w'.s := by
    induction hist with
    | nil => exact ⟨hi, Ext.refl _, Same.refl _ _⟩
    | @step w1 i hp g ih =>
      obtain ⟨hi1, hx1, hs1⟩ := ih
      have hst := step_inv (env := env) (P := PTrue) hnc (fun _ _ _ => trivial) ⟨hi1, fun _ _ _ _ => trivial⟩ (fun c hc => lic_true g.1 c hc)
      refine ⟨hst.1.s, hx1.trans hst.2, hs1.trans ?_⟩
      have hoff : ∀ c, i.calls = some c → Off k (w1.call c).ws := fun c hc =>
        off_call hnc hi1 hn (by rw [hs1.heads, hh]) ⟨hx1.tels _ _ _ ha.1, hx1.evts _ _ ha.2⟩ (by rw [hs1.tels]; exact hx') (by rw [hs1.maes, hm])
          (by rw [hs1.ooes, ho]) hc g.1 g.2
      cases i with
      | kel i => exact Same.refl _ _
      | config h => exact Same.refl _ _
      | reopen => rw [reopen_s]; exact Same.refl _ _
      | call c => exact off_same (hoff c rfl) _
      | crash c m => exact off_same (off_take (hoff c rfl) m) _
  exact ⟨by rw [key.2.2.heads, hh], key.2.2.tels⟩

end Verif.Bsr
