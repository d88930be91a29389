import Verif.Bsr.Inv

/-!
# C160, C161, C164: the accepted log of a registry
-/

namespace Verif.Bsr

open Verif.Kel (Id Dig Node Seal)

theorem accepted_of {V : REvt → Prop} {s : Store} (hi : SInv V s) {k : Dig} {n : Nat} {e : REvt} (h : s.seqEvent k n = some e) : Accepted s k n e := by
  unfold Store.seqEvent at h
  cases ht : s.tels k n with
  | none => rw [ht] at h; simp at h
  | some d =>
    rw [ht] at h
    have he : s.evts d = some e := by simpa using h
    have := (hi.evt _ _ he).1
    exact ⟨by rw [ht, this], by rw [this]; exact he⟩

theorem seq_of {s : Store} {k : Dig} {n : Nat} {e : REvt} (h : Accepted s k n e) : s.seqEvent k n = some e := by
  unfold Store.seqEvent; rw [h.1]; exact h.2

/-- C160. In every state, what is entered at number `n` of the log of `k` is a stored event with that number: at 0 the inception whose digest is `k`,
after that an update of `k` whose prior is the event accepted right before it, so that there is no gap. -/
theorem c160_log {env : Kel.Env} {V : REvt → Prop} (hnc : NoColl V) {w : World} (h : Reached env V w) (k : Dig) (n : Nat) (d : Dig)
    (ht : w.s.tels k n = some d) :
    ∃ e, Accepted w.s k n e ∧ e.said = d ∧ e.n = n ∧ (n = 0 → e.ilk = .rip ∧ e.said = k) ∧
      ∀ m, n = m + 1 → e.ilk = .bup ∧ e.rd = k ∧ ∃ p, Accepted w.s k m p ∧ p.said = e.prior := by
  have hi := h.inv hnc
  obtain ⟨e, he, hs, ha, hp⟩ := hi.tel k n d ht
  have hd := (hi.evt _ _ he).1
  refine ⟨e, ⟨by rw [ht, hd], by rw [hd]; exact he⟩, hd, hs.num, fun h0 => ?_, fun m hm => ?_⟩
  · rcases hs.kind with ⟨h1, _⟩ | ⟨_, h2⟩
    · refine ⟨h1, ?_⟩
      have := hs.regk
      unfold REvt.regk at this; rw [if_pos h1] at this; exact this
    · exact absurd h0 h2
  · rcases hs.kind with ⟨_, h2⟩ | ⟨h1, h2⟩
    · omega
    · have hr := hs.regk
      unfold REvt.regk at hr; rw [if_neg (by rw [h1]; decide)] at hr
      obtain ⟨p, hp1, hp2⟩ := hp h2
      subst hm
      exact ⟨h1, hr, p, accepted_of hi hp1, hp2⟩

/-- C160. Two logs that agree at a number agree before it. -/
theorem c160_chain {env env' : Kel.Env} {V : REvt → Prop} (hnc : NoColl V) {w w' : World} (h : Reached env V w) (h' : Reached env' V w') (k k' : Dig)
    (n : Nat) (d : Dig) (ht : w.s.tels k n = some d) (ht' : w'.s.tels k' n = some d) : k = k' ∧ ∀ m ≤ n, w.s.tels k m = w'.s.tels k' m := by
  induction n generalizing d with
  | zero =>
    obtain ⟨e, _, h1, _, h2, _⟩ := c160_log hnc h k 0 d ht
    obtain ⟨e', _, h1', _, h2', _⟩ := c160_log hnc h' k' 0 d ht'
    refine ⟨by rw [← (h2 rfl).2, ← (h2' rfl).2, h1, h1'], fun m hm => ?_⟩
    have : m = 0 := by omega
    rw [this, ht, ht']
  | succ n ih =>
    obtain ⟨e, ha, h1, _, _, h2⟩ := c160_log hnc h k _ d ht
    obtain ⟨e', ha', h1', _, _, h2'⟩ := c160_log hnc h' k' _ d ht'
    have hv := ((h.inv hnc).evt _ _ ha.2).2
    have hv' := ((h'.inv hnc).evt _ _ ha'.2).2
    have hee := hnc e e' hv hv' (by rw [h1, h1'])
    subst hee
    obtain ⟨_, hr, p, hp, hp2⟩ := h2 n rfl
    obtain ⟨_, hr', p', hp', hp2'⟩ := h2' n rfl
    have := ih p.said hp.1 (by rw [hp2, ← hp2']; exact hp'.1)
    refine ⟨by rw [← hr, ← hr'], fun m hm => ?_⟩
    by_cases hmn : m = n + 1
    · rw [hmn, ht, ht']
    · exact this.2 m (by omega)

/-- C161. What is accepted stays: no later step, crashes included, changes the entry or the body of the event. -/
theorem c161_stays {env : Kel.Env} {V : REvt → Prop} (hnc : NoColl V) {w w' : World} (h : Reached env V w) (hh : Hist env (Within V) w w') (k : Dig) (n : Nat)
    (e : REvt) (ha : Accepted w.s k n e) : Accepted w'.s k n e := by
  have := (hist_inv hnc (fun _ _ h => h) (h.inv hnc) hh).2
  exact ⟨this.tels _ _ _ ha.1, this.evts _ _ ha.2⟩

theorem reach_step {env : Kel.Env} {V : REvt → Prop} {w w' : World} (h : Reached env V w) (hh : Hist env (Within V) w w') : Reached env V w' := by
  obtain ⟨nd, habs, h⟩ := h
  refine ⟨nd, habs, ?_⟩
  induction hh with
  | nil => exact h
  | step i _ g ih => exact .step i ih g

theorem outOf_validation {r : Option Bool} (h : outOf r = .validation ∨ outOf r = .config) : r = none := by
  cases r with
  | none => rfl
  | some b => rcases h with h | h <;> cases h

theorem raised_processEvent {nd : Node} {s : Store} {o : Obj} {e : REvt} (h : (processEvent nd s o e).out = none) :
    (processEvent nd s o e).ws = [] ∧ (processEvent nd s o e).obj = o := by
  have := out_none h
  unfold processEvent; rw [this]; exact ⟨rfl, rfl⟩

theorem raised_anchorMsg {nd : Node} {s : Store} {o : Obj} {d : Dig} {num : Option Nat} {dig : Option Dig} (h : (anchorMsg nd s o d num dig).out = none) :
    (anchorMsg nd s o d num dig).ws = [] ∧ (anchorMsg nd s o d num dig).obj = o := by
  unfold anchorMsg at h ⊢
  cases he : s.evts d with
  | none => exact ⟨rfl, rfl⟩
  | some e =>
    rw [he] at h
    dsimp only at h ⊢
    split
    · exact ⟨rfl, rfl⟩
    · rename_i h1
      rw [if_neg h1] at h
      cases hv : validate s o e with
      | none => exact ⟨rfl, rfl⟩
      | some r =>
        rw [hv] at h
        dsimp only at h ⊢
        split
        · exact ⟨rfl, rfl⟩
        · rename_i h2
          rw [if_neg h2] at h
          cases hc : couple nd o.hab e num dig with
          | none => exact ⟨rfl, rfl⟩
          | some c =>
            rw [hc] at h
            dsimp only at h ⊢
            split
            · rename_i h3
              rw [if_pos h3] at h
              have := out_none h
              have hval : validate (s.apply (.anc d c)) o e = validate s o e := rfl
              rw [hval, hv] at this; cases this
            · exact ⟨rfl, rfl⟩

theorem set_self {α : Type} (l : List α) (i : Nat) (a : α) (h : l[i]? = some a) : l.set i a = l := by
  induction l generalizing i with
  | nil => rfl
  | cons b l ih =>
    cases i with
    | zero => simp at h; subst h; rfl
    | succ i => simp only [List.set_cons_succ]; rw [ih i (by simpa using h)]

/-- C164. A call that raises leaves everything as it was: store, objects, aliases. -/
theorem c164_raised (env : Kel.Env) (w : World) (c : Call) (h : (w.call c).out = .validation ∨ (w.call c).out = .config) : w.step env (.call c) = w := by
  have key : (w.call c).ws = [] ∧ (w.call c).objs = w.objs ∧ (w.call c).regs = w.regs ∧ (w.call c).names = w.names := by
    have obj : ∀ (i : Nat) (f : Obj → List Wr × Obj × Out), ((w.onObj i f).out = .validation ∨ (w.onObj i f).out = .config) →
        (∀ o, (f o).2.2 = .validation ∨ (f o).2.2 = .config → (f o).1 = [] ∧ (f o).2.1 = o) →
        (w.onObj i f).ws = [] ∧ (w.onObj i f).objs = w.objs ∧ (w.onObj i f).regs = w.regs ∧ (w.onObj i f).names = w.names := by
      intro i f hr hf
      cases ho : w.objs[i]? with
      | none => rw [onObj_none ho]; exact ⟨rfl, rfl, rfl, rfl⟩
      | some o =>
        rw [onObj_some ho] at hr ⊢
        have := hf o hr
        exact ⟨this.1, by dsimp only; rw [this.2]; exact set_self _ _ _ ho, rfl, rfl⟩
    cases c with
    | attach hab k => rcases h with h | h <;> cases h
    | event i e => exact obj i _ h fun o ho => raised_processEvent (outOf_validation ho)
    | anchor i d num dig => exact obj i _ h fun o ho => raised_anchorMsg (outOf_validation ho)
    | escrows i => exact obj i _ h fun o ho => by rcases ho with ho | ho <;> cases ho
    | make i said => exact obj i _ h fun o ho => raised_processEvent (outOf_validation ho)
    | blind i a said =>
      refine obj i _ h fun o ho => ?_
      unfold blind at ho ⊢
      cases hb : blindHead w.s o a with
      | none => exact ⟨rfl, rfl⟩
      | some r => rw [hb] at ho; exact raised_processEvent (outOf_validation ho)
    | makeRegistry name pre said =>
      have h' : (w.makeRegistry name pre said).out = .validation ∨ (w.makeRegistry name pre said).out = .config := h
      show (w.makeRegistry name pre said).ws = [] ∧ (w.makeRegistry name pre said).objs = w.objs ∧
        (w.makeRegistry name pre said).regs = w.regs ∧ (w.makeRegistry name pre said).names = w.names
      unfold World.makeRegistry at h' ⊢
      split
      · exact ⟨rfl, rfl, rfl, rfl⟩
      · rename_i h1
        rw [if_neg h1] at h'
        split
        · exact ⟨rfl, rfl, rfl, rfl⟩
        · rename_i h2
          rw [if_neg h2] at h'
          split
          · exact ⟨rfl, rfl, rfl, rfl⟩
          · rename_i h3
            rw [if_neg h3] at h'
            split
            · exact ⟨rfl, rfl, rfl, rfl⟩
            · rename_i b hb; rw [hb] at h'; rcases h' with h' | h' <;> cases h'
    | sweep => rcases h with h | h <;> cases h
  show { w with s := w.s.applyAll (w.call c).ws, objs := (w.call c).objs, regs := (w.call c).regs, names := (w.call c).names } = w
  rw [key.1, key.2.1, key.2.2.1, key.2.2.2]; rfl

/-- C164. An event for a slot that another event has is refused, whatever object it is given to. -/
theorem c164_taken (w : World) (h : Nat) (o : Obj) (e x : REvt) (ho : w.objs[h]? = some o) (hx : Accepted w.s (if e.ilk = .rip then e.said else e.rd) e.n x)
    (hne : x.said ≠ e.said) : (w.call (.event h e)).out = .validation := by
  have hseq : w.s.seqEvent e.regk e.n = some x := seq_of hx
  have hv : validate w.s o e = none := by
    cases hv : validate w.s o e with
    | none => rfl
    | some r =>
      obtain ⟨y, p⟩ := r
      have := validate_some hv
      exact absurd (this.2.2.2.2.1 x (by rw [this.2.2.2.1, hseq])) hne
  show (w.onObj h _).out = _
  rw [onObj_some ho]
  dsimp only
  unfold processEvent; rw [hv]; rfl

/-- C164. An event whose predecessor slot has another event than the one it names is refused. -/
theorem c164_prior (w : World) (h : Nat) (o : Obj) (e x : REvt) (m : Nat) (ho : w.objs[h]? = some o) (hk : e.ilk ≠ .rip) (hm : e.n = m + 1)
    (hx : Accepted w.s e.rd m x) (hne : x.said ≠ e.prior) : (w.call (.event h e)).out = .validation := by
  have hr : e.regk = e.rd := by unfold REvt.regk; rw [if_neg hk]
  have hv : validate w.s o e = none := by
    cases hv : validate w.s o e with
    | none => rfl
    | some r =>
      obtain ⟨y, p⟩ := r
      have := validate_some hv
      refine absurd (this.2.2.2.2.2.2.2 x ?_) hne
      rw [this.2.2.2.2.2.2.1 hk, hr, hm]; exact seq_of hx
  show (w.onObj h _).out = _
  rw [onObj_some ho]
  dsimp only
  unfold processEvent; rw [hv]; rfl

end Verif.Bsr
