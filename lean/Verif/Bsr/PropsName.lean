import Verif.Bsr.PropsHead

/-!
# C169: aliases
-/

namespace Verif.Bsr

open Verif.Kel (Id Dig Node Seal)

/-- No write of a record. -/
def NoRec (ws : List Wr) : Prop := ∀ n k, Wr.record n k ∉ ws

theorem NoRec.append {a b : List Wr} (ha : NoRec a) (hb : NoRec b) : NoRec (a ++ b) := fun n k h => by
  rcases List.mem_append.1 h with h | h
  · exact ha n k h
  · exact hb n k h

theorem noRec_nil : NoRec [] := fun _ _ h => by cases h

theorem NoRec.cons {w : Wr} {l : List Wr} (hw : ∀ n k, w ≠ .record n k) (hl : NoRec l) : NoRec (w :: l) := fun n k h => by
  rcases List.mem_cons.1 h with h | h
  · exact hw n k h.symm
  · exact hl n k h

theorem rec_apply (s : Store) (w : Wr) (h : ∀ n k, w ≠ .record n k) : (s.apply w).records = s.records := by
  cases w with
  | record n k => exact absurd rfl (h n k)
  | tel k n d => simp only [Store.apply]; split <;> rfl
  | _ => rfl

theorem rec_applyAll {l : List Wr} (s : Store) (h : NoRec l) : (s.applyAll l).records = s.records := by
  induction l generalizing s with
  | nil => rfl
  | cons w l ih =>
    have := ih (s.apply w) (fun n k hm => h n k (List.mem_cons_of_mem _ hm))
    exact this.trans (rec_apply s w fun n k he => h n k (by rw [he]; exact List.mem_cons_self))

theorem noRec_commit (s : Store) (e : REvt) : NoRec (commit s e) := by
  intro n k h
  unfold commit at h
  simp at h

theorem noRec_clear (k : Dig) (n : Nat) (d : Dig) : NoRec (clear k n d) := by
  intro n k h; simp [clear] at h

theorem noRec_walk (k : Dig) (n : Nat) (l : List Dig) (s : Store) : NoRec (walk s k n l).1 := by
  induction l generalizing s with
  | nil => exact noRec_nil
  | cons d l ih =>
    unfold walk
    split
    · exact (noRec_clear _ _ _).append (ih _)
    · exact ih _
    · exact noRec_commit _ _

theorem noRec_drain (f : Nat) (s : Store) (k : Dig) : NoRec (drain f s k) := by
  induction f generalizing s k with
  | zero => exact noRec_nil
  | succ f ih =>
    unfold drain
    split
    · exact noRec_nil
    · have := noRec_walk k (s.next k) (sortQ s (at' (s.ooes k) (s.next k))) s
      split
      · rename_i ws h; rw [h] at this; exact this
      · rename_i ws e h; rw [h] at this; exact this.append (ih _ _)

theorem noRec_anchorWrites (nd : Node) (s : Store) (hab : Id) (e : REvt) : NoRec (anchorWrites nd s hab e) := by
  unfold anchorWrites
  split
  · exact noRec_nil
  · split
    · exact noRec_nil
    · split
      · exact NoRec.cons (fun _ _ h => by cases h) noRec_nil
      · exact noRec_nil

theorem noRec_processEvent (nd : Node) (s : Store) (o : Obj) (e : REvt) : NoRec (processEvent nd s o e).ws := by
  have h1 : NoRec (.evt e :: anchorWrites nd s o.hab e) := NoRec.cons (fun _ _ h => by cases h) (noRec_anchorWrites _ _ _ _)
  unfold processEvent
  split
  · exact noRec_nil
  · exact noRec_nil
  · split
    · exact h1.append (NoRec.cons (fun _ _ h => by cases h) noRec_nil)
    · unfold advance
      split
      · exact h1.append (NoRec.cons (fun _ _ h => by cases h) ((noRec_commit _ _).append (noRec_drain _ _ _)))
      · exact h1.append (NoRec.cons (fun _ _ h => by cases h) (NoRec.cons (fun _ _ h => by cases h) noRec_nil))

theorem noRec_missOne (nd : Node) (s : Store) (o : Obj) (k : Dig) (x : Nat × Dig) : NoRec (missOne nd s o k x).1 := by
  unfold missOne
  split
  · exact noRec_clear _ _ _
  · split
    · exact noRec_clear _ _ _
    · split
      · exact noRec_clear _ _ _
      · exact noRec_processEvent _ _ _ _

theorem noRec_missAll (nd : Node) (k : Dig) (l : List (Nat × Dig)) (s : Store) (o : Obj) : NoRec (missAll nd k l s o).1 := by
  induction l generalizing s o with
  | nil => exact noRec_nil
  | cons x l ih => unfold missAll; exact (noRec_missOne _ _ _ _ _).append (ih _ _)

theorem noRec_escrows (nd : Node) (s : Store) (o : Obj) : NoRec (escrows nd s o).1 := by
  unfold escrows
  split
  · exact noRec_nil
  · exact (noRec_missAll _ _ _ _ _).append (noRec_drain _ _ _)

theorem noRec_anchorMsg (nd : Node) (s : Store) (o : Obj) (d : Dig) (num : Option Nat) (dig : Option Dig) : NoRec (anchorMsg nd s o d num dig).ws := by
  unfold anchorMsg
  split
  · exact noRec_nil
  · split
    · exact noRec_nil
    · split
      · exact noRec_nil
      · split
        · exact noRec_nil
        · split
          · exact noRec_nil
          · split
            · exact NoRec.cons (fun _ _ h => by cases h) (noRec_processEvent _ _ _ _)
            · exact noRec_nil

theorem noRec_blind (nd : Node) (s : Store) (o : Obj) (a : Acdc) (said : Dig) : NoRec (blind nd s o a said).1 := by
  unfold blind
  split
  · exact noRec_nil
  · exact noRec_processEvent _ _ _ _

theorem noRec_sweep (nd : Node) (l : List Nat) (s : Store) (os : List Obj) : NoRec (sweepAll nd l s os).1 := by
  induction l generalizing s os with
  | nil => exact noRec_nil
  | cons h l ih =>
    unfold sweepAll
    split
    · exact ih _ _
    · exact (noRec_escrows _ _ _).append (ih _ _)

theorem noRec_onObj (w : World) (h : Nat) (f : Obj → List Wr × Obj × Out) (hf : ∀ o, NoRec (f o).1) : NoRec (w.onObj h f).ws := by
  unfold World.onObj
  split
  · exact noRec_nil
  · exact hf _

theorem noRec_call (w : World) (c : Call) (hc : ∀ name pre said, c ≠ .makeRegistry name pre said) : NoRec (w.call c).ws := by
  cases c with
  | attach hab k => exact noRec_nil
  | event h e => exact noRec_onObj w h _ fun o => noRec_processEvent _ _ _ _
  | anchor h d num dig => exact noRec_onObj w h _ fun o => noRec_anchorMsg _ _ _ _ _ _
  | escrows h => exact noRec_onObj w h _ fun o => noRec_escrows _ _ _
  | make h said => exact noRec_onObj w h _ fun o => noRec_processEvent _ _ _ _
  | blind h a said => exact noRec_onObj w h _ fun o => noRec_blind _ _ _ _ _
  | makeRegistry name pre said => exact absurd rfl (hc name pre said)
  | sweep => exact noRec_sweep _ _ _ _

/-- Bound objects keep their registry. -/
def Keep (os os' : List Obj) : Prop := ∀ (h : Nat) (o : Obj) (k : Dig), os[h]? = some o → o.regk = some k → ∃ o', os'[h]? = some o' ∧ o'.regk = some k

theorem Keep.refl (os : List Obj) : Keep os os := fun _ o _ h hk => ⟨o, h, hk⟩

theorem keep_set {os : List Obj} {h : Nat} {o o' : Obj} (ho : os[h]? = some o) (hk : ∀ k, o.regk = some k → o'.regk = some k) : Keep os (os.set h o') := by
  intro i x k hx hxk
  by_cases hi : i = h
  · subst hi
    rw [ho] at hx; cases hx
    refine ⟨o', ?_, hk k hxk⟩
    rw [List.getElem?_set_self]
    exact (List.getElem?_eq_some_iff.1 ho).1
  · exact ⟨x, by rw [List.getElem?_set_ne (fun h => hi h.symm)]; exact hx, hxk⟩

theorem keep_add (os : List Obj) (o : Obj) : Keep os (os ++ [o]) := by
  intro i x k hx hxk
  exact ⟨x, by rw [List.getElem?_append_left (List.getElem?_eq_some_iff.1 hx).1]; exact hx, hxk⟩

theorem bound_processEvent (nd : Node) (s : Store) (o : Obj) (e : REvt) (k : Dig) (hk : o.regk = some k) : (processEvent nd s o e).obj.regk = some k := by
  rcases (obj_processEvent nd s o e).2 with h | ⟨h, r, hr⟩
  · rw [h, hk]
  · obtain ⟨a, b⟩ := r
    rw [h, ← (validate_some hr).2.2.1 k hk]

theorem bound_missAll (nd : Node) (k : Dig) (l : List (Nat × Dig)) (s : Store) (o : Obj) (hk : o.regk = some k) : (missAll nd k l s o).2.regk = some k := by
  induction l generalizing s o with
  | nil => exact hk
  | cons x l ih => unfold missAll; exact ih _ _ (missOne_obj nd s o k hk x).2

theorem bound_escrows (nd : Node) (s : Store) (o : Obj) (k : Dig) (hk : o.regk = some k) : (escrows nd s o).2.regk = some k := by
  unfold escrows
  rw [hk]
  dsimp only
  unfold regdOf
  split
  · exact bound_missAll nd k _ s o hk
  · exact bound_missAll nd k _ s o hk

theorem bound_anchorMsg (nd : Node) (s : Store) (o : Obj) (d : Dig) (num : Option Nat) (dig : Option Dig) (k : Dig) (hk : o.regk = some k) :
    (anchorMsg nd s o d num dig).obj.regk = some k := by
  unfold anchorMsg
  split
  · exact hk
  · split
    · exact hk
    · split
      · exact hk
      · split
        · exact hk
        · split
          · exact hk
          · split
            · exact bound_processEvent _ _ _ _ _ hk
            · exact hk

theorem keep_sweep (nd : Node) (l : List Nat) (s : Store) (os : List Obj) : Keep os (sweepAll nd l s os).2 := by
  induction l generalizing s os with
  | nil => exact Keep.refl _
  | cons h l ih =>
    unfold sweepAll
    split
    · exact ih _ _
    · rename_i o ho
      intro i x k hx hxk
      obtain ⟨y, hy, hyk⟩ := keep_set (o' := (escrows nd s o).2) ho (fun k hk => bound_escrows nd s o k hk) i x k hx hxk
      exact ih _ _ i y k hy hyk

theorem keep_onObj (w : World) (h : Nat) (f : Obj → List Wr × Obj × Out) (hf : ∀ o k, o.regk = some k → (f o).2.1.regk = some k) :
    Keep w.objs (w.onObj h f).objs ∧ (w.onObj h f).names = w.names ∧ (w.onObj h f).regs = w.regs := by
  cases ho : w.objs[h]? with
  | none => rw [onObj_none ho]; exact ⟨Keep.refl _, rfl, rfl⟩
  | some o => rw [onObj_some ho]; exact ⟨keep_set ho (hf o), rfl, rfl⟩

/-- Calls other than `makeRegistry` leave aliases and records. -/
theorem keep_call (w : World) (c : Call) (hc : ∀ name pre said, c ≠ .makeRegistry name pre said) :
    Keep w.objs (w.call c).objs ∧ (w.call c).names = w.names ∧ (w.call c).regs = w.regs := by
  cases c with
  | attach hab k => exact ⟨keep_add _ _, rfl, rfl⟩
  | event h e => exact keep_onObj w h _ fun o k hk => bound_processEvent _ _ _ _ _ hk
  | anchor h d num dig => exact keep_onObj w h _ fun o k hk => bound_anchorMsg _ _ _ _ _ _ _ hk
  | escrows h => exact keep_onObj w h _ fun o k hk => bound_escrows _ _ _ _ hk
  | make h said => exact keep_onObj w h _ fun o k hk => bound_processEvent _ _ _ _ _ hk
  | blind h a said =>
    refine keep_onObj w h _ fun o k hk => ?_
    unfold blind
    split
    · exact hk
    · exact bound_processEvent _ _ _ _ _ hk
  | makeRegistry name pre said => exact absurd rfl (hc name pre said)
  | sweep => exact ⟨keep_sweep _ _ _ _, rfl, rfl⟩

theorem rip_bound {nd : Node} {s : Store} {pre : Id} {said : Dig} {b : Bool} (h : (processEvent nd s ⟨pre, none, none⟩ (inception pre said)).out = some b) :
    (processEvent nd s ⟨pre, none, none⟩ (inception pre said)).obj.regk = some said := by
  unfold processEvent at h ⊢
  cases hv : validate s ⟨pre, none, none⟩ (inception pre said) with
  | none => rw [hv] at h; cases h
  | some r =>
    obtain ⟨x, prior⟩ := r
    cases x with
    | some x => rfl
    | none =>
      dsimp only
      split
      · rfl
      · unfold advance
        split <;> rfl

/-- The two cases of `makeRegistry`. -/
theorem make_cases (w : World) (name : Name) (pre : Id) (said : Dig) :
    ((w.makeRegistry name pre said).ws = [] ∧ (w.makeRegistry name pre said).objs = w.objs ∧ (w.makeRegistry name pre said).names = w.names ∧
      (w.makeRegistry name pre said).regs = w.regs ∧ (w.makeRegistry name pre said).out ≠ .unit) ∨
    (look w.names name = none ∧ ∃ ws o, NoRec ws ∧ o.regk = some said ∧ (w.makeRegistry name pre said).ws = ws ++ [.record name said] ∧
      (w.makeRegistry name pre said).objs = w.objs ++ [o] ∧ (w.makeRegistry name pre said).names = w.names ++ [(name, w.objs.length)] ∧
      (w.makeRegistry name pre said).regs = w.regs ++ [(said, w.objs.length)]) := by
  unfold World.makeRegistry
  split
  · exact .inl ⟨rfl, rfl, rfl, rfl, by simp [World.idle]⟩
  · rename_i hn
    split
    · exact .inl ⟨rfl, rfl, rfl, rfl, by simp [World.idle]⟩
    · split
      · exact .inl ⟨rfl, rfl, rfl, rfl, by simp [World.idle]⟩
      · split
        · exact .inl ⟨rfl, rfl, rfl, rfl, by simp [World.idle]⟩
        · rename_i b hb
          exact .inr ⟨by simpa using hn, _, _, noRec_processEvent _ _ _ _, rip_bound hb, rfl, rfl, rfl, rfl⟩

theorem look_mem {α β : Type} [DecidableEq α] {l : List (α × β)} {a : α} {b : β} (h : look l a = some b) : (a, b) ∈ l := by
  unfold look at h
  cases hf : l.find? (fun x => decide (x.1 = a)) with
  | none => rw [hf] at h; cases h
  | some x =>
    rw [hf] at h
    have h1 := List.find?_some hf
    have h2 := List.mem_of_find?_eq_some hf
    obtain ⟨x1, x2⟩ := x
    simp only [decide_eq_true_eq] at h1
    cases h
    subst h1
    exact h2

theorem look_none {α β : Type} [DecidableEq α] {l : List (α × β)} {a : α} (h : look l a = none) (b : β) : (a, b) ∉ l := by
  unfold look at h
  simp only [Option.map_eq_none_iff, List.find?_eq_none, decide_eq_true_eq] at h
  exact fun hm => h _ hm rfl

theorem look_of_mem {α β : Type} [DecidableEq α] {l : List (α × β)} {a : α} {b : β} (h : (a, b) ∈ l) : ∃ b', look l a = some b' := by
  cases hl : look l a with
  | none => exact absurd h (look_none hl b)
  | some b' => exact ⟨b', rfl⟩

/-- What holds of aliases. -/
structure NInv (w : World) : Prop where
  names : ∀ x ∈ w.names, ∃ o k, w.objs[x.2]? = some o ∧ o.regk = some k ∧ (x.1, k) ∈ w.s.records
  regs : ∀ x ∈ w.regs, ∃ o, w.objs[x.2]? = some o ∧ o.regk = some x.1
  one : ∀ n k k', (n, k) ∈ w.s.records → (n, k') ∈ w.s.records → k = k'

theorem records_add {s : Store} {name : Name} {k : Dig} (h : ∀ k, (name, k) ∉ s.records) : (s.apply (.record name k)).records = s.records ++ [(name, k)] := by
  simp only [Store.apply]
  congr 1
  refine List.filter_eq_self.2 fun x hx => ?_
  simp only [decide_eq_true_eq]
  intro he
  exact h x.2 (by rw [← he]; exact hx)

theorem ninv_one {r : List (Name × Dig)} (h1 : ∀ n k k', (n, k) ∈ r → (n, k') ∈ r → k = k') {name : Name} {d : Dig} (hf : ∀ k, (name, k) ∉ r) :
    ∀ n k k', (n, k) ∈ r ++ [(name, d)] → (n, k') ∈ r ++ [(name, d)] → k = k' := by
  intro n k k' ha hb
  rcases List.mem_append.1 ha with ha | ha
  · rcases List.mem_append.1 hb with hb | hb
    · exact h1 n k k' ha hb
    · simp only [List.mem_singleton] at hb; cases hb; exact absurd ha (hf k)
  · simp only [List.mem_singleton] at ha; cases ha
    rcases List.mem_append.1 hb with hb | hb
    · exact absurd hb (hf k')
    · simp only [List.mem_singleton] at hb; cases hb; rfl

/-- Loading goes on from what is loaded. -/
theorem load_names (l : List (Name × Dig)) {w w' : World} (hs : ∀ x ∈ l, x ∈ w.s.records) (hn : NInv w) (h : w.load l = some w') :
    NInv w' ∧ w'.s = w.s ∧ (∀ x ∈ w.names, x ∈ w'.names) ∧ ∀ x ∈ l, ∃ i, (x.1, i) ∈ w'.names := by
  induction l generalizing w with
  | nil => cases h; exact ⟨hn, rfl, fun _ h => h, fun _ h => by cases h⟩
  | cons x l ih =>
    unfold World.load at h
    cases h1 : w.load1 x with
    | none => rw [h1] at h; cases h
    | some w1 =>
      rw [h1] at h
      have key : NInv w1 ∧ w1.s = w.s ∧ (∀ y ∈ w.names, y ∈ w1.names) ∧ ∃ i, (x.1, i) ∈ w1.names := by
        unfold World.load1 at h1
        split at h1
        · cases h1
        · split at h1
          · cases h1
          · split at h1
            · cases h1
            · split at h1
              · cases h1
              · split at h1
                · rename_i i hi
                  cases h1
                  obtain ⟨o, ho, hk⟩ := hn.regs _ (look_mem hi)
                  refine ⟨⟨fun y hy => ?_, hn.regs, hn.one⟩, rfl, fun y hy => List.mem_append_left _ hy, i, List.mem_append_right _ List.mem_cons_self⟩
                  rcases List.mem_append.1 hy with hy | hy
                  · exact hn.names y hy
                  · simp only [List.mem_singleton] at hy; subst hy
                    exact ⟨o, x.2, ho, hk, hs x List.mem_cons_self⟩
                · cases h1
                  refine ⟨⟨fun y hy => ?_, fun y hy => ?_, hn.one⟩, rfl, fun y hy => List.mem_append_left _ hy, _, List.mem_append_right _ List.mem_cons_self⟩
                  · rcases List.mem_append.1 hy with hy | hy
                    · obtain ⟨o, k, ho, hk, hr⟩ := hn.names y hy
                      obtain ⟨o', ho', hk'⟩ := keep_add w.objs _ y.2 o k ho hk
                      exact ⟨o', k, ho', hk', hr⟩
                    · simp only [List.mem_singleton] at hy; subst hy
                      exact ⟨_, x.2, by dsimp only; rw [List.getElem?_concat_length], rfl, hs x List.mem_cons_self⟩
                  · rcases List.mem_append.1 hy with hy | hy
                    · obtain ⟨o, ho, hk⟩ := hn.regs y hy
                      exact keep_add w.objs _ y.2 o _ ho hk
                    · simp only [List.mem_singleton] at hy; subst hy
                      exact ⟨_, by dsimp only; rw [List.getElem?_concat_length], rfl⟩
      obtain ⟨k1, k2, k3, i, k4⟩ := key
      have := ih (fun y hy => by rw [k2]; exact hs y (List.mem_cons_of_mem _ hy)) k1 h
      refine ⟨this.1, this.2.1.trans k2, fun y hy => this.2.2.1 y (k3 y hy), fun y hy => ?_⟩
      rcases List.mem_cons.1 hy with rfl | hy
      · exact ⟨i, this.2.2.1 _ k4⟩
      · exact this.2.2.2 y hy

theorem ninv_down {w : World} (h : NInv w) (s : Store) (h1 : ∀ n k k', (n, k) ∈ s.records → (n, k') ∈ s.records → k = k') : NInv { w.down with s := s } :=
  ⟨(fun _ h => by cases h), (fun _ h => by cases h), h1⟩

theorem name_step {env : Kel.Env} {w : World} {i : Inp} (h : NInv w) (g : Opened w i) : NInv (w.step env i) ∧ ∀ x ∈ w.s.records, x ∈ (w.step env i).s.records := by
  cases i with
  | kel i => exact ⟨⟨h.names, h.regs, h.one⟩, fun _ h => h⟩
  | config hs => exact ⟨⟨h.names, h.regs, h.one⟩, fun _ h => h⟩
  | reopen =>
    refine ⟨?_, fun x hx => by rw [reopen_s]; exact hx⟩
    show NInv ((w.down.load w.s.records).getD w.down)
    have hd : NInv w.down := ninv_down h w.s h.one
    cases hl : w.down.load w.s.records with
    | none => exact hd
    | some w' => exact (load_names _ (w := w.down) (fun _ h => h) hd hl).1
  | call c =>
    by_cases hc : ∃ name pre said, c = .makeRegistry name pre said
    · obtain ⟨name, pre, said, rfl⟩ := hc
      have hL := g name pre said rfl
      show NInv { w with s := w.s.applyAll (w.makeRegistry name pre said).ws, objs := (w.makeRegistry name pre said).objs, regs := (w.makeRegistry name pre said).regs, names := (w.makeRegistry name pre said).names } ∧
        ∀ x ∈ w.s.records, x ∈ (w.s.applyAll (w.makeRegistry name pre said).ws).records
      rcases make_cases w name pre said with ⟨h1, h2, h3, h4, _⟩ | ⟨hn, ws, o, h1, h2, h3, h4, h5, h6⟩
      · rw [h1, h2, h3, h4]; exact ⟨h, fun _ h => h⟩
      · rw [h3, h4, h5, h6]
        have hfresh : ∀ k, (name, k) ∉ w.s.records := fun k hm => by
          obtain ⟨i, hi⟩ := hL _ hm; dsimp only at hi; rw [hn] at hi; cases hi
        have hrec : (w.s.applyAll (ws ++ [.record name said])).records = w.s.records ++ [(name, said)] := by
          rw [applyAll_append]
          have hw := rec_applyAll w.s h1
          show ((w.s.applyAll ws).apply (.record name said)).records = _
          rw [records_add (by rw [hw]; exact hfresh), hw]
        refine ⟨⟨fun x hx => ?_, fun x hx => ?_, ?_⟩, fun x hx => by rw [hrec]; exact List.mem_append_left _ hx⟩
        · dsimp only at hx ⊢
          rw [hrec]
          rcases List.mem_append.1 hx with hx | hx
          · obtain ⟨o', k, ho, hk, hr⟩ := h.names x hx
            obtain ⟨o'', ho', hk'⟩ := keep_add w.objs o x.2 o' k ho hk
            exact ⟨o'', k, ho', hk', List.mem_append_left _ hr⟩
          · simp only [List.mem_singleton] at hx; subst hx
            exact ⟨o, said, by dsimp only; rw [List.getElem?_concat_length], h2, List.mem_append_right _ List.mem_cons_self⟩
        · dsimp only at hx ⊢
          rcases List.mem_append.1 hx with hx | hx
          · obtain ⟨o', ho, hk⟩ := h.regs x hx
            exact keep_add w.objs o x.2 o' _ ho hk
          · simp only [List.mem_singleton] at hx; subst hx
            exact ⟨o, by dsimp only; rw [List.getElem?_concat_length], h2⟩
        · dsimp only; rw [hrec]; exact ninv_one h.one hfresh
    · have hc' : ∀ name pre said, c ≠ .makeRegistry name pre said := fun a b d he => hc ⟨a, b, d, he⟩
      obtain ⟨k1, k2, k3⟩ := keep_call w c hc'
      have hr := rec_applyAll w.s (noRec_call w c hc')
      have hrr : (w.step env (.call c)).s.records = w.s.records := hr
      refine ⟨⟨fun x hx => ?_, fun x hx => ?_, ?_⟩, fun x hx => by rw [hrr]; exact hx⟩
      · rw [hrr]
        have hx' : x ∈ w.names := by rw [← k2]; exact hx
        obtain ⟨o, k, ho, hk, hrc⟩ := h.names x hx'
        obtain ⟨o', ho', hk'⟩ := k1 _ _ _ ho hk
        exact ⟨o', k, ho', hk', hrc⟩
      · have hx' : x ∈ w.regs := by rw [← k3]; exact hx
        obtain ⟨o, ho, hk⟩ := h.regs x hx'
        exact k1 _ _ _ ho hk
      · rw [hrr]; exact h.one
  | crash c m =>
    by_cases hc : ∃ name pre said, c = .makeRegistry name pre said
    · obtain ⟨name, pre, said, rfl⟩ := hc
      have hL := g name pre said rfl
      have key : (w.s.applyAll ((w.makeRegistry name pre said).ws.take m)).records = w.s.records ∨
          ((∀ k, (name, k) ∉ w.s.records) ∧ (w.s.applyAll ((w.makeRegistry name pre said).ws.take m)).records = w.s.records ++ [(name, said)]) := by
        rcases make_cases w name pre said with ⟨h1, _⟩ | ⟨hn, ws, o, h1, _, h3, _⟩
        · rw [h1]; left; simp [Store.applyAll]
        · rw [h3]
          have hfresh : ∀ k, (name, k) ∉ w.s.records := fun k hm => by
            obtain ⟨i, hi⟩ := hL _ hm; dsimp only at hi; rw [hn] at hi; cases hi
          by_cases hm : m ≤ ws.length
          · left
            rw [List.take_append_of_le_length hm]
            exact rec_applyAll _ fun n k hx => h1 n k (List.mem_of_mem_take hx)
          · right
            refine ⟨hfresh, ?_⟩
            rw [List.take_of_length_le (by simp; omega), applyAll_append]
            have hw := rec_applyAll w.s h1
            show ((w.s.applyAll ws).apply (.record name said)).records = _
            rw [records_add (by rw [hw]; exact hfresh), hw]
      show NInv { w.down with s := w.s.applyAll ((w.makeRegistry name pre said).ws.take m) } ∧
        ∀ x ∈ w.s.records, x ∈ (w.s.applyAll ((w.makeRegistry name pre said).ws.take m)).records
      rcases key with k1 | ⟨hf, k1⟩
      · exact ⟨ninv_down h _ (by rw [k1]; exact h.one), fun x hx => by rw [k1]; exact hx⟩
      · exact ⟨ninv_down h _ (by rw [k1]; exact ninv_one h.one hf), fun x hx => by rw [k1]; exact List.mem_append_left _ hx⟩
    · have hc' : ∀ name pre said, c ≠ .makeRegistry name pre said := fun a b d he => hc ⟨a, b, d, he⟩
      have hr : (w.s.applyAll ((w.call c).ws.take m)).records = w.s.records :=
        rec_applyAll w.s fun n k hx => noRec_call w c hc' n k (List.mem_of_mem_take hx)
      refine ⟨ninv_down h _ (by rw [hr]; exact h.one), fun x hx => ?_⟩
      show x ∈ (w.s.applyAll ((w.call c).ws.take m)).records
      rw [hr]; exact hx

theorem ninv_start (nd : Node) (habs : List Id) : NInv (World.start nd habs) :=
  ⟨(fun _ h => by cases h), (fun _ h => by cases h), (fun _ _ _ h => by cases h)⟩

theorem ninv_hist {env : Kel.Env} {w0 w : World} (h0 : NInv w0) (h : Hist env Opened w0 w) : NInv w ∧ ∀ x ∈ w0.s.records, x ∈ w.s.records := by
  induction h with
  | nil => exact ⟨h0, fun _ h => h⟩
  | step i _ g ih =>
    have := name_step (env := env) ih.1 g
    exact ⟨this.1, fun x hx => this.2 x (ih.2 x hx)⟩

/-- C169. An alias that was recorded for a registry stands for that registry ever after, over crashes and new openings, whenever it stands for one at all. -/
theorem c169_alias_partial {env : Kel.Env} {nd : Node} {habs : List Id} {w w' : World} (h : Hist env Opened (World.start nd habs) w)
    (h' : Hist env Opened w w') (name : Name) (k : Dig) (hr : (name, k) ∈ w.s.records) :
    (name, k) ∈ w'.s.records ∧ ∀ i, look w'.names name = some i → ∃ o, w'.objs[i]? = some o ∧ o.regk = some k := by
  have h1 := ninv_hist (ninv_start nd habs) h
  have h2 := ninv_hist h1.1 h'
  refine ⟨h2.2 _ hr, fun i hi => ?_⟩
  obtain ⟨o, k', ho, hk, hm⟩ := h2.1.names _ (look_mem hi)
  have := h2.1.one _ _ _ hm (h2.2 _ hr)
  subst this
  exact ⟨o, ho, hk⟩

/-- C169. A registry that was made has its alias, and the alias is recorded. -/
theorem c169_made (env : Kel.Env) (w : World) (name : Name) (pre : Id) (said : Dig) (h : (w.call (.makeRegistry name pre said)).out = .unit) :
    (name, said) ∈ (w.step env (.call (.makeRegistry name pre said))).s.records ∧ Names (w.step env (.call (.makeRegistry name pre said))) name said := by
  rcases make_cases w name pre said with ⟨_, _, _, _, h1⟩ | ⟨hn, ws, o, h1, h2, h3, h4, h5, h6⟩
  · exact absurd h h1
  · constructor
    · show _ ∈ (w.s.applyAll (w.makeRegistry name pre said).ws).records
      rw [h3, applyAll_append]
      exact List.mem_append_right _ List.mem_cons_self
    · refine ⟨w.objs.length, o, ?_, ?_, h2⟩
      · show look (w.makeRegistry name pre said).names name = _
        rw [h5]
        unfold look at hn ⊢
        rw [Option.map_eq_none_iff] at hn
        rw [List.find?_append, hn]
        simp
      · show (w.makeRegistry name pre said).objs[w.objs.length]? = _
        rw [h4, List.getElem?_concat_length]

theorem load_some (l : List (Name × Dig)) {w : World}
    (h : ∀ x ∈ l, x.1.dotted = false ∧ ∃ e, w.s.evts x.2 = some e ∧ e.ilk = .rip ∧ e.iss ∈ w.habs) : ∃ w', w.load l = some w' := by
  induction l generalizing w with
  | nil => exact ⟨w, rfl⟩
  | cons x l ih =>
    obtain ⟨h1, e, h2, h3, h4⟩ := h x List.mem_cons_self
    have : ∃ w1, w.load1 x = some w1 ∧ w1.s = w.s ∧ w1.habs = w.habs := by
      unfold World.load1
      rw [h1, h2]
      simp only [Bool.false_eq_true, if_false, h3, ne_eq, not_true_eq_false, h4]
      split
      · exact ⟨_, rfl, rfl, rfl⟩
      · exact ⟨_, rfl, rfl, rfl⟩
    obtain ⟨w1, k1, k2, k3⟩ := this
    unfold World.load
    rw [k1]
    exact ih fun y hy => by rw [k2, k3]; exact h y (List.mem_cons_of_mem _ hy)

/-- C169. A new opening brings every alias back, unless one has the separator in it or the habitat of a registry is not loaded. -/
theorem c169_reopen {env : Kel.Env} {V : REvt → Prop} (hnc : NoColl V) {nd : Node} {habs : List Id} {w : World}
    (h : Hist env (fun w i => Within V w i ∧ Opened w i) (World.start nd habs) w) (hd : ∀ x ∈ w.s.records, x.1.dotted = false)
    (hh : ∀ x ∈ w.s.records, ∀ e, w.s.evts x.2 = some e → e.iss ∈ w.habs) (name : Name) (k : Dig) (hr : (name, k) ∈ w.s.records) :
    Names (w.step env .reopen) name k := by
  have hi := (hist_inv hnc (fun _ _ g => g.1) (sinv_empty V) h).1
  have hn : NInv w := by
    refine (ninv_hist (ninv_start nd habs) (env := env) ?_).1
    clear hd hh hr hi
    induction h with
    | nil => exact .nil
    | step i _ g ih => exact .step i ih g.2
  have hdn : NInv w.down := ninv_down hn w.s hn.one
  obtain ⟨w', hw'⟩ := load_some (w := w.down) w.s.records fun x hx => by
    obtain ⟨e, he, hk⟩ := hi.rcd x hx
    exact ⟨hd x hx, e, he, hk, hh x hx e he⟩
  obtain ⟨h1, h2, _, h4⟩ := load_names _ (w := w.down) (fun _ h => h) hdn hw'
  obtain ⟨i, hi'⟩ := h4 _ hr
  obtain ⟨j, hj⟩ := look_of_mem hi'
  obtain ⟨o, k', ho, hk, hm⟩ := h1.names _ (look_mem hj)
  have := h1.one _ _ _ hm (by rw [h2]; exact hr)
  subst this
  show Names ((w.down.load w.s.records).getD w.down) name _
  rw [hw']
  exact ⟨j, o, hj, ho, hk⟩

theorem look_append {α β : Type} [DecidableEq α] {l m : List (α × β)} {a : α} {b : β} (h : look l a = some b) : look (l ++ m) a = some b := by
  unfold look at h ⊢
  rw [List.find?_append]
  cases hf : l.find? (fun x => decide (x.1 = a)) with
  | none => rw [hf] at h; cases h
  | some x => rw [hf] at h; exact h

/-- C169. While a `Regery` is open, every recorded alias stands for its registry. -/
theorem c169_open {env : Kel.Env} {w w' : World} (h0 : Loaded w) (h : Hist env (fun _ i => Whole i ∧ i ≠ .reopen) w w') : Loaded w' := by
  induction h with
  | nil => exact h0
  | @step w1 i _ g ih =>
    cases i with
    | kel i => exact ih
    | config hs => exact ih
    | reopen => exact absurd rfl g.2
    | crash c m => exact absurd rfl (g.1 c m)
    | call c =>
      by_cases hc : ∃ name pre said, c = .makeRegistry name pre said
      · obtain ⟨name, pre, said, rfl⟩ := hc
        intro x hx
        have hx' : x ∈ (w1.s.applyAll (w1.makeRegistry name pre said).ws).records := hx
        show ∃ h, look (w1.makeRegistry name pre said).names x.1 = some h
        rcases make_cases w1 name pre said with ⟨h1, h2, h3, h4, _⟩ | ⟨hn, ws, o, h1, h2, h3, h4, h5, h6⟩
        · rw [h1] at hx'; rw [h3]; exact ih x hx'
        · rw [h3, applyAll_append] at hx'
          rw [h5]
          rcases List.mem_append.1 hx' with hx' | hx'
          · have hx2 := (List.mem_filter.1 hx').1
            rw [rec_applyAll w1.s h1] at hx2
            obtain ⟨i, hi⟩ := ih x hx2
            exact ⟨i, look_append hi⟩
          · simp only [List.mem_singleton] at hx'; subst hx'
            exact look_of_mem (b := w1.objs.length) (List.mem_append_right _ List.mem_cons_self)
      · have hc' : ∀ name pre said, c ≠ .makeRegistry name pre said := fun a b d he => hc ⟨a, b, d, he⟩
        intro x hx
        have hx' : x ∈ (w1.s.applyAll (w1.call c).ws).records := hx
        rw [rec_applyAll w1.s (noRec_call w1 c hc')] at hx'
        show ∃ h, look (w1.call c).names x.1 = some h
        rw [(keep_call w1 c hc').2.1]
        exact ih x hx'

theorem load_dotted (l : List (Name × Dig)) (w : World) (x : Name × Dig) (hx : x ∈ l) (hd : x.1.dotted = true) : w.load l = none := by
  induction l generalizing w with
  | nil => cases hx
  | cons y l ih =>
    unfold World.load
    rcases List.mem_cons.1 hx with rfl | hx
    · unfold World.load1; rw [if_pos hd]; rfl
    · cases w.load1 y with
      | none => rfl
      | some w1 => exact ih w1 hx

/-- C169, what fails: once an alias with the separator in it is recorded, every later opening raises, so that no registry is managed any more. -/
theorem c169_dotted {env : Kel.Env} {nd : Node} {habs : List Id} {w w' : World} (h : Hist env Opened (World.start nd habs) w) (h' : Hist env Opened w w')
    (name : Name) (k : Dig) (hr : (name, k) ∈ w.s.records) (hd : name.dotted = true) :
    (w'.step env .reopen).names = [] ∧ (w'.step env .reopen).regs = [] := by
  have h2 := ninv_hist (ninv_hist (ninv_start nd habs) h).1 h'
  show ((w'.down.load w'.s.records).getD w'.down).names = [] ∧ ((w'.down.load w'.s.records).getD w'.down).regs = []
  rw [load_dotted _ _ _ (h2.2 _ hr) hd]
  exact ⟨rfl, rfl⟩

end Verif.Bsr
