import Verif.Reg.Model

/-! # Finding registries by name (C224) -/

namespace Verif.Reg

open Verif.Kel (Id Dig Couple upd upd2)
open Verif.Tel (TNode TEnv TEvt TExn TInp Reger)

/-- The names a history makes registries under. -/
def Inp.name? : Inp → Option Nat
  | .make _ n _ _ => some n
  | .makeNew n _ _ _ _ _ => some n
  | _ => none

theorem process_frame (env : TEnv) (w : World) (e : TEvt) :
    (w.process env e).1.recs = w.recs ∧ (w.process env e).1.regs = w.regs ∧ (w.process env e).1.habs = w.habs := by
  unfold World.process
  dsimp only
  split <;> exact ⟨rfl, rfl, rfl⟩

theorem ask_frame (env : TEnv) (w : World) (s : Bool) (k : Id) (d : Dig) (a : Ask) :
    (w.ask env s k d a).1.recs = w.recs ∧ (w.ask env s k d a).1.regs = w.regs ∧ (w.ask env s k d a).1.habs = w.habs := by
  unfold World.ask
  split
  · exact ⟨rfl, rfl, rfl⟩
  · rename_i e _
    have := process_frame env w e
    split <;> (rename_i h; rw [h] at this; exact this)

theorem rotate_frame (env : TEnv) (w : World) (k : Id) (e : TEvt) : w.signifyRotate env k e = (w, .error .key) ∨ w.signifyRotate env k e = (w, .error .value) := by
  unfold World.signifyRotate
  split
  · exact .inl rfl
  · split
    · exact .inr rfl
    · rw [if_pos (by intro h; cases h)]
      exact .inr rfl

theorem anchor_frame (w : World) (p : Id) (d : Dig) (c : Couple) : (w.anchor p d c).recs = w.recs ∧ (w.anchor p d c).regs = w.regs ∧ (w.anchor p d c).habs = w.habs := by
  unfold World.anchor
  split <;> exact ⟨rfl, rfl, rfl⟩

theorem record_recs (w : World) (name : Nat) (pre k : Id) :
    (w.rec? name = none ∧ (w.record name pre k).recs = w.recs ++ [(name, k, pre)]) ∨ ((∃ x, w.rec? name = some x) ∧ (w.record name pre k).recs = w.recs) := by
  unfold World.record
  dsimp only
  cases h : w.rec? name with
  | none => exact .inl ⟨rfl, rfl⟩
  | some x => exact .inr ⟨⟨x, rfl⟩, rfl⟩

/-- What `make` leaves: nothing changed, or the record, with the object unless something was raised. -/
theorem make_cases (env : TEnv) (w : World) (s : Bool) (name : Nat) (pre : Id) (e : TEvt) :
    (w.make env s name pre e = (w, .error .key) ∧ pre ∉ w.habs) ∨
    (pre ∈ w.habs ∧ (w.make env s name pre e).1.recs = (w.record name pre e.pre).recs ∧ (w.make env s name pre e).1.habs = w.habs ∧
      (((w.make env s name pre e).2 = .ok () ∧ (w.make env s name pre e).1.regs = upd w.regs e.pre (some ⟨name, pre, s⟩)) ∨
       ((∃ x, (w.make env s name pre e).2 = .error x) ∧ (w.make env s name pre e).1.regs = w.regs))) := by
  by_cases hp : pre ∈ w.habs
  · refine .inr ⟨hp, ?_⟩
    have hf := process_frame env (w.record name pre e.pre) e
    unfold World.make
    rw [if_neg (by simp [hp])]
    cases h : (w.record name pre e.pre).process env e with
    | mk w' o =>
      rw [h] at hf
      obtain ⟨h1, h2, h3⟩ := hf
      dsimp only at h1 h2 h3
      have h2' : w'.regs = w.regs := h2
      cases o with
      | error x =>
        dsimp only
        split
        · exact ⟨h1, h3, .inl ⟨rfl, by rw [← h2']⟩⟩
        · exact ⟨h1, h3, .inr ⟨⟨x, rfl⟩, h2'⟩⟩
      | ok u => exact ⟨h1, h3, .inl ⟨rfl, by rw [← h2']⟩⟩
  · exact .inl ⟨by unfold World.make; rw [if_pos hp], hp⟩

theorem makeNew_cases (env : TEnv) (w : World) (name : Nat) (pre : Id) (d : Dig) (nb : Bool) (toad : Option Int) (baks : List Id) :
    (∃ x, w.makeNew env name pre d nb toad baks = (w, .error x)) ∨ ∃ e, buildVcp pre d nb toad baks = .ok e ∧ w.makeNew env name pre d nb toad baks = w.make env false name pre e := by
  unfold World.makeNew
  split
  · exact .inl ⟨_, rfl⟩
  · split
    · exact .inl ⟨_, rfl⟩
    · rename_i e he
      exact .inr ⟨e, he, rfl⟩

theorem rec_append {w w' : World} {x : Nat × Id × Id} (h : w'.recs = w.recs ++ [x]) {name : Nat} {y : Id × Id} (hr : w.rec? name = some y) : w'.rec? name = some y := by
  unfold World.rec? at hr ⊢
  rw [h, List.find?_append]
  cases hf : w.recs.find? (fun x => decide (x.1 = name)) with
  | none => rw [hf] at hr; cases hr
  | some z => rw [hf] at hr; exact hr

theorem rec_same {w w' : World} (h : w'.recs = w.recs) (name : Nat) : w'.rec? name = w.rec? name := by
  unfold World.rec?; rw [h]

theorem loaded_of_mem {recs : List (Nat × Id × Id)} {k : Id} (h : k ∈ recs.map (·.2.1)) : ∃ o, loaded recs k = some o := by
  unfold loaded
  have : ∀ (l : List (Nat × Id × Id)) (f : Id → Option Obj), ((∃ o, f k = some o) ∨ k ∈ l.map (·.2.1)) →
      ∃ o, l.foldl (fun f x => upd f x.2.1 (some ⟨x.1, x.2.2, false⟩)) f k = some o := by
    intro l
    induction l with
    | nil => intro f h; rcases h with h | h
             · exact h
             · simp at h
    | cons x xs ih =>
      intro f h
      rw [List.foldl_cons]
      refine ih _ ?_
      by_cases hx : k = x.2.1
      · exact .inl ⟨_, by simp only [upd]; rw [if_pos hx]⟩
      · rcases h with ⟨o, h⟩ | h
        · exact .inl ⟨o, by simp only [upd]; rw [if_neg hx]; exact h⟩
        · refine .inr ?_
          rw [List.map_cons, List.mem_cons] at h
          exact h.resolve_left hx
  exact this recs _ (.inr h)

theorem loaded_mem {recs : List (Nat × Id × Id)} {k : Id} {o : Obj} (h : loaded recs k = some o) : (o.name, k, o.pre) ∈ recs ∧ o.signify = false := by
  unfold loaded at h
  have : ∀ (l : List (Nat × Id × Id)) (f : Id → Option Obj), l.foldl (fun f x => upd f x.2.1 (some ⟨x.1, x.2.2, false⟩)) f k = some o →
      (f k = some o) ∨ ((o.name, k, o.pre) ∈ l ∧ o.signify = false) := by
    intro l
    induction l with
    | nil => intro f h; exact .inl h
    | cons x xs ih =>
      intro f h
      rw [List.foldl_cons] at h
      rcases ih _ h with h | ⟨h, h'⟩
      · simp only [upd] at h
        split at h
        · rename_i hk
          cases h
          exact .inr ⟨by subst hk; simp, rfl⟩
        · exact .inl h
      · exact .inr ⟨List.mem_cons_of_mem _ h, h'⟩
  rcases this recs _ h with h | h
  · cases h
  · exact h

/-- Records have prefixes of own identifiers. -/
def Owned (w : World) : Prop := ∀ x ∈ w.recs, x.2.2 ∈ w.habs

/-- Registry `k` is recorded under `name` and held. -/
structure Held (w : World) (name : Nat) (k : Id) : Prop where
  own : Owned w
  recorded : ∃ p, w.rec? name = some (k, p)
  held : ∃ o, w.regs k = some o

theorem rec_mem {w : World} {name : Nat} {k p : Id} (h : w.rec? name = some (k, p)) : (name, k, p) ∈ w.recs := by
  unfold World.rec? at h
  cases hf : w.recs.find? (fun x => decide (x.1 = name)) with
  | none => rw [hf] at h; cases h
  | some z =>
    rw [hf] at h
    have h1 := List.mem_of_find?_eq_some hf
    have h2 := List.find?_some hf
    obtain ⟨a, b, c⟩ := z
    simp at h h2
    obtain ⟨rfl, rfl⟩ := h
    subst h2
    exact h1

theorem owned_make (env : TEnv) {w : World} (h : Owned w) (s : Bool) (name : Nat) (pre : Id) (e : TEvt) : Owned (w.make env s name pre e).1 := by
  rcases make_cases env w s name pre e with ⟨h1, _⟩ | ⟨hp, h1, h2, _⟩
  · rw [h1]; exact h
  · intro x hx
    rw [h1] at hx
    rw [h2]
    rcases record_recs w name pre e.pre with ⟨_, h3⟩ | ⟨_, h3⟩
    · rw [h3] at hx
      rcases List.mem_append.1 hx with hx | hx
      · exact h x hx
      · rw [List.mem_singleton.1 hx]; exact hp
    · rw [h3] at hx; exact h x hx

theorem restart_ok {w : World} (h : Owned w) : w.restart w.habs =
    ({ w with t := { w.t with reg := { w.t.reg with tevers := fun _ => none, registries := w.recs.map (·.2.1) } }, regs := loaded w.recs }, .ok ()) := by
  unfold World.restart
  rw [if_pos (List.all_eq_true.2 fun x hx => by simpa using h x hx)]

theorem owned_step (env : TEnv) {w : World} (h : Owned w) (i : Inp) : Owned (w.step env i) := by
  have keep : ∀ w' : World, w'.recs = w.recs → w'.habs = w.habs → Owned w' := fun w' h1 h2 x hx => by rw [h2]; rw [h1] at hx; exact h x hx
  cases i with
  | make s name pre e => exact owned_make env h s name pre e
  | makeNew name pre d nb toad baks =>
    show Owned (w.makeNew env name pre d nb toad baks).1
    rcases makeNew_cases env w name pre d nb toad baks with ⟨x, hx⟩ | ⟨e, _, he⟩
    · rw [hx]; exact h
    · rw [he]; exact owned_make env h _ _ _ _
  | ask s k d a => exact keep _ (ask_frame env w s k d a).1 (ask_frame env w s k d a).2.2
  | rotate k e =>
    show Owned (w.signifyRotate env k e).1
    rcases rotate_frame env w k e with h1 | h1 <;> (rw [h1]; exact h)
  | anchor p d c => exact keep _ (anchor_frame w p d c).1 (anchor_frame w p d c).2.2
  | restart => show Owned (w.restart w.habs).1; rw [restart_ok h]; exact h
  | node i => exact keep _ rfl rfl

theorem owned_run (env : TEnv) : ∀ (h : List Inp) (w : World), Owned w → Owned (w.run env h) := by
  intro h
  induction h with
  | nil => intro w hw; exact hw
  | cons i is ih => intro w hw; exact ih _ (owned_step env hw i)

theorem held_make (env : TEnv) {w : World} {n0 : Nat} {k0 : Id} (h : Held w n0 k0) (s : Bool) (name : Nat) (pre : Id) (e : TEvt) : Held (w.make env s name pre e).1 n0 k0 := by
  obtain ⟨p, hp⟩ := h.recorded
  obtain ⟨o, ho⟩ := h.held
  refine ⟨owned_make env h.own s name pre e, ?_, ?_⟩
  · rcases make_cases env w s name pre e with ⟨h1, _⟩ | ⟨_, h1, _, _⟩
    · rw [h1]; exact h.recorded
    · refine ⟨p, ?_⟩
      rcases record_recs w name pre e.pre with ⟨_, h3⟩ | ⟨_, h3⟩
      · exact rec_append (h1.trans h3) hp
      · rw [rec_same (h1.trans h3)]; exact hp
  · rcases make_cases env w s name pre e with ⟨h1, _⟩ | ⟨_, _, _, ⟨_, h1⟩ | ⟨_, h1⟩⟩
    · rw [h1]; exact h.held
    · rw [h1]
      by_cases hk : k0 = e.pre
      · exact ⟨_, by simp only [upd]; rw [if_pos hk]⟩
      · exact ⟨o, by simp only [upd]; rw [if_neg hk]; exact ho⟩
    · rw [h1]; exact h.held

theorem held_step (env : TEnv) {w : World} {n0 : Nat} {k0 : Id} (h : Held w n0 k0) (i : Inp) : Held (w.step env i) n0 k0 := by
  have keep : ∀ w' : World, w'.recs = w.recs ∧ w'.regs = w.regs ∧ w'.habs = w.habs → Held w' n0 k0 := fun w' ⟨h1, h2, h3⟩ =>
    ⟨fun x hx => by rw [h3]; rw [h1] at hx; exact h.own x hx, by rw [rec_same h1]; exact h.recorded, by rw [h2]; exact h.held⟩
  cases i with
  | make s name pre e => exact held_make env h s name pre e
  | makeNew name pre d nb toad baks =>
    show Held (w.makeNew env name pre d nb toad baks).1 n0 k0
    rcases makeNew_cases env w name pre d nb toad baks with ⟨x, hx⟩ | ⟨e, _, he⟩
    · rw [hx]; exact h
    · rw [he]; exact held_make env h _ _ _ _
  | ask s k d a => exact keep _ (ask_frame env w s k d a)
  | rotate k e =>
    show Held (w.signifyRotate env k e).1 n0 k0
    rcases rotate_frame env w k e with h1 | h1 <;> (rw [h1]; exact h)
  | anchor p d c => exact keep _ (anchor_frame w p d c)
  | restart =>
    show Held (w.restart w.habs).1 n0 k0
    rw [restart_ok h.own]
    obtain ⟨p, hp⟩ := h.recorded
    exact ⟨h.own, ⟨p, hp⟩, loaded_of_mem (List.mem_map.2 ⟨_, rec_mem hp, rfl⟩)⟩
  | node i => exact keep _ ⟨rfl, rfl, rfl⟩

theorem held_run (env : TEnv) {n0 : Nat} {k0 : Id} : ∀ (h : List Inp) (w : World), Held w n0 k0 → Held (w.run env h) n0 k0 := by
  intro h
  induction h with
  | nil => intro w hw; exact hw
  | cons i is ih => intro w hw; exact ih _ (held_step env hw i)

theorem Held.found {w : World} {name : Nat} {k : Id} (h : Held w name k) : ∃ o, w.byName name = some (k, o) := by
  obtain ⟨p, hp⟩ := h.recorded
  obtain ⟨o, ho⟩ := h.held
  exact ⟨o, by unfold World.byName; rw [hp]; dsimp only; rw [ho]⟩

/-- **C224, partly.** A registry made under a name not used before is found by that name from then on: whatever is made, issued, rotated, sealed or delivered, and through
restarts. Missing: a registry made under a name used before (`c224_name_taken`), and restarts without the identifier (`c224_identifier_gone`). -/
theorem c224_found_partial (env : TEnv) (t : TNode) (habs : List Id) (h : List Inp) (signify : Bool) (name : Nat) (pre : Id) (e : TEvt)
    (hnew : ((World.start t habs).run env h).rec? name = none)
    (hok : (((World.start t habs).run env h).make env signify name pre e).2 = .ok ()) (more : List Inp) :
    ∃ o, ((((World.start t habs).run env h).make env signify name pre e).1.run env more).byName name = some (e.pre, o) := by
  have hown : Owned ((World.start t habs).run env h) := owned_run env h _ (by intro x hx; cases hx)
  generalize (World.start t habs).run env h = w at *
  refine (held_run env more _ ⟨owned_make env hown signify name pre e, ?_, ?_⟩).found
  · rcases make_cases env w signify name pre e with ⟨h1, _⟩ | ⟨_, h1, _, _⟩
    · rw [h1] at hok; cases hok
    · refine ⟨pre, ?_⟩
      rcases record_recs w name pre e.pre with ⟨_, h3⟩ | ⟨⟨x, hx⟩, _⟩
      · unfold World.rec? at hnew ⊢
        have h0 : w.recs.find? (fun x => decide (x.1 = name)) = none := by
          cases hf : w.recs.find? (fun x => decide (x.1 = name)) with
          | none => rfl
          | some z => rw [hf] at hnew; cases hnew
        rw [h1, h3, List.find?_append, h0]
        simp
      · rw [hnew] at hx; cases hx
  · rcases make_cases env w signify name pre e with ⟨h1, _⟩ | ⟨_, _, _, ⟨_, h1⟩ | ⟨⟨x, h1⟩, _⟩⟩
    · rw [h1] at hok; cases hok
    · rw [h1]; exact ⟨⟨name, pre, signify⟩, by simp [upd]⟩
    · rw [h1] at hok; cases hok

/-- **C224.** A call under a name that has a registry leaves that name with the registry it had; the new registry is not there after a restart, when no other name has it. -/
theorem c224_name_taken (env : TEnv) (t : TNode) (habs : List Id) (h : List Inp) (signify : Bool) (name : Nat) (pre : Id) (e : TEvt) {k p : Id}
    (hold : ((World.start t habs).run env h).rec? name = some (k, p)) (hk : e.pre ≠ k) (hno : ∀ x ∈ ((World.start t habs).run env h).recs, x.2.1 ≠ e.pre) :
    let w' := (((World.start t habs).run env h).make env signify name pre e).1
    w'.rec? name = some (k, p) ∧ (w'.step env .restart).regs e.pre = none ∧ ∀ n, ¬∃ o, (w'.step env .restart).byName n = some (e.pre, o) := by
  dsimp only
  have hown : Owned ((World.start t habs).run env h) := owned_run env h _ (by intro x hx; cases hx)
  generalize (World.start t habs).run env h = w at *
  have hrec : (w.make env signify name pre e).1.recs = w.recs := by
    rcases make_cases env w signify name pre e with ⟨h1, _⟩ | ⟨_, h1, _, _⟩
    · rw [h1]
    · rcases record_recs w name pre e.pre with ⟨h3, _⟩ | ⟨_, h3⟩
      · rw [hold] at h3; cases h3
      · exact h1.trans h3
  have hown' := owned_make env hown signify name pre e
  have hgone : ((w.make env signify name pre e).1.step env .restart).regs e.pre = none := by
    show ((w.make env signify name pre e).1.restart _).1.regs e.pre = none
    rw [restart_ok hown']
    show loaded (w.make env signify name pre e).1.recs e.pre = none
    rw [hrec]
    cases hl : loaded w.recs e.pre with
    | none => rfl
    | some o => exact absurd rfl (hno _ (loaded_mem hl).1)
  refine ⟨by rw [rec_same hrec]; exact hold, hgone, ?_⟩
  intro n ⟨o, ho⟩
  unfold World.byName at ho
  split at ho
  · cases ho
  · split at ho
    · cases ho
    · rename_i ho'
      cases ho
      rw [hgone] at ho'
      cases ho'

theorem rec_run (env : TEnv) (name : Nat) : ∀ (h : List Inp) (w : World), (∀ i ∈ h, i.name? ≠ some name) → w.rec? name = none → (w.run env h).rec? name = none := by
  intro h
  induction h with
  | nil => intro w _ hw; exact hw
  | cons i is ih =>
    intro w hh hw
    refine ih _ (fun j hj => hh j (List.mem_cons_of_mem _ hj)) ?_
    have hi := hh i (List.mem_cons_self ..)
    have mk : ∀ s n pre e, n ≠ name → (w.make env s n pre e).1.rec? name = none := by
      intro s n pre e hn
      rcases make_cases env w s n pre e with ⟨h1, _⟩ | ⟨_, h1, _, _⟩
      · rw [h1]; exact hw
      · rcases record_recs w n pre e.pre with ⟨_, h3⟩ | ⟨_, h3⟩
        · unfold World.rec? at hw ⊢
          have h0 : w.recs.find? (fun x => decide (x.1 = name)) = none := by
            cases hf : w.recs.find? (fun x => decide (x.1 = name)) with
            | none => rfl
            | some z => rw [hf] at hw; cases hw
          rw [h1, h3, List.find?_append, h0]
          simp [hn]
        · rw [rec_same (h1.trans h3)]; exact hw
    cases i with
    | make s n pre e => exact mk s n pre e (by intro h; exact hi (by rw [h]; rfl))
    | makeNew n pre d nb toad baks =>
      show (w.makeNew env n pre d nb toad baks).1.rec? name = none
      rcases makeNew_cases env w n pre d nb toad baks with ⟨x, hx⟩ | ⟨e, _, he⟩
      · rw [hx]; exact hw
      · rw [he]; exact mk _ _ _ _ (by intro h; exact hi (by rw [h]; rfl))
    | ask s k d a => exact (rec_same (ask_frame env w s k d a).1 name).trans hw
    | rotate k e =>
      show (w.signifyRotate env k e).1.rec? name = none
      rcases rotate_frame env w k e with h1 | h1 <;> (rw [h1]; exact hw)
    | anchor p d c => exact (rec_same (anchor_frame w p d c).1 name).trans hw
    | restart =>
      show (w.restart w.habs).1.rec? name = none
      unfold World.restart
      split <;> exact hw
    | node i => exact hw

/-- **C224.** Under a name that no call has used nothing is found. -/
theorem c224_unknown (env : TEnv) (t : TNode) (habs : List Id) (h : List Inp) (name : Nat) (hh : ∀ i ∈ h, i.name? ≠ some name) :
    ((World.start t habs).run env h).byName name = none := by
  unfold World.byName
  rw [rec_run env name h _ hh rfl]

/-- **C224.** Without the identifier of any one record, no Regery can be set up: it raises, and no registry is there. -/
theorem c224_identifier_gone (w : World) (habs : List Id) {name : Nat} {k p : Id} (h : (name, k, p) ∈ w.recs) (hp : p ∉ habs) :
    (w.restart habs).2 = .error .key ∧ ∀ n, (w.restart habs).1.byName n = none := by
  have hn : w.recs.all (fun x => decide (x.2.2 ∈ habs)) = false := by
    rw [List.all_eq_false]
    exact ⟨_, h, by simp [hp]⟩
  unfold World.restart
  rw [hn]
  refine ⟨rfl, fun n => ?_⟩
  unfold World.byName
  split
  · rfl
  · rfl

end Verif.Reg
