import Verif.Bsr.Model

/-!
# Vocabulary of the properties of registries of blindable state
-/

namespace Verif.Bsr

open Verif.Kel (Id Dig Node Seal)

/-- Histories from `w0` to `w` each of whose steps satisfies `G`. -/
inductive Hist (env : Kel.Env) (G : World → Inp → Prop) (w0 : World) : World → Prop
  | nil : Hist env G w0 w0
  | step {w} (i : Inp) (h : Hist env G w0 w) (g : G w i) : Hist env G w0 (w.step env i)

/-- On the way from `w0` to `w` there was a moment with `Q`. -/
def Was (env : Kel.Env) (G : World → Inp → Prop) (w0 w : World) (Q : World → Prop) : Prop := ∃ w1, Hist env G w0 w1 ∧ Hist env G w1 w ∧ Q w1

/-- The call of a step, cut off or not. -/
def Inp.calls : Inp → Option Call
  | .call c => some c
  | .crash c _ => some c
  | _ => none

/-- The registry event that a call, made in state `w`, hands to `processEvent`: the one given, or the one it makes. -/
inductive Hands (w : World) : Call → REvt → Prop
  | event (h : Nat) (e : REvt) : Hands w (.event h e) e
  | make (h : Nat) (said : Dig) (o : Obj) (ho : w.objs[h]? = some o) : Hands w (.make h said) ⟨.rip, said, o.hab, 0, 0, 0⟩
  | registry (name : Name) (pre : Id) (said : Dig) : Hands w (.makeRegistry name pre said) ⟨.rip, said, pre, 0, 0, 0⟩
  | blind (h : Nat) (a : Acdc) (said : Dig) (o : Obj) (k d : Dig) (hd : REvt) (ho : w.objs[h]? = some o) (hk : o.regk = some k)
      (hh : w.s.heads k = some d) (he : w.s.evts d = some hd) : Hands w (.blind h a said) ⟨.bup, said, 0, k, hd.n + 1, hd.said⟩

/-- All registry events handed over lie in `V`. -/
def Within (V : REvt → Prop) (w : World) (i : Inp) : Prop := ∀ c e, i.calls = some c → Hands w c e → V e

/-- No two events of `V` share a digest. -/
def NoColl (V : REvt → Prop) : Prop := ∀ x y, V x → V y → x.said = y.said → x = y

/-- The step is no crash. -/
def Whole (i : Inp) : Prop := ∀ c m, i ≠ .crash c m

/-- `w` is the state after some history, of any node and with any habitats. -/
def Reached (env : Kel.Env) (V : REvt → Prop) (w : World) : Prop := ∃ nd habs, Hist env (Within V) (World.start nd habs) w

/-- As `Reached`, without crashes. -/
def Calm (env : Kel.Env) (V : REvt → Prop) (w : World) : Prop :=
  ∃ nd habs, Hist env (fun w i => Within V w i ∧ Whole i) (World.start nd habs) w

/-- `e` is the accepted event number `n` of registry `k`. -/
def Accepted (s : Store) (k : Dig) (n : Nat) (e : REvt) : Prop := s.tels k n = some e.said ∧ s.evts e.said = some e

/-- The log of `hab` has an event with the seal: the last one at its number, and fully witnessed. -/
def Sealed (nd : Node) (hab : Id) (x : Seal) : Prop :=
  ∃ sn d a, (nd.db.kels hab sn).getLast? = some d ∧ nd.db.evts hab d = some a ∧ x ∈ a.seals ∧ nd.fullyWitnessed a = true

/-- The event waits in one of the escrows. -/
def Waits (s : Store) (e : REvt) : Prop := (e.n, e.said) ∈ s.maes e.regk ∨ (e.n, e.said) ∈ s.ooes e.regk

/-- The recorded head of `k` is its last accepted event, if there is any. -/
def UpToDate (s : Store) (k : Dig) : Prop :=
  (s.heads k = none → ∀ n, s.tels k n = none) ∧ ∀ d, s.heads k = some d → ∃ n, s.tels k n = some d ∧ ∀ m, n < m → s.tels k m = none

/-- No two events of `V` compete for a number of a registry. -/
def Single (V : REvt → Prop) : Prop :=
  ∀ x y, V x → V y → (if x.ilk = .rip then x.said else x.rd) = (if y.ilk = .rip then y.said else y.rd) → x.n = y.n → x = y

/-- Objects are attached to registries of their own habitat, and unbound ones are given an inception first. -/
def Rightly (V : REvt → Prop) (w : World) (i : Inp) : Prop :=
  (∀ hab k, i.calls = some (.attach hab (some k)) → ∀ e, V e → e.ilk = .rip → e.said = k → e.iss = hab) ∧
  (∀ h e o, i.calls = some (.event h e) → w.objs[h]? = some o → o.regk = none → e.ilk = .rip) ∧
  (∀ h d num dig o e, i.calls = some (.anchor h d num dig) → w.objs[h]? = some o → o.regk = none → w.s.evts d = some e → e.ilk = .rip)

/-- Every recorded alias is in the map of the `Regery`. -/
def Loaded (w : World) : Prop := ∀ x ∈ w.s.records, ∃ h, look w.names x.1 = some h

/-- `makeRegistry` is called on a `Regery` that has loaded the recorded aliases. -/
def Opened (w : World) (i : Inp) : Prop := ∀ name pre said, i.calls = some (.makeRegistry name pre said) → Loaded w

/-- The alias stands for registry `k`. -/
def Names (w : World) (name : Name) (k : Dig) : Prop := ∃ h o, look w.names name = some h ∧ w.objs[h]? = some o ∧ o.regk = some k

end Verif.Bsr
