import Verif.Hab.Model
import Verif.Mgr.Spec
import Verif.Kel.Spec

/-!
# Vocabulary of the properties of habitats
-/

namespace Verif.Hab

open Verif.Thold (Thold Sith)
open Verif.Kel (Id Dig Event Kever)

/-- The event a call builds, if it gets so far. -/
def eventOf (env : Env) (w : World) : Call → Option Event
  | .make a => match (makeKeys env w a).2 with
    | .error _ => none
    | .ok keys => (icpEvent env keys a).toOption
  | .rotate p a => match w.node.kevers p with
    | none => none
    | some k => match (advance env w p (a.ncount.getD k.ndigs.length) a).2 with
      | .error _ => none
      | .ok keys => (rotEvent env k keys a).toOption
  | .interact p seals anchors => match w.node.kevers p with
    | none => none
    | some k => (buildIxn env k.pre k.serder.said (k.sn + 1) seals anchors).toOption

/-- The keys a call makes and stores. -/
def madeBy (env : Env) (w : World) : Call → List Nat
  | .make a => Mgr.storedKeys (makeKeys env w a).1
  | .rotate p a => match w.node.kevers p with
    | none => []
    | some k => Mgr.storedKeys (advance env w p (a.ncount.getD k.ndigs.length) a).1
  | .interact _ _ _ => []

/-- Signatures verify with the key they were made with; a key opens its digest. -/
structure Laws (env : Env) : Prop where
  verify : ∀ k e, env.kel.verify k (env.sig k e) e = true
  opens : ∀ k, env.kel.commits k (env.mgr.dig k) = true

/-- The identifier a call is about. -/
def Call.on : Call → Option Id
  | .make _ => none
  | .rotate p _ => some p
  | .interact p _ _ => some p

/-- The condition on calls: they are about an identifier of the host; the event is among those considered (`U`, no two of which have the same digest); a weighted signing threshold has a weight for
each key; the prefix of a new identifier is not that of a known one or of a group; with encryption, the keys made can be encrypted. -/
structure Fit (env : Env) (U : Event → Prop) (w : World) (c : Call) : Prop where
  own : ∀ p, c.on = some p → p ∈ w.node.prefixes
  known : ∀ e, eventOf env w c = some e → U e
  weights : ∀ e cs, eventOf env w c = some e → e.kt = .wtd cs → Thold.size e.kt = e.keys.length
  fresh : ∀ a e, c = .make a → eventOf env w c = some e → w.node.kevers e.pre = none ∧ e.pre ∉ w.node.groups
  sealed : (exec env w c).2 ≠ .error (.mgr .code)

/-- `Hist env U w0 M w`: from `w0` a history leads to `w`, the keys `M` were made in it. Between the calls other messages may come in and escrows may be
processed, as long as the key states of the own identifiers stay as they are; the process may be restarted between calls. -/
inductive Hist (env : Env) (U : Event → Prop) (w0 : World) : List Nat → World → Prop
  | nil : Hist env U w0 [] w0
  | call {M w} (c : Call) (h : Hist env U w0 M w) (fit : Fit env U w c) : Hist env U w0 (M ++ madeBy env w c) (exec env w c).1
  | other {M w} (is : List Kel.Inp) (h : Hist env U w0 M w) (known : Kel.Delivers U is) (prefixes : (w.node.run env.kel is).prefixes = w.node.prefixes)
      (groups : (w.node.run env.kel is).groups = w.node.groups)
      (own : ∀ p ∈ w.node.prefixes, (w.node.run env.kel is).kevers p = w.node.kevers p) : Hist env U w0 M { w with node := w.node.run env.kel is }
  | restart {M w} (h : Hist env U w0 M w) : Hist env U w0 M { w with node := w.node.restart }

/-- A new host: no identifiers, nothing in the database, the key store was just set up. -/
def Start (env : Env) (w : World) : Prop :=
  (∃ groups mid, w.node = Kel.Node.start [] groups mid) ∧
  ∃ seed aeid pidx algo salt tier, (aeid = none → seed = none) ∧
    Mgr.Node.step env.mgr .start (.call (.openM seed aeid pidx algo salt tier)) = (⟨w.ks, some w.mem⟩, some .done)

/-- Key store and log agree on `p`, whose key state is `k`: the current keys are those of the key state, the digests of the next keys are those committed to,
and the private keys of all of them are stored. -/
structure InSync (env : Env) (w : World) (p : Id) (k : Kever) : Prop where
  keys : ∃ s, w.ks.sits p = some s ∧ s.new.pubs = k.keys ∧ k.ndigs = s.nxt.pubs.map env.mgr.dig ∧ ∀ x ∈ s.nxt.pubs, w.ks.pris.at' x ≠ none
  current : ∀ x ∈ k.keys, w.ks.pris.at' x ≠ none

end Verif.Hab
