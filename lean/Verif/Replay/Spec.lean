import Verif.Replay.Model
import Verif.Kel.PropsLive
import Verif.Thold.Props

/-! # Vocabulary of the statements about replay -/

namespace Verif.Replay

open Verif.Kel
open Verif.Thold (Thold)

/-- Two nodes agree on an identifier: key state in memory and stored, log by sequence number, first-seen log with ordinals, and
bodies of the logged events. -/
structure Agree (m n : Node) (p : Id) : Prop where
  kever : m.kevers p = n.kevers p
  state : m.db.states p = n.db.states p
  kels : ∀ s, m.db.kels p s = n.db.kels p s
  fels : m.db.fels p = n.db.fels p
  fons : ∀ d, d ∈ n.db.fels p → m.db.fons p d = n.db.fons p d
  evts : ∀ d, d ∈ n.db.fels p → m.db.evts p d = n.db.evts p d

/-- The node holds nothing about the identifier: no key state and no event, accepted or not. -/
def Unknown (m : Node) (p : Id) : Prop := m.kevers p = none ∧ ∀ d, m.db.evts p d = none

/-- The identifier is not one of the receiving node's own, and no witness named in the log is. -/
structure Outsider (m n : Node) (p : Id) : Prop where
  own : p ∉ m.prefixes
  group : p ∉ m.groups
  wits : ∀ d w, w ∈ n.db.wits p d → w ∉ m.prefixes

/-- Every accepted event has as many verified witness signatures stored as its establishment event asks for. -/
def Backed (env : Env) (n : Node) (p : Id) : Prop :=
  ∀ x a, Accepted n.db p x → Authority n.db p x a →
    ∀ vs, Good env (n.db.wits p a.said) x (n.db.wigs p x.said) vs → a.toad ≤ vs.length

/-- A threshold over a list of `len` keys has a weight, not negative, for each. Numeric thresholds do. -/
def Covers (t : Thold) (len : Nat) : Prop := ∀ cs, t = .wtd cs → Verif.Thold.NonNeg cs ∧ len ≤ Thold.size t

/-- The thresholds of all accepted establishment events cover their lists. -/
def AllCover (n : Node) (p : Id) : Prop :=
  ∀ x, Accepted n.db p x → x.ilk.est = true → Covers x.kt x.keys.length ∧ Covers x.nt x.ndigs.length

/-- The identifier is not a delegated one. -/
def NotDelegated (n : Node) (p : Id) : Prop := ∀ k, n.kevers p = some k → k.delpre = none

end Verif.Replay
