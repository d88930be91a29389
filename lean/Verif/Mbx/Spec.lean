import Verif.Mbx.Model

/-! # What a mailbox should hold, told from the history alone -/

namespace Verif.Mbx
open Verif.Db

/-- Messages that arrived for a mailbox key, in order, each with whether storing it came to its end. -/
def arrived (k : Bytes) : List Step → List (Bytes × Bool)
  | [] => []
  | .store k' m :: h => if k' = k then (m, true) :: arrived k h else arrived k h
  | .cut k' m :: h => if k' = k then (m, false) :: arrived k h else arrived k h
  | _ :: h => arrived k h

/-- The `n`th arrival for a key was this message, stored without interruption. -/
def Stored (h : List Step) (k : Bytes) (n : Nat) (m : Bytes) : Prop := (arrived k h)[n]? = some (m, true)

/-- The message was stored without interruption for some key. -/
def kept (m : Bytes) (h : List Step) : Bool := h.any (fun s => match s with
  | .store _ m' => decide (m' = m)
  | _ => false)

/-- Keys that messages arrived for. -/
def keysOf (h : List Step) : List Bytes := h.filterMap (fun s => match s with
  | .store k _ => some k
  | .cut k _ => some k
  | _ => none)

/-- Messages with different digests differ, and no digest is empty. -/
structure Digests (env : Env) : Prop where
  inj : ∀ a b, env.dig a = env.dig b → a = b
  ne : ∀ a, env.dig a ≠ []

/-- Mailbox keys none of which is empty or another one followed by a dot. -/
structure Apart (K : Bytes → Prop) : Prop where
  dots : ∀ k k', K k → K k' → ¬ (k ++ [dot]) <+: k'
  ne : ∀ k, K k → k ≠ []

/-- An event for a topic with a number is among these. -/
def Seen (l : List Event) (t : Bytes) (n : Nat) : Prop := ∃ e ∈ l, e.name = t ∧ e.id = n

/-- What the mailbox returns for a key from a number on: arrivals whose message is kept. -/
def letters (h : List Step) (k : Bytes) (fn : Nat) : List (Nat × Bytes) :=
  ((arrived k h).zipIdx.filter (fun p => decide (fn ≤ p.2) && kept p.1.1 h)).map (fun p => (p.2, p.1.1))

end Verif.Mbx
