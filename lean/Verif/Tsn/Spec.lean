import Verif.Tsn.Model
/-!
# What is said of notices of the state of registries and credentials
-/

namespace Verif.Tsn

variable {Att : Type}

/-- The notice came in the history. -/
def Recv (h : List (Inp Att)) (n : Notice) : Prop := ∃ v l, Inp.notice v n l ∈ h

/-- The signature or receipt came with a notice in the history. -/
def RecvA (h : List (Inp Att)) (a : Att) : Prop := ∃ v n l, Inp.notice v n l ∈ h ∧ a ∈ l

/-- What the node knew at some step of the history. -/
def Known (h : List (Inp Att)) (v : View Att) : Prop := (∃ n l, Inp.notice v n l ∈ h) ∨ Inp.pass v ∈ h

/-- Digests tell notices apart, and those of events are none of notices. -/
structure Apart (h : List (Inp Att)) : Prop where
  same : ∀ n n', Recv h n → Recv h n' → n.said = n'.said → n = n'
  event : ∀ n n', Recv h n → Recv h n' → n.d ≠ n'.said

/-- The source is one that the node listens to about a registry of controller `pre` that has no backers of its own (`nb`) or `baks`. -/
def Heard (v : View Att) (aid pre : Id) (nb : Bool) (baks : List Id) : Prop :=
  v.lax = true ∨ aid = pre ∨ aid ∈ v.wats ∨ if nb then ∃ w, v.wits pre = some w ∧ aid ∈ w else aid ∈ baks

/-- The source is listened to: of a registry's notice about the registry as the notice has it, of a credential's about the registry that the notice names, as the node has it. -/
def Trusted (v : View Att) (n : Notice) : Prop :=
  if n.cred then ∃ t, v.tev n.regk = some t ∧ Heard v n.aid t.pre t.nb t.baks else Heard v n.aid n.pre n.nb n.baks

/-- The key state that a notice needs is there, and the registry's state. -/
def Based (v : View Att) (n : Notice) : Prop :=
  if n.cred then ∃ t, v.tev n.regk = some t ∧ n.regsn ≤ t.sn ∧ v.wits t.pre ≠ none
  else v.wits n.pre ≠ none ∧ ∀ t, v.tev n.key = some t → t.sn ≤ n.sn

/-- What an entry of an escrow waits for is not there. -/
def Lacks (v : View Att) (n : Notice) : Typ → Prop
  | .rmae => v.wits n.pre = none
  | .cmre => v.tev n.regk = none ∨ ∃ t, v.tev n.regk = some t ∧ t.sn < n.regsn
  | .cmae => ∃ t, v.tev n.regk = some t ∧ v.wits t.pre = none
  | .rooo | .cooo => v.tels n.key n.sn = none

/-- The entry is for the notice. -/
structure Entry.Of (e : Entry) (n : Notice) : Prop where
  said : n.said = e.said
  key : n.key = e.key
  aid : n.aid = e.aid
  cred : n.cred = e.typ.cred

end Verif.Tsn
