import Verif.Grp.MuxModel

/-!
# Vocabulary of the properties of coordination by messages
-/

namespace Verif.Mux

open Verif.Kel (Id Dig)

/-- What is there after the inputs. -/
def run (env : Env) (w : World) (is : List Inp) : World := is.foldl (World.step env) w

/-- The input brings the message with the nested messages. -/
def Inp.brings : Inp → Body → List Child → Prop
  | .deliver b n, b', n' => b = b' ∧ n = n'
  | .submit b, b', n' => b = b' ∧ n' = []
  | .crashDeliver b n _, b', n' => b = b' ∧ n = n'
  | .crashSubmit b _, b', n' => b = b' ∧ n' = []

/-- The message came. -/
def Came (is : List Inp) (b : Body) (nests : List Child) : Prop := ∃ i ∈ is, i.brings b nests

/-- The SAID under which a message proposes. -/
def Body.proposal (b : Body) : Option Dig := if b.v2 then b.signed else b.embed

/-- SAIDs of messages do not collide. -/
def Distinct (is : List Inp) : Prop := ∀ b n b' n', Came is b n → Came is b' n' → b.said = b'.said → b = b'

/-- An own identifier sent a message that proposes `d`. -/
def Approved (env : Env) (is : List Inp) (d : Dig) : Prop := ∃ b n, Came is b n ∧ env.own b.sender = true ∧ b.proposal = some d

/-- What is kept for a message: the nested messages if there were any, else what its block wraps. -/
def stored (w : World) (x : Dig) : List Child :=
  match w.enst x with
  | c :: cs => c :: cs
  | [] => match w.exns x with
    | none => []
    | some b => b.kids

/-- The message is about a group with an own member, or invites one. -/
def Invited (env : Env) (b : Body) : Prop := ∃ p, env.own p = true ∧ (b.gid = some p ∨ (∃ l, b.smids = some l ∧ p ∈ l) ∨ ∃ l, b.rmids = some l ∧ p ∈ l)

/-- No stop, and no exception: the inputs are worked off to the end. -/
def Smooth (env : Env) (w : World) : List Inp → Prop
  | [] => True
  | i :: is => (match i with
      | .deliver b n => (deliver env w b n).2 = true
      | .submit b => (submit env w b).2 = true ∧ env.own b.sender = true
      | _ => False) ∧ Smooth env (w.step env i) is

end Verif.Mux
