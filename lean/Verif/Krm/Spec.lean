import Verif.Krm.Model

/-!
# Histories of `Kramer`

The vocabulary of the statements about replay protection: what happens to a `Kramer` over time, and which messages it hands on.
-/

namespace Verif.Krm

open Verif.Kel (Id Dig Sig)

/-- What happens: a message arrives (with what is known of key events then), a round of pruning, a change of configuration, a restart. -/
inductive Step where
  | deliver (env : Env) (now : Int) (m : Msg) (kwa : Kwa)
  | prune (now : Int)
  | change (now : Int) (cf : Tab Ctype Rec) (override : Option Int)
  | restart (now : Int) (enabled : Bool) (denials : List (List Char)) (cf : Tab Ctype Rec)

def Step.now : Step → Int
  | .deliver _ t _ _ => t
  | .prune t => t
  | .change t _ _ => t
  | .restart t _ _ _ => t

def step (k : Krm) : Step → Krm
  | .deliver env now m kwa => (deliver env now k m kwa).1
  | .prune now => prune now k
  | .change now cf o => (changeConfig now k cf o).1
  | .restart _ enabled denials cf => match open_ k enabled denials cf with
    | .ok k => k
    | .error _ => k

def run (k : Krm) (l : List Step) : Krm := l.foldl step k

/-- A message is handed on. -/
def handed (k : Krm) : Step → Option Msg
  | .deliver env now m kwa => match (deliver env now k m kwa).2 with
    | .ok (some _) => some m
    | _ => none
  | _ => none

/-- How often the message with this sender and digest is handed on. -/
def passes (s : Id) (d : Dig) : Krm → List Step → Nat
  | _, [] => 0
  | k, a :: l => (match handed k a with
      | some m => if m.sender = s ∧ m.said = d then 1 else 0
      | none => 0) + passes s d (step k a) l

/-- The clock does not go back. -/
def Clock : Int → List Step → Prop
  | _, [] => True
  | t, a :: l => t ≤ a.now ∧ Clock a.now l

/-- The deliveries of a history. -/
def delivered : List Step → List (Env × Int × Msg × Kwa)
  | [] => []
  | .deliver env now m kwa :: l => (env, now, m, kwa) :: delivered l
  | _ :: l => delivered l

/-- The digest of a message binds it: nothing else arrives with the same sender and digest. -/
def Binds (m : Msg) (l : List Step) : Prop := ∀ x ∈ delivered l, x.2.2.1.sender = m.sender → x.2.2.1.said = m.said → x.2.2.1 = m

/-- Something holds before every step and at the end. -/
def Along (P : Krm → Prop) : Krm → List Step → Prop
  | k, [] => P k
  | k, a :: l => P k ∧ Along P (step k a) l

/-- Messages of this kind are checked. -/
def Guards (m : Msg) (k : Krm) : Prop := k.enabled = true ∧ k.denials.any (fun d => d.isPrefixOf (denial m)) = false

/-- The settings that apply to the message each time it is delivered, in order. -/
def inForce (m : Msg) : Krm → List Step → List Rec
  | _, [] => []
  | k, a :: l => (match a with
      | .deliver _ now m' _ => if m'.sender = m.sender ∧ m'.said = m.said then
          match fetch (reconcile now k).1.ctyp m with
          | .ok r => [r]
          | .error _ => []
        else []
      | _ => []) ++ inForce m (step k a) l

/-- Nothing in the caches. -/
def Fresh (k : Krm) : Prop := k.msgc = [] ∧ k.tmsc = [] ∧ k.pmkm = [] ∧ k.pmks = [] ∧ k.pmsk = []

/-- No signatures are waiting for others. -/
def NotWaiting (m : Msg) (k : Krm) : Prop := k.pmkm.get (m.sender, m.said) = none

/-- The settings are these, and no change is waiting. -/
def Settings (ct : Tab Ctype Rec) (k : Krm) : Prop := k.ctyp = ct ∧ k.pending = []

/-- Seals of the sender are attached to the message. -/
def HasSeal (m : Msg) (kwa : Kwa) : Prop := kwa.sscs ≠ [] ∨ ∃ t ∈ kwa.ssts, t.1 = m.sender

/-- The message never comes with seals of the sender. -/
def NoSeals (m : Msg) (l : List Step) : Prop := ∀ x ∈ delivered l, x.2.2.1 = m → ¬ HasSeal m x.2.2.2

/-- Whenever the message arrives its sender has one key. -/
def SingleKey (m : Msg) (l : List Step) : Prop := ∀ x ∈ delivered l, x.2.2.1 = m → ∀ ks, x.1.kevers m.sender = some ks → ks.keys.length = 1

end Verif.Krm
