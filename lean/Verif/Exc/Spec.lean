import Verif.Exc.Model

/-! # Histories of peer to peer messages, and what it means that a message is from its sender -/

namespace Verif.Exc

open Verif.Thold (Thold)
open Verif.Kel (Id Dig Sig)
open Verif.Krm (Tab)

/-- A message arrives, or the messages that wait are looked at again; `env` is what is known of key events then. -/
inductive Step where
  | deliver (env : Env) (now : Int) (m : Msg) (a : Att)
  | pass (env : Env) (now : Int)

def Step.env : Step → Env
  | .deliver env _ _ _ => env
  | .pass env _ => env

def Step.now : Step → Int
  | .deliver _ now _ _ => now
  | .pass _ now => now

def step (routes : Routes) (e : Exc) : Step → Exc
  | .deliver env now m a => (process routes env now e m a).1
  | .pass env now => processEscrow routes env now e

/-- What is stored and done after a history. -/
def run (routes : Routes) (l : List Step) : Exc := l.foldl (step routes) {}

/-- The message came with these attachments. -/
def Came (l : List Step) (m : Msg) (a : Att) : Prop := ∃ env now, Step.deliver env now m a ∈ l

/-- The signature came with a message of this digest, as one made with the keys of the event. -/
def CameSig (l : List Step) (d : Dig) (q : Quad) (s : Sig) : Prop := ∃ m a, Came l m a ∧ m.said = d ∧ ∃ t ∈ a.tsgs, t.1 = q ∧ s ∈ t.2

/-- The keys and threshold of an identifier at an event. -/
def KeysAt (env : Env) (q : Quad) (keys : List Id) (kt : Thold) : Prop :=
  (env.transferable q.1 = true ∧ env.evt q.1 q.2.1 = some (q.2.2, some (keys, kt))) ∨ (env.transferable q.1 = false ∧ keys = [q.1] ∧ kt = .num 1)

/-- The signature is one of these keys. -/
def GoodSig (env : Env) (m : Msg) (keys : List Id) (s : Sig) : Prop := ∃ key, keys[s.index]? = some key ∧ env.verify key s.raw m = true

/-- Enough different signatures that came have been made with the keys of an event of the sender that is known. -/
def SignedAt (l : List Step) (env : Env) (m : Msg) : Prop :=
  ∃ (sn : Nat) (dig : Dig) (keys : List Id) (kt : Thold) (ss : List Sig), (∃ n, env.sn m.sender = some n ∧ sn ≤ n) ∧ KeysAt env (m.sender, sn, dig) keys kt ∧ ss.Nodup ∧
    (∀ s ∈ ss, CameSig l m.said (m.sender, sn, dig) s ∧ GoodSig env m keys s) ∧ Verif.Thold.satisfy kt (ss.map Sig.index) = true

/-- The sender is a key and has signed. -/
def OwnSig (l : List Step) (env : Env) (m : Msg) : Prop := ∃ a raw, Came l m a ∧ (m.sender, raw) ∈ a.cigars ∧ env.verify m.sender raw m = true

/-- The message is from its sender, as far as is known after some time of the history. -/
def Authentic (l : List Step) (m : Msg) : Prop := ∃ l1 x l2, l = l1 ++ x :: l2 ∧ (∃ a, Came (l1 ++ [x]) m a) ∧ (SignedAt (l1 ++ [x]) x.env m ∨ OwnSig (l1 ++ [x]) x.env m)

/-- Digests bind messages. -/
def Binds (l : List Step) : Prop := ∀ m a m' a', Came l m a → Came l m' a' → m.said = m'.said → m = m'

end Verif.Exc
