import Verif.Mgr.Model

/-!
# Vocabulary of the statements about the key store manager

Statements speak about histories: the inputs from an empty key store on, each with the result the caller saw (none for an interrupted call).
-/

namespace Verif.Mgr

open Verif.Kel (upd)

/-- A history: inputs and their results, in order. -/
abbrev Hist := List (Inp × Option Res)

/-- `Happened env h n`: from an empty key store the history `h` leads to node `n`. -/
def Happened (env : Env) (h : Hist) (n : Node) : Prop := ∃ is, Node.start.run env is = (n, h)

/-- How what the caller was told last about an identifier changes with an input: `incept`, `rotate` and `replay` tell the keys in use and the digests of
the next ones, `move` passes it on to the new name. A rotation or replay that was interrupted, or refused because a private key cannot be
encrypted (`Err.code`), and a move that was interrupted, leave nothing to rely on. -/
def Told.next (f : Nat → Option Keys) : Inp × Option Res → Nat → Option Keys
  | (.call (.incept _), some (.keys k)) => upd f (k.verfers.headD 0) (some k)
  | (.call (.rotate pre _), some (.keys k)) => upd f pre (some k)
  | (.call (.rotate pre _), some (.err .code)) => upd f pre none
  | (.call (.replay pre _ _), some (.keys k)) => upd f pre (some k)
  | (.call (.move old new), some .done) => if old = new then f else upd (upd f new (f old)) old none
  | (.crash (.rotate pre _) _, _) => upd f pre none
  | (.crash (.replay pre _ _) _, _) => upd f pre none
  | (.crash (.move old _) _, _) => upd f old none
  | _ => f

/-- What the caller was told last about each identifier. -/
def told (h : Hist) : Nat → Option Keys := h.foldl Told.next (fun _ => none)

/-- A replay that does not advance and returns the keys in use. -/
def Repeats (x : Inp × Option Res) : Prop := ∃ pre er k, x = (.call (.replay pre false er), some (.keys k))

/-- As `Told.next`, but a replay that does not advance tells nothing new: after an interrupted call it does not show whether the next keys were stored. -/
def Firm.next (f : Nat → Option Keys) : Inp × Option Res → Nat → Option Keys
  | (.call (.replay _ false _), some (.keys _)) => f
  | x => Told.next f x

/-- What the caller was told last about each identifier by a call that made or turned its keys, no call for it having been interrupted since. -/
def firm (h : Hist) : Nat → Option Keys := h.foldl Firm.next (fun _ => none)

/-- The key sets told as current for an identifier, newest first. -/
def Shown.next (f : Nat → List (List Nat)) : Inp × Option Res → Nat → List (List Nat)
  | (.call (.incept _), some (.keys k)) => upd f (k.verfers.headD 0) [k.verfers]
  | (.call (.rotate pre _), some (.keys k)) => upd f pre (k.verfers :: f pre)
  | (.call (.replay pre true _), some (.keys k)) => upd f pre (k.verfers :: f pre)
  | (.call (.move old new), some .done) => if old = new then f else upd (upd f new (f old)) old []
  | _ => f

/-- The key sets told as current for each identifier, newest first. -/
def shown (h : Hist) : Nat → List (List Nat) := h.foldl Shown.next (fun _ => [])

/-- Which names stand for a key sequence made by `incept`, as far as the caller was told. -/
def Made.next (f : Nat → Bool) : Inp × Option Res → Nat → Bool
  | (.call (.incept _), some (.keys k)) => upd f (k.verfers.headD 0) true
  | (.call (.move old new), some .done) => if old = new then f else upd (upd f new (f old)) old false
  | _ => f

def incepted (h : Hist) : Nat → Bool := h.foldl Made.next (fun _ => false)

/-- The keys whose private keys a call stores. -/
def storedKeys (ws : List Wr) : List Nat := ws.filterMap fun
  | .prisPut k _ => some k
  | _ => none

/-- The call of an input. -/
def Inp.of : Inp → Call
  | .call c => c
  | .crash c _ => c

/-- All keys stored by the inputs of a run, in order, with repetitions; an interrupted call counts in full. -/
def madeBy (env : Env) : Node → List Inp → List Nat
  | _, [] => []
  | n, i :: rest => storedKeys (exec env n i.of).1 ++ madeBy env (n.step env i).1 rest

/-- The key store has no key sequences and no private keys. -/
def Ks.Bare (ks : Ks) : Prop := (∀ k, ks.prms.at' k = none) ∧ ∀ k, ks.pris.at' k = none

/-- The seed belongs to the authentication identifier; no seed to none. -/
def Fits (env : Env) (aeid seed : Option Nat) : Prop :=
  (aeid = none ∧ seed = none) ∨ ∃ a s, aeid = some a ∧ seed = some s ∧ env.boxS s = env.boxA a

/-- Calls in the way encryption is meant to be used: it is set up before the first key sequence, a seed is given with the authentication identifier
it belongs to, and key sequences are ingested in key stores that are not encrypted. A key store that is encrypted may be opened with any
seed. -/
def Call.proper (env : Env) (n : Node) : Call → Prop
  | .openM seed aeid _ _ _ _ => n.ks.aeid.isSome ∨ ((aeid = none → seed = none) ∧ (aeid.isSome → n.ks.Bare))
  | .updateAeid aeid seed => Fits env aeid seed ∧ (n.ks.aeid.isSome ∨ aeid = none ∨ n.ks.Bare)
  | .ingest _ => n.ks.aeid = none
  | _ => True

/-- As `Call.proper`; interrupted are only calls that do not set up or change encryption. -/
def Inp.tidy (env : Env) (n : Node) : Inp → Prop
  | .call c => c.proper env n
  | .crash (.openM ..) _ | .crash (.updateAeid ..) _ => False
  | .crash c _ => c.proper env n

/-- As `Call.proper`; interrupted are only calls that make, rotate or replay keys or sign. -/
def Inp.proper (env : Env) (n : Node) : Inp → Prop
  | .call c => c.proper env n
  | .crash (.incept _) _ | .crash (.rotate _ _) _ | .crash (.replay _ _ _) _ | .crash (.sign _ _ _) _ => True
  | .crash _ _ => False

/-- As `Inp.proper`; moreover no key is made that cannot be encrypted (with encryption only Ed25519 keys can), and key sequences are ingested with a current
key set. -/
def Inp.safe (env : Env) (n : Node) (i : Inp) : Prop :=
  i.proper env n ∧ (exec env n i.of).2.2 ≠ .err .code ∧ ∀ a, i.of = .ingest a → a.iridx < a.secs.length

/-- Safe and not interrupted. -/
def Inp.calm (env : Env) (n : Node) (i : Inp) : Prop := i.safe env n ∧ ∃ c, i = .call c

/-- Safe, not interrupted, and erasing. -/
def Inp.erasing (env : Env) (n : Node) (i : Inp) : Prop :=
  i.calm env n ∧ (∀ p a, i = .call (.rotate p a) → a.erase = true) ∧ ∀ p a b, i = .call (.replay p a b) → b = true

/-- Every input of a run meets a condition at the node it comes to. -/
def Along (env : Env) (P : Node → Inp → Prop) : Node → List Inp → Prop
  | _, [] => True
  | n, i :: rest => P n i ∧ Along env P (n.step env i).1 rest

/-- Every secret in the key store is in the form `enc` makes: plain, or encrypted for one box key. -/
structure Locked (enc : Option Nat) (ks : Ks) : Prop where
  pris : ∀ k s, ks.pris.at' k = some s → s = lock enc k
  prms : ∀ k p s, ks.prms.at' k = some p → p.salt = some s → ∃ x, s = lock enc x
  salt : ∀ s, ks.salt = some s → ∃ x, s = lock enc x

/-- The private key of `k` is stored in a form this manager reads. -/
def Readable (env : Env) (ks : Ks) (mem : Mem) (k : Nat) : Prop :=
  (ks.aeid.isSome → mem.dec.isSome) ∧ ∃ s, ks.pris.at' k = some s ∧
    ((mem.dec = none ∧ s = .plain k) ∨ ∃ d, mem.dec = some d ∧ s = .sealed (env.boxS d) k)

/-- The signatures asked for: one for each key in order, with the given index or else its position, and the given other index or else the same. -/
def wanted (pubs : List Nat) (indices : List Int) (ondices : List (Option Int)) : List Sig :=
  pubs.mapIdx fun j k =>
    let i : Int := if indices = [] then j else indices.getD j 0
    ⟨k, i.toNat, (if ondices = [] then some i else ondices.getD j none).map Int.toNat⟩

/-- What the replays of a key sequence are to return, `i` being the set in use: the next set and the digests of the set after it, then the end. -/
def replayed (env : Env) (all : List (List Nat)) : Nat → Nat → List (Option Res)
  | 0, _ => []
  | m + 1, i => match all[i + 1]?, all[i + 2]? with
    | some l, some nx => some (.keys ⟨l, nx.map env.dig⟩) :: replayed env all m (i + 1)
    | _, _ => some (.err .index) :: replayed env all m i

end Verif.Mgr
