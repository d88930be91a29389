import Verif.Kel.Model

/-!
# Model of the coordination of group members by messages (src/keri/app/grouping.py 260-295 `MultisigNotificationHandler`, 799-1039 `Multiplexor`; storing of messages by
src/keri/peer/exchanging.py 178-190 and 293-318)

Messages come here when the Exchanger has verified that their sender signed them (`Verif.Exc`). What members send around wraps other messages: proposed events and replies.
Those are given to the own parser as if they were made here ("replayed") when an own identifier has sent the same proposal.

Not modelled: what the parser makes of what is replayed (`Verif.Kel`), versions of attachments, signatures attached to wrapped messages, the check of stored signatures when a message is read back
(grouping.py:857, `Verif.Exc`), which is taken to succeed; wrapped messages that are themselves exchange messages and are stored when they are replayed.
-/

namespace Verif.Mux

open Verif.Kel (Id Dig upd)

/-- Types of wrapped messages. -/
inductive Ilk where
  | icp | dip | rot | drt | ixn | rpy | other
  deriving DecidableEq, Repr

/-- A wrapped message: type, SAID it carries, content. -/
structure Child where
  ilk : Ilk
  said : Dig
  content : Nat
  deriving DecidableEq, Repr

/-- Routes; `multi`: another one that begins with `/multisig`. -/
inductive Route where
  | icp | rot | ixn | rpy
  | multi (n : Nat)
  | alien (n : Nat)
  deriving DecidableEq, Repr

/-- A message: `embed` is the "d" of the block "e" (first version), `kids` the dicts in that block, `signed` the SAID named for the wrapped message (second version). -/
structure Body where
  said : Dig
  sender : Id
  v2 : Bool
  route : Route
  embed : Option Dig
  kids : List Child
  signed : Option Dig
  smids : Option (List Id)
  rmids : Option (List Id)
  gid : Option Id
  deriving DecidableEq, Repr

/-- A notice: route, SAID of the message, SAID of the proposal unless it is the first message with that. -/
structure Note where
  route : Route
  said : Dig
  proposal : Option Dig
  deriving DecidableEq, Repr

/-- Given: digests of contents, own identifiers. -/
structure Env where
  digest : Nat → Dig
  own : Id → Bool

/-- Stores `exns`, `enst`, `meids`, `maids`; what was replayed, and the notices made. -/
structure World where
  exns : Dig → Option Body
  enst : Dig → List Child
  meids : Dig → List Dig
  maids : Dig → List Id
  replayed : List Child
  notes : List Note

def World.start : World := ⟨fun _ => none, fun _ => [], fun _ => [], fun _ => [], [], []⟩

/-- Serder with a SAID that is that of its content (serdering.py:668-698). -/
def Child.sound (env : Env) (c : Child) : Bool := decide (env.digest c.content = c.said)

/-- grouping.py:917-925. -/
def allowed : Route → Ilk → Bool
  | .icp, .icp => true
  | .icp, .dip => true
  | .rot, .rot => true
  | .ixn, .ixn => true
  | .rpy, .rpy => true
  | _, _ => false

/-- grouping.py:902-905. -/
def supported : Route → Bool
  | .icp | .rot | .ixn | .rpy => true
  | _ => false

/-- Some of the identifiers are own ones. -/
def anyOwn (env : Env) (l : List Id) : Bool := l.any env.own

/-- grouping.py:939-966: an own identifier takes part; an exception otherwise. -/
def takesPart (env : Env) (b : Body) : Bool :=
  match b.route with
  | .icp => match b.smids with
    | none => false
    | some s => anyOwn env (s ++ b.rmids.getD [])
  | .rot => match b.gid with
    | none => false
    | some g => if env.own g then true else match b.smids, b.rmids with
      | some s, some r => anyOwn env (s ++ r)
      | _, _ => false
  | .alien _ => false
  | _ => match b.gid with
    | none => false
    | some g => env.own g

/-- What `validate` can come to. -/
inductive Verdict where
  | refused
  | nothing
  | names (d : Dig)
  deriving DecidableEq, Repr

/-- grouping.py:881-968 `validate`: refused with an exception, nothing to do, or the SAID of the proposal. All types that are allowed have SAIDs (927-930). -/
def validate (env : Env) (b : Body) (nests : List Child) : Verdict :=
  if b.v2 = false then
    match b.embed with
    | none => .nothing
    | some d => if takesPart env b then .names d else .refused
  else match nests with
    | [c] =>
      if supported b.route = false then .refused
      else match b.signed with
        | none => .refused
        | some d =>
          if allowed b.route c.ilk = false then .refused
          else if !c.sound env || !decide (c.said = d) then .refused
          else if takesPart env b then .names d else .refused
    | _ => .refused

/-- Writes. -/
inductive Wr where
  | enstPin (d : Dig) (l : List Child)
  | exnsPut (b : Body)
  | replay (c : Child)
  | note (n : Note)
  | meidsAdd (d x : Dig)
  | maidsAdd (d : Dig) (p : Id)

def ioAdd {α} [DecidableEq α] (l : List α) (x : α) : List α := if x ∈ l then l else l ++ [x]

def World.apply (w : World) : Wr → World
  | .enstPin d l => { w with enst := upd w.enst d l }
  | .exnsPut b => match w.exns b.said with
    | none => { w with exns := upd w.exns b.said (some b) }
    | some _ => w
  | .replay c => { w with replayed := w.replayed ++ [c] }
  | .note n => { w with notes := w.notes ++ [n] }
  | .meidsAdd d x => { w with meids := upd w.meids d (ioAdd (w.meids d) x) }
  | .maidsAdd d p => { w with maids := upd w.maids d (ioAdd (w.maids d) p) }

def World.applyAll (w : World) (ws : List Wr) : World := ws.foldl World.apply w

/-- grouping.py:859-879: the dicts of the block one after the other, up to one that is no message. The second component tells whether all went well. -/
def replayKids (env : Env) : List Child → List Wr × Bool
  | [] => ([], true)
  | c :: cs => if c.sound env then
      match replayKids env cs with
      | (ws, ok) => (.replay c :: ws, ok)
    else ([], false)

/-- grouping.py:840-879 `_replayApproved`. -/
def replayApproved (env : Env) (w : World) (x : Dig) : List Wr × Bool :=
  match w.enst x with
  | c :: cs => ((c :: cs).map Wr.replay, true)
  | [] => match w.exns x with
    | none => ([], false)
    | some b => replayKids env b.kids

/-- grouping.py:1018-1021. -/
def replayAll (env : Env) (w : World) : List Dig → List Wr × Bool
  | [] => ([], true)
  | x :: xs => match replayApproved env w x with
    | (ws, false) => (ws, false)
    | (ws, true) => match replayAll env w xs with
      | (vs, ok) => (ws ++ vs, ok)

/-- grouping.py:998-1021. -/
def react (env : Env) (w : World) (b : Body) (d : Dig) : List Wr × Bool :=
  if env.own b.sender = false then
    if anyOwn env (w.maids d) then replayApproved env w b.said
    else ([.note ⟨b.route, b.said, if w.meids d = [] then none else some d⟩], true)
  else if w.meids d ≠ [] ∧ (w.maids d).any (fun p => !env.own p) = true then replayAll env w (w.meids d)
  else ([], true)

/-- grouping.py:970-1024 `add`. -/
def add (env : Env) (w : World) (b : Body) (nests : List Child) : List Wr × Bool :=
  match validate env b nests with
  | .refused => ([], false)
  | .nothing => ([], true)
  | .names d => match react env w b d with
    | (ws, false) => (ws, false)
    | (ws, true) => (ws ++ [.meidsAdd d b.said, .maidsAdd d b.sender], true)

/-- exchanging.py:293-318 `logEvent`, as far as it matters. -/
def logged (b : Body) (nests : List Child) : List Wr := (if nests = [] then [] else [.enstPin b.said nests]) ++ [.exnsPut b]

/-- exchanging.py:174-190 with grouping.py:276-281, 283-295: a message whose signatures verified. -/
def deliver (env : Env) (w : World) (b : Body) (nests : List Child) : List Wr × Bool :=
  match validate env b nests with
  | .names _ => match add env (w.applyAll (logged b nests)) b nests with
    | (ws, ok) => (logged b nests ++ ws, ok)
  | _ => ([], true)

/-- An own message (cli/commands/multisig/incept.py:179-182 and likewise in the other commands): stored without nested messages, then added. -/
def submit (env : Env) (w : World) (b : Body) : List Wr × Bool :=
  match add env (w.applyAll (logged b [])) b [] with
  | (ws, ok) => (logged b [] ++ ws, ok)

/-- What can happen. -/
inductive Inp where
  | deliver (b : Body) (nests : List Child)
  | submit (b : Body)
  | crashDeliver (b : Body) (nests : List Child) (n : Nat)
  | crashSubmit (b : Body) (n : Nat)

def World.step (env : Env) (w : World) : Inp → World
  | .deliver b nests => w.applyAll (Mux.deliver env w b nests).1
  | .submit b => w.applyAll (Mux.submit env w b).1
  | .crashDeliver b nests n => w.applyAll ((Mux.deliver env w b nests).1.take n)
  | .crashSubmit b n => w.applyAll ((Mux.submit env w b).1.take n)

end Verif.Mux
