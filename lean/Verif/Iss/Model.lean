import Verif.Vry.Model
import Verif.Grp.Model

/-!
# Model of the issuing workflow (src/keri/vdr/credentialing.py 538-849 `Registrar`, 852-1025 `Credentialer`)

The registries, the key event logs and the verifier are those of a node of `Verif.Vry`; they change between the calls and passes in any way that node can change.
A call or pass is given as the list of its writes, in order, so that it can be cut off at any of them. Iterations over a store go over it as it was
when the iteration began (one transaction of LMDB).

Not modelled: how the Counselor completes group events (`Verif.Grp`; here completions come as inputs), what the Receiptor and the WitnessPublisher send and to whom (that they work off
what they are given, one after the other, is), log output, creation of credentials and their check against schemas before issuing (880-947), registries whose keys are
elsewhere (424-535).
-/

namespace Verif.Iss

open Verif.Kel (Id Dig Couple upd upd2)
open Verif.Tel (TNode Reger telGet)
open Verif.Vry (VNode VEnv VInp Cred Anchor)
open Verif.Grp (Num completed)

/-- Where an event goes: identifier and number (first parts of the keys of `tpwe`, `tmse`, `tede`, `ctel`). -/
abbrev Slot := Id × Nat

/-- What an escrow holds: controller, number and digest of the key event (eventing.py:2360-2368). -/
abbrev Val := Id × Num × Dig

/-- A message for the WitnessPublisher (credentialing.py:841-848): controller, "said" (which is the identifier of the log), entries of the log sent. -/
structure Msg where
  pre : Id
  said : Id
  evts : List (Nat × Dig)
  deriving DecidableEq, Repr

/-- Stores `tpwe`, `tede`, `tmse` (insertion ordered sets), `ctel`, `cmse`, `ccrd`, and `cgms` of the Counselor. In memory: messages and cues of the Receiptor and of the
WitnessPublisher. `regs`: the own registries with their controller; `habs`: own identifiers, and whether they are groups. -/
structure World where
  v : VNode
  habs : Id → Option Bool
  regs : Id → Option Id
  cgms : Id → Num → Option Dig
  tpwe : List (Slot × Val)
  tmse : List ((Slot × Dig) × Val)
  tede : List (Slot × Val)
  ctel : Id → Nat → Option Dig
  cmse : List ((Dig × Nat) × Cred)
  ccrd : Dig → Option Cred
  rmsgs : List (Id × Nat)
  rcues : List (Id × Nat)
  pmsgs : List Msg
  pcues : List Msg

/-- Nothing waits, nothing is done. -/
def World.start (v : VNode) (habs : Id → Option Bool) : World :=
  ⟨v, habs, fun _ => none, fun _ _ => none, [], [], [], fun _ _ => none, [], fun _ => none, [], [], [], []⟩

/-- Order of keys. -/
def slotLt (a b : Slot) : Bool := decide (a.1 < b.1 ∨ (a.1 = b.1 ∧ a.2 < b.2))

/-- Order of keys with a digest. -/
def slotDigLt (a b : Slot × Dig) : Bool := slotLt a.1 b.1 || (decide (a.1 = b.1) && decide (a.2 < b.2))

/-- Entry of a store: after those with the same key or a smaller one. -/
def ins {κ β : Type} (lt : κ → κ → Bool) (x : κ × β) : List (κ × β) → List (κ × β)
  | [] => [x]
  | y :: ys => if lt x.1 y.1 then x :: y :: ys else y :: ins lt x ys

/-- `.add` of an insertion ordered set. -/
def setAdd {κ β : Type} [DecidableEq κ] [DecidableEq β] (lt : κ → κ → Bool) (l : List (κ × β)) (x : κ × β) : List (κ × β) := if x ∈ l then l else ins lt x l

/-- `.put` of a store with one value per key: does not replace. -/
def onePut {κ β : Type} [DecidableEq κ] (lt : κ → κ → Bool) (l : List (κ × β)) (x : κ × β) : List (κ × β) := if x.1 ∈ l.map (·.1) then l else ins lt x l

/-- `.rem` of a key. -/
def remKey {κ β : Type} [DecidableEq κ] (l : List (κ × β)) (k : κ) : List (κ × β) := l.filter fun y => decide (y.1 ≠ k)

/-- `ancs.put`, credentialing.py:270-282, 819-822: does not replace. -/
def anchorMsg (r : Reger) (p : Id) (d : Dig) (c : Couple) : Reger :=
  match r.ancs p d with
  | none => { r with ancs := upd2 r.ancs p d (some c) }
  | some _ => r

/-- Writes to stores and memory. -/
inductive Wr where
  | ancPut (p : Id) (d : Dig) (c : Couple)
  | rmsg (p : Id) (sn : Nat)
  | tpweAdd (k : Slot) (x : Val) | tpweRem (k : Slot)
  | tmseAdd (k : Slot × Dig) (x : Val) | tmseRem (k : Slot × Dig)
  | tedeAdd (k : Slot) (x : Val) | tedeRem (k : Slot)
  | pmsg (m : Msg)
  | ctelPut (k : Slot) (d : Dig)
  | cmsePut (k : Dig × Nat) (c : Cred) | cmseRem (k : Dig × Nat)
  | ccrdPut (d : Dig) (c : Cred)

def World.apply (w : World) : Wr → World
  | .ancPut p d c => { w with v := { w.v with t := { w.v.t with reg := anchorMsg w.v.t.reg p d c } } }
  | .rmsg p sn => { w with rmsgs := w.rmsgs ++ [(p, sn)] }
  | .tpweAdd k x => { w with tpwe := setAdd slotLt w.tpwe (k, x) }
  | .tpweRem k => { w with tpwe := remKey w.tpwe k }
  | .tmseAdd k x => { w with tmse := setAdd slotDigLt w.tmse (k, x) }
  | .tmseRem k => { w with tmse := remKey w.tmse k }
  | .tedeAdd k x => { w with tede := setAdd slotLt w.tede (k, x) }
  | .tedeRem k => { w with tede := remKey w.tede k }
  | .pmsg m => { w with pmsgs := w.pmsgs ++ [m] }
  | .ctelPut k d => match w.ctel k.1 k.2 with
    | none => { w with ctel := upd2 w.ctel k.1 k.2 (some d) }
    | some _ => w
  | .cmsePut k c => { w with cmse := onePut slotLt w.cmse (k, c) }
  | .cmseRem k => { w with cmse := remKey w.cmse k }
  | .ccrdPut d c => match w.ccrd d with
    | none => { w with ccrd := upd w.ccrd d (some c) }
    | some _ => w

def World.applyAll (w : World) (ws : List Wr) : World := ws.foldl World.apply w

/-! ## Registrar -/

/-- The kinds of calls. -/
inductive Call where
  | incept | issue | revoke
  deriving DecidableEq, Repr

/-- A call of `incept`, `issue` or `revoke`: the registry, identifier, number and digest of the registry or credential event, identifier, number and digest of the anchoring key event.
For `incept` the registry is that of the event and the number 0 (582-584). -/
structure Ask where
  call : Call
  regk : Id
  pre : Id
  sn : Nat
  said : Dig
  anc : Id × Nat × Dig
  deriving DecidableEq, Repr

/-- Registry and number used by a call. -/
def Ask.registry (a : Ask) : Id := if a.call = .incept then a.pre else a.regk
def Ask.slot (a : Ask) : Slot := (a.pre, if a.call = .incept then 0 else a.sn)

/-- A number given by its value; the code follows from the value (coring.py `Number`). -/
def number (n : Nat) : Num := ⟨n, 0⟩

/-- `counselor.start` raises unless there is an event with the number, in the log or partially signed (grouping.py:66-87). -/
def startOk (n : Kel.Node) (p : Id) (sn : Nat) : Bool :=
  (n.db.kels p sn).getLast?.isSome || n.db.pses.any fun x => decide (x.1 = p) && decide (x.2.1 = sn)

/-- credentialing.py:572-610 `incept`, 612-652 `issue`, 654-697 `revoke`. Of an identifier that is no group the last key event counts, not the anchoring event given. For a
registry its `regd` (610) is taken to be the digest of the event given. -/
def ask (w : World) (a : Ask) : List Wr × Option Grp.Err :=
  match w.regs a.registry with
  | none => ([], some .key)
  | some p =>
    if w.habs p = some true then
      if startOk w.v.t.node p a.anc.2.1 then ([.tmseAdd (a.slot, a.said) (p, number a.anc.2.1, a.anc.2.2)], none)
      else ([], some .validation)
    else match w.v.t.node.kevers p with
      | none => ([], some .attr)
      | some k =>
        ([.ancPut a.pre a.said (k.sn, k.serder.said),
          .rmsg (if a.call = .incept then a.anc.1 else p) k.sn,
          .tpweAdd a.slot (p, number k.sn, k.serder.said)], none)

/-- credentialing.py:774-801 `processWitnessEscrow`, one entry. The witnesses are those of the controller now. All entries of the key are removed. -/
def witness (w : World) (x : Slot × Val) : List Wr × Option Grp.Err :=
  match w.v.t.node.kevers x.2.1 with
  | none => ([], some .key)
  | some k =>
    if k.wits = [] then ([.tpweRem x.1, .tedeAdd x.1 x.2], none)
    else if (w.v.t.node.db.wigs x.2.1 x.2.2.2).length = k.wits.length then
      match w.habs x.2.1 with
      | none => ([], some .key)
      | some _ => if (x.2.1, x.2.2.1.num) ∈ w.rcues then ([.tpweRem x.1, .tedeAdd x.1 x.2], none) else ([], none)
    else ([], none)

/-- credentialing.py:803-825 `processMultisigEscrow`, one entry. When the group completed another event with that number the entry is removed. -/
def multisig (w : World) (x : (Slot × Dig) × Val) : List Wr × Option Grp.Err :=
  match completed (w.cgms x.2.1 x.2.2.1) (some x.2.2.2) with
  | .error _ => ([.tmseRem x.1], none)
  | .ok false => ([], none)
  | .ok true => ([.ancPut x.1.1.1 x.1.2 (x.2.2.1.num, x.2.2.2), .tmseRem x.1, .tedeAdd x.1.1 (x.2.1, number x.2.2.1.num, x.2.2.2)], none)

/-- credentialing.py:827-849 `processDisseminationEscrow`, one entry. What is sent is the log from the number on (eventing.py:2507-2529); entries of logs have their
events (`Verif.Tel.TInv`), so that `cloneTvt` does not raise. -/
def disseminate (w : World) (x : Slot × Val) : List Wr × Option Grp.Err :=
  match telGet (w.v.t.reg.tels x.1.1) x.1.2 with
  | none => ([], none)
  | some _ => ([.tedeRem x.1, .pmsg ⟨x.2.1, x.1.1, (w.v.t.reg.tels x.1.1).filter fun y => decide (x.1.2 ≤ y.1)⟩, .ctelPut x.1 x.2.2.2], none)

/-- A pass over the entries of a store: its writes, and the exception that ends it. -/
def pass {α} (f : World → α → List Wr × Option Grp.Err) (w : World) : List α → List Wr × Option Grp.Err
  | [] => ([], none)
  | x :: xs => match f w x with
    | (ws, some e) => (ws, some e)
    | (ws, none) => match pass f (w.applyAll ws) xs with
      | (r, e) => (ws ++ r, e)

/-- One pass after another. -/
def andThen (r : List Wr × Option Grp.Err) (w : World) (f : World → List Wr × Option Grp.Err) : List Wr × Option Grp.Err :=
  match r with
  | (ws, some e) => (ws, some e)
  | (ws, none) => match f (w.applyAll ws) with
    | (r, e) => (ws ++ r, e)

/-- credentialing.py:766-772 `processEscrows`. -/
def registrar (w : World) : List Wr × Option Grp.Err :=
  andThen (andThen (pass witness w w.tpwe) w fun w1 => pass multisig w1 w1.tmse) w fun w2 => pass disseminate w2 w2.tede

/-- agenting.py:663-676 `sent`. -/
def sent (w : World) (p : Id) : Bool := w.pcues.any fun m => decide (m.said = p)

/-- credentialing.py:723-738 `complete`. -/
def complete (w : World) (p : Id) (sn : Nat) : Bool := (w.ctel p sn).isSome && sent w p

/-! ## Credentialer -/

/-- credentialing.py:969-987 `processCredentialMissingSigEscrow`, one entry. -/
def missingSig (w : World) (x : (Dig × Nat) × Cred) : List Wr × Option Grp.Err :=
  if !complete w x.1.1 x.1.2 then ([], none)
  else if x.1.1 ∉ w.v.s.saved then ([], none)
  else ([.cmseRem x.1, .ccrdPut x.1.1 x.2], none)

/-- credentialing.py:1021-1025 `processEscrows`. -/
def credentialer (w : World) : List Wr × Option Grp.Err := pass missingSig w w.cmse

/-- credentialing.py:989-993 `complete`. -/
def credComplete (w : World) (d : Dig) : Bool := (w.ccrd d).isSome

/-! ## What can happen -/

/-- Inputs: what happens to the node, a registry made or loaded, calls, passes, work of Counselor, Receiptor and WitnessPublisher, stops of the process. -/
inductive Inp where
  | node (i : VInp)
  | registry (k p : Id)
  | ask (a : Ask)
  | registrar
  | counseled (p : Id) (n : Num) (d : Dig)
  | receipted
  | published
  | issue (late : Dig → Bool) (c : Cred) (serder : Anchor)
  | credentialer
  | crashAsk (a : Ask) (n : Nat)
  | crashRegistrar (n : Nat)
  | crashIssue (c : Cred) (serder : Anchor)
  | crashCredentialer (n : Nat)
  | restart

/-- What is in memory is lost. -/
def World.restarted (env : VEnv) (w : World) : World := { w with v := w.v.step env (.tel .restart), rmsgs := [], rcues := [], pmsgs := [], pcues := [] }

/-- agenting.py:629-657: a message for an identifier that is not own is dropped without a cue. -/
def publish (w : World) : World :=
  match w.pmsgs with
  | [] => w
  | m :: r => match w.habs m.pre with
    | none => { w with pmsgs := r }
    | some _ => { w with pmsgs := r, pcues := w.pcues ++ [m] }

/-- What an input does. -/
def World.step (env : VEnv) (w : World) : Inp → World
  | .node i => { w with v := w.v.step env i }
  | .registry k p => { w with regs := upd w.regs k (some p) }
  | .ask a => w.applyAll (Iss.ask w a).1
  | .registrar => w.applyAll (Iss.registrar w).1
  | .counseled p n d => match w.cgms p n with
    | none => { w with cgms := upd2 w.cgms p n (some d) }
    | some _ => w
  | .receipted => { w with rmsgs := (Grp.receipted w.rmsgs w.rcues).1, rcues := (Grp.receipted w.rmsgs w.rcues).2 }
  | .published => publish w
  -- credentialing.py:949-967 `issue`
  | .issue late c a => let w := w.apply (.cmsePut (c.said, a.2.1) c); { w with v := (w.v.process env late c a).1 }
  | .credentialer => w.applyAll (Iss.credentialer w).1
  | .crashAsk a n => (w.applyAll ((Iss.ask w a).1.take n)).restarted env
  | .crashRegistrar n => (w.applyAll ((Iss.registrar w).1.take n)).restarted env
  | .crashIssue c a => (w.apply (.cmsePut (c.said, a.2.1) c)).restarted env
  | .crashCredentialer n => (w.applyAll ((Iss.credentialer w).1.take n)).restarted env
  | .restart => w.restarted env

end Verif.Iss
