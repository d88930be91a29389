import Verif.Kel.Crash

/-!
# Model of the workflows of group events and of delegation (src/keri/app/grouping.py 26-257 `Counselor`, src/keri/app/delegating.py 23-258 `Anchorer`)

The node with its database is that of `Verif.Kel`; it changes between the passes of the escrows in any way its other parts change it. A pass is given as the
list of its writes, in order, so that it can be cut off at any of them. Iterations over a store go over it as it was when the iteration began (one
transaction of LMDB).

Not modelled: the queries and messages sent (except that the two Receiptors and the WitnessPublishers work off what they are given, one after the other),
authentication codes, log output. A proxy is there from the beginning or never.
-/

namespace Verif.Grp

open Verif.Kel (Id Dig Event Kever Seal Ilk upd upd2)

/-- `Number`: value and code; both make up its text, by which completed events are found (grouping.py:100, 213, 255). -/
structure Num where
  num : Nat
  code : Nat
  deriving DecidableEq, Repr

/-- What an escrow of the Counselor holds: group, number, digest. -/
abbrev Entry := Id × Num × Dig

/-- A WitnessPublisher (agenting.py:600-680): messages to send, and whether one is being sent. -/
structure Pub where
  todo : Nat
  busy : Bool
  deriving DecidableEq, Repr

/-- agenting.py:678-680. -/
def Pub.idle (p : Pub) : Bool := decide (p.todo = 0) && !p.busy

/-- Exceptions that leave a pass. -/
inductive Err where
  | key | attr | index | validation | missing
  deriving DecidableEq, Repr

/-- What is given: how many messages the chain of delegation of an identifier has (basing.py:1908-1931). -/
structure Env where
  chain : Kel.Node → Id → Nat

/-- Stores: `gpse`, `gdee`, `gpwe` (insertion ordered sets by group), `cgms`, `dpwe`, `dune`, `dpub` (by identifier and SAID), `cdel`. In memory: messages and cues of
the Receiptor of the Counselor and of that of the Anchorer, the publishers. `habs`: own identifiers, with the own member of groups. -/
structure World where
  node : Kel.Node
  habs : Id → Option (Option Id)
  proxy : Bool
  gpse : List Entry
  gdee : List Entry
  gpwe : List Entry
  cgms : Id → Num → Option Dig
  cmsgs : List (Id × Nat)
  ccues : List (Id × Nat)
  dpwe : List Event
  dune : List Event
  dpub : List Event
  cdel : Id → Nat → Option Dig
  amsgs : List (Id × Nat)
  acues : List (Id × Nat)
  pubs : Id → Option Pub

/-- Nothing waits, nothing is done. -/
def World.start (node : Kel.Node) (habs : Id → Option (Option Id)) (proxy : Bool) : World :=
  ⟨node, habs, proxy, [], [], [], fun _ _ => none, [], [], [], [], [], fun _ _ => none, [], [], fun _ => none⟩

/-- Entry of an insertion ordered set: after those with the same key or a smaller one. -/
def entIns (x : Entry) : List Entry → List Entry
  | [] => [x]
  | y :: ys => if x.1 < y.1 then x :: y :: ys else y :: entIns x ys

/-- `.add`. -/
def entAdd (l : List Entry) (x : Entry) : List Entry := if x ∈ l then l else entIns x l

/-- Key of an event in the stores of the Anchorer. -/
def key (e : Event) : Id × Dig := (e.pre, e.said)

/-- In the order of keys. -/
def evIns (e : Event) : List Event → List Event
  | [] => [e]
  | y :: ys => if e.pre < y.pre ∨ (e.pre = y.pre ∧ e.said < y.said) then e :: y :: ys else y :: evIns e ys

/-- `.rem`. -/
def evRem (l : List Event) (k : Id × Dig) : List Event := l.filter fun y => decide (key y ≠ k)

/-- `.pin`: replaces. -/
def evPin (l : List Event) (e : Event) : List Event := evIns e (evRem l (key e))

/-- `.put`: does not replace. -/
def evPut (l : List Event) (e : Event) : List Event := if key e ∈ l.map key then l else evIns e l

/-- Writes to stores and memory. -/
inductive Wr where
  | gpseRem (p : Id)
  | gdeeAdd (x : Entry) | gdeeRem (p : Id)
  | gpweAdd (x : Entry) | gpweRem (p : Id)
  | cgmsPut (x : Entry)
  | aessPin (p : Id) (d : Dig) (c : Kel.Couple)
  | dpwePin (e : Event) | dpweRem (k : Id × Dig)
  | dunePin (e : Event) | duneRem (k : Id × Dig)
  | dpubPut (e : Event) | dpubRem (k : Id × Dig)
  | cdelPut (p : Id) (sn : Nat) (d : Dig)
  | cmsg (p : Id) (sn : Nat) | amsg (p : Id) (sn : Nat)
  | pubNew (p : Id) | pubFeed (p : Id) (n : Nat) | pubDel (p : Id)

def World.apply (w : World) : Wr → World
  | .gpseRem p => { w with gpse := w.gpse.filter fun x => decide (x.1 ≠ p) }
  | .gdeeAdd x => { w with gdee := entAdd w.gdee x }
  | .gdeeRem p => { w with gdee := w.gdee.filter fun x => decide (x.1 ≠ p) }
  | .gpweAdd x => { w with gpwe := entAdd w.gpwe x }
  | .gpweRem p => { w with gpwe := w.gpwe.filter fun x => decide (x.1 ≠ p) }
  | .cgmsPut x => match w.cgms x.1 x.2.1 with
    | none => { w with cgms := upd2 w.cgms x.1 x.2.1 (some x.2.2) }
    | some _ => w
  | .aessPin p d c => { w with node := { w.node with db := { w.node.db with aess := upd2 w.node.db.aess p d (some c) } } }
  | .dpwePin e => { w with dpwe := evPin w.dpwe e }
  | .dpweRem k => { w with dpwe := evRem w.dpwe k }
  | .dunePin e => { w with dune := evPin w.dune e }
  | .duneRem k => { w with dune := evRem w.dune k }
  | .dpubPut e => { w with dpub := evPut w.dpub e }
  | .dpubRem k => { w with dpub := evRem w.dpub k }
  | .cdelPut p sn d => match w.cdel p sn with
    | none => { w with cdel := upd2 w.cdel p sn (some d) }
    | some _ => w
  | .cmsg p sn => { w with cmsgs := w.cmsgs ++ [(p, sn)] }
  | .amsg p sn => { w with amsgs := w.amsgs ++ [(p, sn)] }
  | .pubNew p => { w with pubs := upd w.pubs p (some ⟨0, false⟩) }
  | .pubFeed p n => match w.pubs p with
    | none => w
    | some b => { w with pubs := upd w.pubs p (some { b with todo := b.todo + n }) }
  | .pubDel p => { w with pubs := upd w.pubs p none }

def World.applyAll (w : World) (ws : List Wr) : World := ws.foldl World.apply w

/-- Last digest at a number of the log (`kels.getLast`). -/
def lastAt (n : Kel.Node) (p : Id) (sn : Nat) : Option Dig := (n.db.kels p sn).getLast?

/-- First key of the own member of a group (`ghab.mhab.kever.verfers[0]`). -/
def memberKey (w : World) (p : Id) : Except Err Id :=
  match w.habs p with
  | none => .error .key
  | some none => .error .attr
  | some (some m) => match w.node.kevers m with
    | none => .error .attr
    | some k => match k.keys with
      | [] => .error .index
      | x :: _ => .ok x

/-- Least index of signatures. -/
def minIndex : List Kel.Sig → Option Nat
  | [] => none
  | s :: ss => match minIndex ss with
    | none => some s.index
    | some i => some (min s.index i)

/-- delegating.py:53-87 `delegation`: the publisher is made before the delegator is looked up. -/
def delegation (w : World) (p : Id) (sn : Option Nat) : List Wr × Option Err :=
  match w.habs p with
  | none => ([], some .validation)
  | some _ => match w.node.kevers p with
    | none => ([.pubNew p], some .attr)
    | some k => match k.delpre with
      | none => ([.pubNew p], some .validation)
      | some dp => match w.node.kevers dp with
        | none => ([.pubNew p], some .validation)
        | some _ =>
          let n := sn.getD k.sn
          match lastAt w.node p n with
          | none => ([.pubNew p], some .missing)
          | some d => match w.node.db.evts p d with
            | none => ([.pubNew p], some .attr)
            | some e => ([.pubNew p, .amsg p e.sn, .dpwePin e], none)

/-! ## Counselor -/

/-- grouping.py:66-87 `start`: raises unless there is an event with the number, in the log or partially signed. -/
def startOk (w : World) (p : Id) (num : Num) : Bool :=
  (lastAt w.node p num.num).isSome || w.node.db.pses.any fun x => decide (x.1 = p) && decide (x.2.1 = num.num)

/-- grouping.py:141-192 `processPartialSignedEscrow`, one entry. All entries of the group are removed. -/
def partialSigned (w : World) (x : Entry) : List Wr × Option Err :=
  match lastAt w.node x.1 x.2.1.num with
  | none => ([], none)
  | some sd =>
    match w.habs x.1 with
    | none => ([.gpseRem x.1], some .key)
    | some _ => match w.node.kevers x.1 with
      | none => ([.gpseRem x.1], some .attr)
      | some k =>
        match minIndex (w.node.db.sigs x.1 sd) with
        | none => ([.gpseRem x.1], none)
        | some i => match memberKey w x.1 with
          | .error e => ([.gpseRem x.1], some e)
          | .ok mk => match k.keys[i]? with
            | none => ([.gpseRem x.1], some .index)
            | some ki =>
              if k.delpre.isSome ∧ (k.ilk = .dip ∨ k.ilk = .drt) then
                if mk = ki then
                  match delegation w x.1 (some x.2.1.num) with
                  | (ws, some e) => (.gpseRem x.1 :: ws, some e)
                  | (ws, none) => (.gpseRem x.1 :: ws ++ [.gdeeAdd x], none)
                else ([.gpseRem x.1, .gdeeAdd x], none)
              else if mk = ki then ([.gpseRem x.1, .cmsg x.1 x.2.1.num, .gpweAdd x], none)
              else ([.gpseRem x.1, .gpweAdd x], none)

/-- The own member has the first key of the group (grouping.py:205-206, 244-245). -/
def elected (w : World) (p : Id) (k : Kever) : Except Err Bool :=
  match memberKey w p with
  | .error e => .error e
  | .ok mk => match k.keys with
    | [] => .error .index
    | x :: _ => .ok (decide (mk = x))

/-- grouping.py:194-228 `processDelegateEscrow`, one entry. -/
def delegateEsc (w : World) (x : Entry) : List Wr × Option Err :=
  match w.habs x.1 with
  | none => ([], some .key)
  | some _ => match w.node.kevers x.1 with
    | none => ([], some .key)
    | some k => match elected w x.1 k with
      | .error e => ([], some e)
      | .ok true => if (w.cdel x.1 k.sn).isSome then ([.gdeeRem x.1, .cgmsPut x], none) else ([], none)
      | .ok false => match k.delpre with
        | none => ([], some .attr)
        | some dp => match w.node.findSeal dp ⟨x.1, x.2.1.num, x.2.2⟩ with
          | none => ([], none)
          | some de => ([.aessPin x.1 x.2.2 (de.sn, de.said), .gdeeRem x.1, .gdeeRem x.1, .gpweAdd x], none)

/-- grouping.py:230-257 `processPartialWitnessEscrow`, one entry. -/
def partialWitness (w : World) (x : Entry) : List Wr × Option Err :=
  match w.node.kevers x.1 with
  | none => ([], some .key)
  | some k => match w.habs x.1 with
    | none => ([], some .key)
    | some _ => match elected w x.1 k with
      | .error e => ([], some e)
      | .ok el =>
        if (w.node.db.wigs x.1 x.2.2).length = k.wits.length then
          if el && decide (0 < k.wits.length) && !decide ((x.1, x.2.1.num) ∈ w.ccues) then ([], none)
          else ([.gpweRem x.1, .cgmsPut x], none)
        else ([], none)

/-- A pass over the entries of a store: its writes, and the exception that ends it. -/
def pass {α} (f : World → α → List Wr × Option Err) (w : World) : List α → List Wr × Option Err
  | [] => ([], none)
  | x :: xs => match f w x with
    | (ws, some e) => (ws, some e)
    | (ws, none) => match pass f (w.applyAll ws) xs with
      | (r, e) => (ws ++ r, e)

/-- One pass after another. -/
def andThen (r : List Wr × Option Err) (w : World) (f : World → List Wr × Option Err) : List Wr × Option Err :=
  match r with
  | (ws, some e) => (ws, some e)
  | (ws, none) => match f (w.applyAll ws) with
    | (r, e) => (ws ++ r, e)

/-- grouping.py:135-139 `processEscrows`. -/
def counsel (w : World) : List Wr × Option Err :=
  andThen (andThen (pass partialSigned w w.gpse) w fun w1 => pass delegateEsc w1 w1.gdee) w fun w2 => pass partialWitness w2 w2.gpwe

/-! ## Anchorer -/

/-- delegating.py:163-227 `processPartialWitnessEscrow`, one entry. -/
def dPartialWitness (w : World) (e : Event) : List Wr × Option Err :=
  match w.node.kevers e.pre with
  | none => ([], some .key)
  | some k =>
    if (w.node.db.wigs e.pre e.said).length = k.wits.length then
      if decide (0 < k.wits.length) && !decide ((e.pre, e.sn) ∈ w.acues) then ([], none)
      else match w.habs e.pre with
        | none => ([], none)
        | some h => match k.delpre with
          | none => ([], some .key)
          | some dp => match w.node.kevers dp with
            | none => ([], some .key)
            | some _ =>
              if h.isNone && !w.proxy then ([], some .validation)
              else match w.node.db.evts e.pre e.said, w.node.db.sigs e.pre e.said with
                | none, _ => ([], some .missing)
                | some _, [] => ([], some .missing)
                | some s, _ :: _ => ([.dpweRem (key e), .dunePin s], none)
    else ([], none)

/-- delegating.py:140-160 `processUnanchoredEscrow`, one entry, with `publishDelegator` (249-258). The seal is entered for the last event of the identifier. -/
def unanchored (env : Env) (w : World) (e : Event) : List Wr × Option Err :=
  match w.node.kevers e.pre with
  | none => ([], some .key)
  | some k => match k.delpre with
    | none => ([], some .key)
    | some dp => match w.node.kevers dp with
      | none => ([], some .key)
      | some dk => match w.node.findSeal dk.pre ⟨e.pre, e.sn, e.said⟩ with
        | none => ([], none)
        | some de =>
          let pin := Wr.aessPin k.pre k.serder.said (de.sn, de.said)
          match w.pubs e.pre with
          | none => ([pin, .dpubPut e, .duneRem (key e)], none)
          | some _ => match w.habs e.pre with
            | none => ([pin], some .key)
            | some _ => ([pin, .pubFeed e.pre (env.chain w.node e.pre), .dpubPut e, .duneRem (key e)], none)

/-- delegating.py:229-247 `processWitnessPublication`, one entry. That the publisher can be removed from the scheduler is taken for granted. -/
def publication (w : World) (e : Event) : List Wr × Option Err :=
  match w.pubs e.pre with
  | none => ([], none)
  | some b => if !b.idle then ([], none) else ([.pubDel e.pre, .dpubRem (key e), .cdelPut e.pre e.sn e.said], none)

/-- delegating.py:134-138 `processEscrows`. -/
def anchor (env : Env) (w : World) : List Wr × Option Err :=
  andThen (andThen (pass dPartialWitness w w.dpwe) w fun w1 => pass (unanchored env) w1 w1.dune) w fun w2 => pass publication w2 w2.dpub

/-! ## What can happen -/

/-- grouping.py:89-107 and delegating.py:89-107 `complete`: done, not done, or done with another digest (ValidationError). -/
def completed (stored : Option Dig) (d : Option Dig) : Except Err Bool :=
  match stored with
  | none => .ok false
  | some c => match d with
    | none => .ok true
    | some d => if c = d then .ok true else .error .validation

/-- Inputs: calls, passes, work of the Receiptors and publishers, changes of the node, stops of the process. -/
inductive Inp where
  | start (p : Id) (num : Num) (d : Dig)
  | delegation (p : Id) (sn : Option Nat)
  | counsel
  | anchor
  | cReceipted
  | aReceipted
  | pubStart (p : Id)
  | pubDone (p : Id)
  | node (n : Kel.Node)
  | crashCounsel (n : Nat)
  | crashAnchor (n : Nat)
  | restart

/-- What is in memory is lost. -/
def World.restarted (w : World) : World := { w with cmsgs := [], ccues := [], amsgs := [], acues := [], pubs := fun _ => none }

/-- A Receiptor is done with its first message (agenting.py:240-247). -/
def receipted (ms cs : List (Id × Nat)) : List (Id × Nat) × List (Id × Nat) :=
  match ms with
  | [] => (ms, cs)
  | m :: r => (r, cs ++ [m])

/-- What an input does. -/
def World.step (env : Env) (w : World) : Inp → World
  | .start p num d => if startOk w p num then { w with gpse := entAdd w.gpse (p, num, d) } else w
  | .delegation p sn => w.applyAll (Grp.delegation w p sn).1
  | .counsel => w.applyAll (Grp.counsel w).1
  | .anchor => w.applyAll (Grp.anchor env w).1
  | .cReceipted => { w with cmsgs := (receipted w.cmsgs w.ccues).1, ccues := (receipted w.cmsgs w.ccues).2 }
  | .aReceipted => { w with amsgs := (receipted w.amsgs w.acues).1, acues := (receipted w.amsgs w.acues).2 }
  | .pubStart p => match w.pubs p with
    | some ⟨t + 1, false⟩ => { w with pubs := upd w.pubs p (some ⟨t, true⟩) }
    | _ => w
  | .pubDone p => match w.pubs p with
    | some ⟨t, true⟩ => { w with pubs := upd w.pubs p (some ⟨t, false⟩) }
    | _ => w
  | .node n => { w with node := n }
  | .crashCounsel n => (w.applyAll ((Grp.counsel w).1.take n)).restarted
  | .crashAnchor n => (w.applyAll ((Grp.anchor env w).1.take n)).restarted
  | .restart => w.restarted

end Verif.Grp
