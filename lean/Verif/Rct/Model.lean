import Verif.Kel.Run

/-!
# Model of receipt processing (src/keri/core/eventing.py 4444-4680, 4828-5031, 5818-6025, 6634-6890, 7097-7362)

Receipts of three kinds: couples (public key of a non-transferable identifier, signature), indexed witness signatures, and
groups of indexed signatures of a transferable identifier under one of its establishment events. The state is a node of
`Verif.Kel` (key event logs, witness signatures) with a receipt store beside it.

Not modelled: log output, the clock (whether an escrow entry has timed out is an argument), date-times (`dtss`; written with
each escrow entry and never removed), the code of a signature made from a couple (always Ed25519), ordinals above `MaxON`.
`Serder.compare(said)` is equality of digests.
-/

namespace Verif.Rct

open Verif.Kel

/-- A receipt message: receipted identifier, sequence number and digest (fields i, s, d). -/
structure Rct where
  pre : Id
  sn : Nat
  said : Dig
  deriving DecidableEq

/-- A receipt couple (`Cigar` with `.verfer`). -/
structure Cigar where
  key : Id
  raw : Nat
  deriving DecidableEq

/-- Signatures of a transferable receiptor: (i, s, d) of its establishment event and the signatures. -/
structure Group where
  pre : Id
  sn : Nat
  said : Dig
  sigs : List Sig
  deriving DecidableEq

/-- Key of `vrcs`: receipted identifier and digest, receiptor, number and digest of its establishment event. -/
structure VKey where
  pre : Id
  dig : Dig
  rpre : Id
  rsn : Nat
  rdig : Dig
  deriving DecidableEq

/-- An entry of a receipt escrow: key (pre, sn), receipted digest, material. -/
structure Entry (α : Type) where
  pre : Id
  sn : Nat
  said : Dig
  mat : α
  deriving DecidableEq

/-- A signature of a transferable receiptor waiting in `vres`. -/
structure Chit where
  rpre : Id
  rsn : Nat
  rdig : Dig
  sig : Sig
  deriving DecidableEq

/-- basing.py:938-957, the receipt sub-databases (witness signatures `wigs` are part of `Kel.Db`). -/
structure Store where
  rcts : Id → Dig → List Cigar
  vrcs : VKey → List Sig
  ures : List (Entry Cigar)
  uwes : List (Entry Sig)
  vres : List (Entry Chit)

/-- A node with receipts. -/
structure RNode where
  node : Node
  store : Store

/-- Exceptions by class. -/
inductive RExn where
  | validation | attribute | key | value | unverifiedReceipt | unverifiedWitness | unverifiedTrans
  deriving DecidableEq, Repr

/-- Result of a step: state reached and how it ended. -/
abbrev ROut := RNode × Except RExn Unit

/-- Insert after all entries with a key (pre, sn) not greater. -/
def entIns {α : Type} (x : Entry α) : List (Entry α) → List (Entry α)
  | [] => [x]
  | y :: ys => if decide (x.pre < y.pre) || (decide (x.pre = y.pre) && decide (x.sn < y.sn)) then x :: y :: ys
      else y :: entIns x ys

/-- `.add` on an escrow. -/
def entAdd {α : Type} [DecidableEq α] (l : List (Entry α)) (x : Entry α) : List (Entry α) := if x ∈ l then l else entIns x l

/-- `.rem` of one value. -/
def entRem {α : Type} [DecidableEq α] (l : List (Entry α)) (x : Entry α) : List (Entry α) :=
  l.filter (fun y => decide (y ≠ x))

/-- `rcts.add`. -/
def RNode.addRct (r : RNode) (p : Id) (d : Dig) (c : Cigar) : RNode :=
  { r with store := { r.store with rcts := upd2 r.store.rcts p d (ioAdd (r.store.rcts p d) c) } }

/-- `wigs.add`. -/
def RNode.addWig (r : RNode) (p : Id) (d : Dig) (s : Sig) : RNode :=
  { r with node := { r.node with db := { r.node.db with wigs := upd2 r.node.db.wigs p d (ioAdd (r.node.db.wigs p d) s) } } }

/-- `vrcs.add`. -/
def RNode.addVrc (r : RNode) (k : VKey) (s : Sig) : RNode :=
  { r with store := { r.store with vrcs := upd r.store.vrcs k (ioAdd (r.store.vrcs k) s) } }

/-- Stop at the first exception. -/
def loop {α : Type} (f : RNode → α → ROut) : RNode → List α → ROut
  | r, [] => (r, .ok ())
  | r, x :: xs => match f r x with
    | (r, .error e) => (r, .error e)
    | (r, .ok ()) => loop f r xs

/-- eventing.py:4498-4511 and the same test at 4533, 4556, 4610, 4881, 4941: the receiptor is an own identifier and the event is
own or the source is not local. -/
def ownBad (lax isLocal : Bool) (n : Node) (rpre pre : Id) : Bool :=
  !lax && decide (rpre ∈ n.prefixes) && (decide (pre ∈ n.prefixes) || !isLocal)

/-- `Siger(raw=cigar.raw, index=index, verfer=…)`, indexing.py:233-312 with the default code Ed25519_Sig: an index that does not
fit in one Base64 character raises InvalidVarIndexError. -/
def mkWig (raw index : Nat) : Option Sig :=
  if index < 64 then some { code := 0, index := index, ondex := some index, raw := raw } else none

/-- Verfers of an event: those of its key list, none when it is not an establishment event. -/
def verfers (e : Event) : List Id := if e.ilk.est then e.keys else []

/-- eventing.py:5853-5882 `escrowUReceipt`. -/
def RNode.escrowU (env : Env) (r : RNode) (x : Rct) (cigars : List Cigar) : RNode :=
  { r with store := { r.store with
      ures := (cigars.filter (fun c => !env.transferable c.key)).foldl (fun l c => entAdd l ⟨x.pre, x.sn, x.said, c⟩) r.store.ures } }

/-- eventing.py:5818-5847 `escrowUWReceipt`. -/
def RNode.escrowUW (r : RNode) (x : Rct) (wigers : List Sig) : RNode :=
  { r with store := { r.store with uwes := wigers.foldl (fun l w => entAdd l ⟨x.pre, x.sn, x.said, w⟩) r.store.uwes } }

/-- eventing.py:5937-5980 `escrowTReceipts` and 5987-6025 `escrowTransReceiptGroup`. -/
def RNode.escrowT (r : RNode) (x : Rct) (g : Group) : RNode :=
  { r with store := { r.store with
      vres := g.sigs.foldl (fun l s => entAdd l ⟨x.pre, x.sn, x.said, ⟨g.pre, g.sn, g.said, s⟩⟩) r.store.vres } }

/-- eventing.py:5887-5934 `escrowTRGroups`. -/
def RNode.escrowTs (r : RNode) (x : Rct) (gs : List Group) : RNode := gs.foldl (fun r g => r.escrowT x g) r

/-- `fetchWitnessState(pre, sn)`, eventing.py:4202-4224. -/
def RNode.wits (r : RNode) (pre : Id) (sn : Nat) : Except RExn (List Id) :=
  match witState r.node.db pre (backDigs r.node.db pre sn) with
  | .ok w => .ok w
  | .error _ => .error .attribute

/-- eventing.py:4494-4523, one couple of a receipt of the stored event `e`. -/
def cigarStep (env : Env) (lax isLocal : Bool) (x : Rct) (e : Event) (r : RNode) (c : Cigar) : ROut :=
  if env.transferable c.key then (r, .ok ())
  else if ownBad lax isLocal r.node c.key x.pre then (r, .ok ())
  else if !env.verify c.key c.raw e then (r, .ok ())
  else match r.wits x.pre x.sn with
    | .error y => (r, .error y)
    | .ok ws =>
      if c.key ∈ ws then
        match mkWig c.raw (ws.idxOf c.key) with
        | none => (r, .error .value)
        | some s => (r.addWig x.pre x.said s, .ok ())
      else (r.addRct x.pre x.said c, .ok ())

/-- eventing.py:4526-4552, one indexed witness signature of a receipt of the stored event `e`. -/
def wigerStep (env : Env) (lax isLocal : Bool) (x : Rct) (e : Event) (ws : List Id) (r : RNode) (s : Sig) : ROut :=
  match ws[s.index]? with
  | none => (r, .ok ())
  | some w =>
    if !env.okKey w then (r, .error .validation)
    else if env.transferable w then (r, .ok ())
    else if ownBad lax isLocal r.node w x.pre then (r, .ok ())
    else if env.verify w s.raw e then (r.addWig x.pre x.said s, .ok ())
    else (r, .ok ())

/-- Signatures of a group (4593-4603, 4650-4660, 4988-5001): stored under `k` when they verify over `e`; one that does not verify is
passed over or, when `strict`, ends the loop with ValidationError. -/
def sigStep (env : Env) (strict : Bool) (e : Event) (keys : List Id) (k : VKey) (r : RNode) (s : Sig) : ROut :=
  match keys[s.index]? with
  | none => (r, .error .validation)
  | some v =>
    if env.verify v s.raw e then (r.addVrc k s, .ok ())
    else if strict then (r, .error .validation) else (r, .ok ())

/-- eventing.py:4554-4603 and 4605-4660, one group of a receipt of the stored event `e`; `ldig` is the last digest logged at the
receipt's number. -/
def groupStep (env : Env) (lax isLocal : Bool) (x : Rct) (e : Event) (ldig : Dig) (r : RNode) (g : Group) : ROut :=
  if ownBad lax isLocal r.node g.pre x.pre then (r, .error .validation)
  else match (r.node.db.kels g.pre g.sn).getLast? with
    | none => (r.escrowT x g, .error .unverifiedTrans)
    | some sdig => match r.node.db.evts g.pre sdig with
      | none => (r, .error .attribute)
      | some se =>
        if se.said ≠ g.said then (r, .error .validation)
        else if verfers se = [] then (r, .error .validation)
        else loop (sigStep env false e (verfers se) ⟨x.pre, ldig, g.pre, g.sn, g.said⟩) r g.sigs

/-- eventing.py:4444-4680 `processReceipt`. The receipted event is fetched by the receipt's own digest. -/
def RNode.receipt (env : Env) (lax isLocal : Bool) (r : RNode) (x : Rct) (cigars : List Cigar) (wigers : List Sig)
    (tsgs rsgs : List Group) : ROut :=
  match (r.node.db.kels x.pre x.sn).getLast? with
  | some ldig => match r.node.db.evts x.pre x.said with
    | none => (r, .error .attribute)
    | some e =>
      if e.said ≠ x.said then (r, .error .validation)
      else match loop (cigarStep env lax isLocal x e) r cigars with
        | (r, .error y) => (r, .error y)
        | (r, .ok ()) => match r.wits x.pre x.sn with
          | .error y => (r, .error y)
          | .ok ws => match loop (wigerStep env lax isLocal x e ws) r wigers with
            | (r, .error y) => (r, .error y)
            | (r, .ok ()) => loop (groupStep env lax isLocal x e ldig) r (tsgs ++ rsgs)
  | none => ((((r.escrowU env x cigars).escrowTs x tsgs).escrowUW x wigers), .error .unverifiedReceipt)

/-- eventing.py:4859-4862, 4934-4938: digest of the event by first-seen ordinal when one is given, else last at its number. -/
def ldigOf (r : RNode) (e : Event) : Option Nat → Option Dig
  | some fn => (r.node.db.fels e.pre)[fn]?
  | none => (r.node.db.kels e.pre e.sn).getLast?

/-- eventing.py:4878-4905, one couple attached to the event `e`. The test `rpre in wits` compares a text with `Prefixer` objects, so
it fails always and the couple is stored as an ordinary receipt. -/
def attStep (env : Env) (lax isLocal : Bool) (e : Event) (ldig : Dig) (r : RNode) (c : Cigar) : ROut :=
  if env.transferable c.key then (r, .ok ())
  else if ownBad lax isLocal r.node c.key e.pre then (r, .ok ())
  else if !env.verify c.key c.raw e then (r, .ok ())
  else match r.wits e.pre e.sn with
    | .error y => (r, .error y)
    | .ok _ => (r.addRct e.pre ldig c, .ok ())

/-- eventing.py:4828-4905 `processAttachedReceiptCouples`. -/
def RNode.couples (env : Env) (lax isLocal : Bool) (r : RNode) (e : Event) (fn : Option Nat) (cigars : List Cigar) : ROut :=
  match ldigOf r e fn with
  | none => (r.escrowU env ⟨e.pre, e.sn, e.said⟩ cigars, .error .unverifiedReceipt)
  | some ldig =>
    if e.said ≠ ldig then (r, .error .validation)
    else loop (attStep env lax isLocal e ldig) r cigars

/-- eventing.py:4940-5031, one group attached to the event `e`. -/
def attGroupStep (env : Env) (lax isLocal : Bool) (e : Event) (ldig : Option Dig) (r : RNode) (g : Group) : ROut :=
  if ownBad lax isLocal r.node g.pre e.pre then (r, .error .validation)
  else match ldig, r.node.kevers g.pre with
    | some ldig, some _ =>
      if e.said ≠ ldig then (r, .error .validation)
      else match (r.node.db.kels g.pre g.sn).getLast? with
        | none => (r.escrowT ⟨e.pre, e.sn, e.said⟩ g, .error .unverifiedTrans)
        | some sdig => match r.node.db.evts g.pre sdig with
          | none => (r, .error .attribute)
          | some se =>
            if se.said ≠ g.said then (r, .error .validation)
            else if verfers se = [] then (r, .error .validation)
            else loop (sigStep env true e (verfers se) ⟨e.pre, e.said, g.pre, g.sn, g.said⟩) r g.sigs
    | _, _ => (r.escrowT ⟨e.pre, e.sn, e.said⟩ g, .error .unverifiedTrans)

/-- eventing.py:4908-5031 `processAttachedReceiptSigGroups`. -/
def RNode.groups (env : Env) (lax isLocal : Bool) (r : RNode) (e : Event) (fn : Option Nat) (gs : List Group) : ROut :=
  loop (attGroupStep env lax isLocal e (ldigOf r e fn)) r gs

/-! ## Escrow passes -/

/-- eventing.py:7131-7167, witnesses of an event waiting for witness signatures; `none` when there is no key state to compute them
from. All errors lead to removal of the entry. -/
def pendingWits (n : Node) (e : Event) : Except RExn (Option (List Id)) :=
  match e.ilk with
  | .icp | .dip => if (oset e.wits).length ≠ e.wits.length then .error .validation else .ok (some e.wits)
  | .rot | .drt => match n.kevers e.pre with
    | none => .ok none
    | some k =>
      if (oset e.cuts).length ≠ e.cuts.length then .error .validation
      else if !Kel.cutsOk k.wits e.cuts then .error .validation
      else if (oset e.adds).length ≠ e.adds.length then .error .validation
      else if e.cuts.any (fun c => decide (c ∈ e.adds)) then .error .validation
      else if k.wits.any (fun w => decide (w ∈ e.adds)) then .error .validation
      else .ok (some (ioPut ((oset k.wits).filter (fun w => !decide (w ∈ e.cuts))) e.adds))
  | _ => match n.kevers e.pre with
    | none => .error .key
    | some k => .ok (some k.wits)

/-- eventing.py:7097-7199 `_processEscrowFindUnver`: looks for the event `d` among those waiting for witness signatures at (pre, sn)
(a set, so at most one entry matches). `none`: not found, the caller goes on; `some s`: the witness signature to be stored. -/
def findUnver (env : Env) (n : Node) (pre : Id) (sn : Nat) (d : Dig) (m : Cigar ⊕ Sig) : Except RExn (Option Sig) :=
  if (pre, sn, d) ∈ n.db.pwes then
    match n.db.evts pre d with
    | none => .error .attribute
    | some e => match pendingWits n e with
      | .error y => .error y
      | .ok none => .ok none
      | .ok (some ws) => match m with
        | .inl c =>
          if c.key ∈ ws then
            match mkWig c.raw (ws.idxOf c.key) with
            | none => .error .value
            | some s => if env.verify c.key c.raw e then .ok (some s) else .error .validation
          else .ok none
        | .inr s => match ws[s.index]? with
          | none => .error .validation
          | some w => if !env.okKey w then .error .validation
            else if env.verify w s.raw e then .ok (some s) else .error .validation
  else .ok none

/-- Outcome of looking at an escrow entry. -/
inductive Act where
  | keep | drop | wig (s : Sig) | rct | vrc
  deriving DecidableEq

/-- Take an entry out of `ures`. -/
def RNode.remU (r : RNode) (x : Entry Cigar) : RNode := { r with store := { r.store with ures := entRem r.store.ures x } }
/-- Take an entry out of `uwes`. -/
def RNode.remW (r : RNode) (x : Entry Sig) : RNode := { r with store := { r.store with uwes := entRem r.store.uwes x } }
/-- Take an entry out of `vres`. -/
def RNode.remV (r : RNode) (x : Entry Chit) : RNode := { r with store := { r.store with vres := entRem r.store.vres x } }

/-- eventing.py:6681-6737, what happens to one entry of `uwes`. -/
def actW (env : Env) (n : Node) (stale : Bool) (x : Entry Sig) : Act :=
  if stale then .drop
  else match findUnver env n x.pre x.sn x.said (.inr x.mat) with
    | .error _ => .drop
    | .ok none => .keep
    | .ok (some s) => .wig s

/-- eventing.py:6785-6889, what happens to one entry of `ures`. -/
def actU (env : Env) (n : Node) (stale : Bool) (x : Entry Cigar) : Act :=
  if stale then .drop
  else match findUnver env n x.pre x.sn x.said (.inl x.mat) with
    | .error _ => .drop
    | .ok (some s) => .wig s
    | .ok none => match (n.db.kels x.pre x.sn).getLast? with
      | none => .keep
      | some d => match n.db.evts x.pre d with
        | none => .drop
        | some e =>
          if x.said ≠ e.said then .drop
          else if !env.verify x.mat.key x.mat.raw e then .drop
          else match n.kevers e.pre with
            | none => .keep
            | some k =>
              if x.mat.key ∈ k.wits then
                match mkWig x.mat.raw (k.wits.idxOf x.mat.key) with
                | none => .drop
                | some s => .wig s
              else .rct

/-- eventing.py:7248-7358, what happens to one entry of `vres`. -/
def actV (env : Env) (n : Node) (stale : Bool) (x : Entry Chit) : Act :=
  if stale then .drop
  else match (n.db.kels x.pre x.sn).getLast? with
    | none => .keep
    | some d => match n.db.evts x.pre d with
      | none => .drop
      | some e =>
        if x.said ≠ e.said then .drop
        else match (n.db.kels x.mat.rpre x.mat.rsn).getLast? with
          | none => .keep
          | some sdig => match n.db.evts x.mat.rpre sdig with
            | none => .drop
            | some se =>
              if se.said ≠ x.mat.rdig then .drop
              else match (verfers se)[x.mat.sig.index]? with
                | none => .drop
                | some v => if env.verify v x.mat.sig.raw e then .vrc else .drop

/-- One entry of a pass over `uwes`, eventing.py:6634-6737. -/
def RNode.stepW (env : Env) (stale : Bool) (r : RNode) (x : Entry Sig) : RNode :=
  match actW env r.node stale x with
  | .keep => r
  | .wig s => (r.addWig x.pre x.said s).remW x
  | _ => r.remW x

/-- One entry of a pass over `ures`, eventing.py:6739-6889. -/
def RNode.stepU (env : Env) (stale : Bool) (r : RNode) (x : Entry Cigar) : RNode :=
  match actU env r.node stale x with
  | .keep => r
  | .wig s => (r.addWig x.pre x.said s).remU x
  | .rct => (r.addRct x.pre x.said x.mat).remU x
  | _ => r.remU x

/-- One entry of a pass over `vres`, eventing.py:7201-7362. -/
def RNode.stepV (env : Env) (stale : Bool) (r : RNode) (x : Entry Chit) : RNode :=
  match actV env r.node stale x with
  | .keep => r
  | .vrc => (r.addVrc ⟨x.pre, x.said, x.mat.rpre, x.mat.rsn, x.mat.rdig⟩ x.mat.sig).remV x
  | _ => r.remV x

/-- A pass over the entries present at its start. -/
def RNode.passU (env : Env) (stale : Entry Cigar → Bool) (r : RNode) : RNode :=
  r.store.ures.foldl (fun r x => r.stepU env (stale x) x) r
/-- A pass over the entries present at its start. -/
def RNode.passW (env : Env) (stale : Entry Sig → Bool) (r : RNode) : RNode :=
  r.store.uwes.foldl (fun r x => r.stepW env (stale x) x) r
/-- A pass over the entries present at its start (the code looks at the entries of the last key a second time, which is the same
as a further step on each of them). -/
def RNode.passV (env : Env) (stale : Entry Chit → Bool) (r : RNode) : RNode :=
  r.store.vres.foldl (fun r x => r.stepV env (stale x) x) r

/-! ## Histories -/

/-- Inputs: those of a node, receipts in the three forms they arrive in, and one step of an escrow pass on any entry of it. -/
inductive RInp where
  | kel (i : Inp)
  | receipt (lax isLocal : Bool) (x : Rct) (cigars : List Cigar) (wigers : List Sig) (tsgs rsgs : List Group)
  | couples (lax isLocal : Bool) (e : Event) (fn : Option Nat) (cigars : List Cigar)
  | groups (lax isLocal : Bool) (e : Event) (fn : Option Nat) (gs : List Group)
  | stepU (stale : Bool) (x : Entry Cigar)
  | stepW (stale : Bool) (x : Entry Sig)
  | stepV (stale : Bool) (x : Entry Chit)

/-- Effect of an input. A step of a pass concerns an entry present in the escrow. -/
def RNode.step (env : Env) (r : RNode) : RInp → RNode
  | .kel i => { r with node := r.node.step env i }
  | .receipt lax l x cs ws ts gs => (r.receipt env lax l x cs ws ts gs).1
  | .couples lax l e fn cs => (r.couples env lax l e fn cs).1
  | .groups lax l e fn gs => (r.groups env lax l e fn gs).1
  | .stepU b x => if x ∈ r.store.ures then r.stepU env b x else r
  | .stepW b x => if x ∈ r.store.uwes then r.stepW env b x else r
  | .stepV b x => if x ∈ r.store.vres then r.stepV env b x else r

/-- A node before any input. -/
def RNode.start (prefixes groups : List Id) (mid : Id → Option Id) : RNode :=
  { node := Node.start prefixes groups mid,
    store := { rcts := fun _ _ => [], vrcs := fun _ => [], ures := [], uwes := [], vres := [] } }

/-- A history run. -/
def RNode.run (env : Env) (r : RNode) (h : List RInp) : RNode := h.foldl (fun r i => r.step env i) r

/-- The event carried by an input, if any. -/
def RInp.delivers : RInp → Option Event
  | .kel i => i.delivers
  | .couples _ _ e _ _ => some e
  | .groups _ _ e _ _ => some e
  | _ => none

end Verif.Rct
