import Verif.Thold.Model

/-!
# Model of key event processing: `Kever` and `Kevery.processEvent` (src/keri/core/eventing.py)

Identifiers, public keys and digests are opaque values compared for equality (`Nat` stands for the qualified text). A
non-transferable identifier is its own public key (eventing.py:2841 `Verfer(qb64=wit)`), so identifiers and keys share one
type.  Cryptography is a parameter (`Env`): `verify` is signature verification over the raw event, `commits` is "the digest
of this key under the digest's own code equals this digest".  No assumption about either is built into the model.

Not modelled: log output, cues (notifications), date-times (`dtss`, `dater`), the clone options (`firner`, `dater`,
`cloned`), the `check=True` mode, ordinals above `MaxON` in database keys.  A sub-database is a total function from its key to
its content; that the LMDB layer implements such functions is the subject of `Verif.Db`.
-/

namespace Verif.Kel

open Verif.Thold (Thold)

abbrev Id := Nat
abbrev Dig := Nat

/-- Message types of key events (`Ilks`); every other type is `other`. -/
inductive Ilk where
  | icp | dip | rot | drt | ixn | other
  deriving DecidableEq, Repr

/-- structing `SealEvent(i, s, d)`, with `s` the number whose canonical lower case hex text is the field. -/
structure Seal where
  pre : Id
  sn : Nat
  said : Dig
  deriving DecidableEq

/-- A key event (`SerderKERI`, serdering.py:2290-2590). Fields of other ilks are ignored by the code. `seals` are the members of
"a" that have the shape of an event seal with canonical `s`; `anchors` tells whether "a" is non-empty. `kt`/`nt` are the
parsed thresholds (`Tholder(sith=…)`, see `Verif.Thold`). `said` is the digest carried by and checked for the event. -/
structure Event where
  ilk : Ilk
  pre : Id
  sn : Nat
  said : Dig
  prior : Dig
  keys : List Id
  kt : Thold
  ndigs : List Dig
  nt : Thold
  toad : Nat
  wits : List Id
  cuts : List Id
  adds : List Id
  estOnly : Bool
  doNotDelegate : Bool
  delpre : Option Id
  seals : List Seal
  anchors : Bool
  deriving DecidableEq

/-- An indexed signature (`Siger`): code, index, optional second index, raw signature. Two sigers have the same qb64 exactly
when all four agree. -/
structure Sig where
  code : Nat
  index : Nat
  ondex : Option Nat
  raw : Nat
  deriving DecidableEq

/-- Source seal couple of a delegation: sequence number and digest of the delegating event. -/
abbrev Couple := Nat × Dig

/-- Cryptography and code tables.
* `verify k s e`: `Verfer(k).verify(s, e.raw)`
* `commits k d`: `Diger(ser=k, code=d.code).qb64 == d.qb64`, eventing.py:2988-2989
* `transferable`: `Prefixer.transferable`, `okPre`: `Prefixer(qb64=pre)` succeeds, `okKey`: `Verfer(qb64=…)` succeeds. -/
structure Env where
  verify : Id → Nat → Event → Bool
  commits : Id → Dig → Bool
  transferable : Id → Bool
  okPre : Id → Bool
  okKey : Id → Bool

/-- Exceptions, by class. -/
inductive Exn where
  | validation | value | key | attribute | index
  | outOfOrder | missingSignature | missingWitness | missingDelegation | missingApproval | misfit | likelyDuplicitous
  deriving DecidableEq, Repr

/-- Key state held by a `Kever` (eventing.py:1940-2005) and written to `.states` (3915-3947, 2301-2333). `ilk` and `serder` are
those of the last accepted event; `lastS`, `lastD` is `.lastEst`. -/
structure Kever where
  pre : Id
  sn : Nat
  fn : Nat
  serder : Event
  ilk : Ilk
  kt : Thold
  keys : List Id
  ndigs : List Dig
  nt : Thold
  toad : Nat
  wits : List Id
  cuts : List Id
  adds : List Id
  estOnly : Bool
  doNotDelegate : Bool
  lastS : Nat
  lastD : Dig
  delpre : Option Id
  deriving DecidableEq

/-- The sub-databases used (basing.py:929-990). `kels`: (pre, sn) ↦ digests in insertion order; `fels`: pre ↦ digests by
first-seen ordinal; escrows are lists of (pre, sn, digest) in key order. -/
structure Db where
  kels : Id → Nat → List Dig
  fels : Id → List Dig
  evts : Id → Dig → Option Event
  sigs : Id → Dig → List Sig
  wigs : Id → Dig → List Sig
  wits : Id → Dig → List Id
  aess : Id → Dig → Option Couple
  udes : Id → Dig → Option Couple
  fons : Id → Dig → Option Nat
  esrs : Id → Dig → Option Bool
  states : Id → Option Kever
  ooes : List (Id × Nat × Dig)
  pses : List (Id × Nat × Dig)
  pwes : List (Id × Nat × Dig)
  pdes : List (Id × Nat × Dig)
  misfits : List (Id × Nat × Dig)
  delegables : List (Id × Nat × Dig)

/-- Empty database. -/
def Db.empty : Db :=
  { kels := fun _ _ => [], fels := fun _ => [], evts := fun _ _ => none, sigs := fun _ _ => [], wigs := fun _ _ => [],
    wits := fun _ _ => [], aess := fun _ _ => none, udes := fun _ _ => none, fons := fun _ _ => none,
    esrs := fun _ _ => none, states := fun _ => none, ooes := [], pses := [], pwes := [], pdes := [], misfits := [],
    delegables := [] }

/-- A node: database, key states in memory (`db.kevers`), own identifiers (`db.prefixes`), group identifiers (`db.groups`) and
the local member of each group (`db.habs[pre].mid`). -/
structure Node where
  db : Db
  kevers : Id → Option Kever
  prefixes : List Id
  groups : List Id
  mid : Id → Option Id

/-- Point update of a function of one argument. -/
def upd {α β} [DecidableEq α] (f : α → β) (a : α) (v : β) : α → β := fun x => if x = a then v else f x

/-- Point update of a function of two arguments. -/
def upd2 {α β γ} [DecidableEq α] [DecidableEq β] (f : α → β → γ) (a : α) (b : β) (v : γ) : α → β → γ :=
  fun x y => if x = a ∧ y = b then v else f x y

/-- Insertion ordered set: `add` of one value. -/
def ioAdd {α} [DecidableEq α] (l : List α) (v : α) : List α := if v ∈ l then l else l ++ [v]

/-- Insertion ordered set: `put` of several values, in order. -/
def ioPut {α} [DecidableEq α] (l : List α) (vs : List α) : List α := vs.foldl ioAdd l

/-- `oset(l)` as a list: first occurrences in order. -/
def oset {α} [DecidableEq α] (l : List α) : List α := ioPut [] l

/-- `(oset(l) & oset(cuts)) == oset(cuts)`: the intersection has the order of the first set, and equality of two `oset` minds the order (package ordered_set). -/
def cutsOk {α} [DecidableEq α] (l cuts : List α) : Bool := decide ((oset l).filter (fun w => decide (w ∈ cuts)) = oset cuts)

/-- Key order of escrow entries: by identifier, then by number. -/
def escLt (a b : Id × Nat × Dig) : Bool := decide (a.1 < b.1) || (decide (a.1 = b.1) && decide (a.2.1 < b.2.1))

/-- Insert after all entries with a key not greater. -/
def escIns (x : Id × Nat × Dig) : List (Id × Nat × Dig) → List (Id × Nat × Dig)
  | [] => [x]
  | y :: ys => if escLt x y then x :: y :: ys else y :: escIns x ys

/-- `.add` on an escrow sub-database: no change when the entry exists already. -/
def escAdd (l : List (Id × Nat × Dig)) (x : Id × Nat × Dig) : List (Id × Nat × Dig) := if x ∈ l then l else escIns x l

/-! ## Database writes of escrows and logs -/

/-- `esrs` update: put when missing, upgrade remote to local, eventing.py:3661-3668 and in every escrow method. -/
def Db.esr (db : Db) (e : Event) (isLocal : Bool) : Db :=
  match db.esrs e.pre e.said with
  | none => { db with esrs := upd2 db.esrs e.pre e.said (some isLocal) }
  | some old => if isLocal && !old then { db with esrs := upd2 db.esrs e.pre e.said (some true) } else db

/-- `evts.put`: no overwriting. -/
def Db.putEvt (db : Db) (e : Event) : Db :=
  match db.evts e.pre e.said with
  | none => { db with evts := upd2 db.evts e.pre e.said (some e) }
  | some _ => db

/-- `sigs.put`. -/
def Db.putSigs (db : Db) (e : Event) (ss : List Sig) : Db :=
  { db with sigs := upd2 db.sigs e.pre e.said (ioPut (db.sigs e.pre e.said) ss) }

/-- `wigs.put`. -/
def Db.putWigs (db : Db) (e : Event) (ws : List Sig) : Db :=
  { db with wigs := upd2 db.wigs e.pre e.said (ioPut (db.wigs e.pre e.said) ws) }

/-- `wits.put`. -/
def Db.putWits (db : Db) (e : Event) (ws : List Id) : Db :=
  { db with wits := upd2 db.wits e.pre e.said (ioPut (db.wits e.pre e.said) ws) }

/-- `udes.put`: no overwriting; nothing when no couple is given. -/
def Db.putUde (db : Db) (e : Event) (c : Option Couple) : Db :=
  match c, db.udes e.pre e.said with
  | some c, none => { db with udes := upd2 db.udes e.pre e.said (some c) }
  | _, _ => db

/-- `udes.pin` or `udes.rem`, eventing.py:3884-3893. -/
def Db.pinUde (db : Db) (e : Event) (c : Option Couple) : Db := { db with udes := upd2 db.udes e.pre e.said c }

/-- The writes common to all escrow methods. -/
def Db.escBase (db : Db) (e : Event) (ss ws : List Sig) (isLocal : Bool) : Db :=
  ((((db.esr e isLocal).putSigs e ss).putWigs e ws).putEvt e)

/-- eventing.py:5731-5764 `escrowOOEvent`. -/
def Db.escrowOO (db : Db) (e : Event) (ss ws : List Sig) (c : Option Couple) (isLocal : Bool) : Db :=
  let db := (db.escBase e ss ws isLocal).putUde e c
  { db with ooes := escAdd db.ooes (e.pre, e.sn, e.said) }

/-- eventing.py:3698-3734 `escrowMFEvent`. -/
def Db.escrowMF (db : Db) (e : Event) (ss ws : List Sig) (c : Option Couple) (isLocal : Bool) : Db :=
  let db := (db.escBase e ss ws isLocal).putUde e c
  { db with misfits := escAdd db.misfits (e.pre, e.sn, e.said) }

/-- eventing.py:3771-3810 `escrowPSEvent`. -/
def Db.escrowPS (db : Db) (e : Event) (ss ws : List Sig) (c : Option Couple) (isLocal : Bool) : Db :=
  let db := (db.escBase e ss ws isLocal).putUde e c
  { db with pses := escAdd db.pses (e.pre, e.sn, e.said) }

/-- eventing.py:3813-3852 `escrowPWEvent`. -/
def Db.escrowPW (db : Db) (e : Event) (ss ws : List Sig) (c : Option Couple) (isLocal : Bool) : Db :=
  let db := (db.escBase e ss ws isLocal).putUde e c
  { db with pwes := escAdd db.pwes (e.pre, e.sn, e.said) }

/-- eventing.py:3855-3912 `escrowPDEvent`: the couple is pinned, or removed when not given. -/
def Db.escrowPD (db : Db) (e : Event) (ss ws : List Sig) (c : Option Couple) (isLocal : Bool) : Db :=
  let db := (db.escBase e ss ws isLocal).pinUde e c
  { db with pdes := escAdd db.pdes (e.pre, e.sn, e.said) }

/-- eventing.py:3737-3768 `escrowDelegableEvent`. -/
def Db.escrowDelegable (db : Db) (e : Event) (ss ws : List Sig) (isLocal : Bool) : Db :=
  let db := db.escBase e ss ws isLocal
  { db with delegables := escAdd db.delegables (e.pre, e.sn, e.said) }

/-- eventing.py:5789-5816 `escrowLDEvent`: after storing source, signatures and event it calls `self.db.addLde`, which no
database class defines, so the entry is never written and the call ends in AttributeError. -/
def Db.escrowLD (db : Db) (e : Event) (ss : List Sig) : Db := ((db.esr e true).putSigs e ss).putEvt e

/-! ## Locality, eventing.py:2170-2299 -/

/-- eventing.py:2170-2186 `locallyOwned`. -/
def Node.owned (n : Node) (pre : Id) : Bool := decide (pre ∈ n.prefixes) && !decide (pre ∈ n.groups)

/-- eventing.py:2189-2244 `locallyDelegated`. -/
def Node.delegated (n : Node) : Option Id → Bool
  | none => false
  | some p => decide (p ∈ n.prefixes)

/-- eventing.py:2247-2263 `locallyWitnessed(wits=wits)`: an empty list falls back to the current witnesses of the Kever. -/
def Node.witnessed (n : Node) (k : Kever) (wits : List Id) : Bool :=
  (if wits = [] then k.wits else wits).any (fun w => decide (w ∈ n.prefixes))

/-- eventing.py:2266-2280 `locallyMembered`. -/
def Node.membered (n : Node) (pre : Id) : Bool := decide (pre ∈ n.groups)

/-- eventing.py:2283-2298 `locallyContributedIndices`: missing hab record, missing member Kever, member without keys, member's
first key not in the list raise. -/
def Node.contributed (n : Node) (pre : Id) (keys : List Id) : Except Exn (List Nat) :=
  match n.mid pre with
  | none => .error .attribute
  | some m =>
    match n.kevers m with
    | none => .error .key
    | some k =>
      match k.keys with
      | [] => .error .index
      | key :: _ => if key ∈ keys then .ok [keys.idxOf key] else .error .value

/-! ## Signatures -/

/-- eventing.py:316-359 `verifySigs`: unique by qb64, index in range, verifying. The positions are `map Sig.index` of it. -/
def verifySigs (env : Env) (e : Event) (ss : List Sig) (keys : List Id) : List Sig :=
  (oset ss).filter fun s => match keys[s.index]? with
    | none => false
    | some k => env.verify k s.raw e

/-- eventing.py:2949-2992 `exposeds`: the second indices whose committed digest is that of the signing key. The signing key is
the one at the first index (assigned by `verifySigs`). -/
def exposeds (env : Env) (ndigs : List Dig) (keys : List Id) (ss : List Sig) : List Nat :=
  ss.filterMap fun s => match s.ondex with
    | none => none
    | some o => match ndigs[o]?, keys[s.index]? with
      | some d, some k => if env.commits k d then some o else none
      | _, _ => none

/-! ## Validation of one event -/

/-- eventing.py:2157-2167 `transferable`. -/
def Kever.transferable (env : Env) (k : Kever) : Bool := !k.ndigs.isEmpty && env.transferable k.pre

/-- Bounds of the witness threshold, eventing.py:2380-2388, 2675-2684. -/
def toadOk (toad : Nat) (wits : List Id) : Bool :=
  if wits = [] then decide (toad = 0) else decide (1 ≤ toad) && decide (toad ≤ wits.length)

/-- eventing.py:2337-2404 `incept` and 2407-2422 `config` (with the class defaults `EstOnly = DoNotDelegate = False`): the key
state of an inception, or an error. `delpre` is set by 2091-2092 to the delegator that `valSigsWigsDel` returns. -/
def incept (env : Env) (e : Event) : Except Exn Kever :=
  if e.sn ≠ 0 then .error .validation
  else if !e.keys.all env.okKey then .error .validation
  else if e.keys.length < Thold.size e.kt then .error .validation
  else if !env.transferable e.pre && !e.ndigs.isEmpty then .error .validation
  else if !env.transferable e.pre && !e.wits.isEmpty then .error .validation
  else if (oset e.wits).length ≠ e.wits.length then .error .validation
  else if !toadOk e.toad e.wits then .error .value
  else if !env.transferable e.pre && e.anchors then .error .validation
  else .ok
    { pre := e.pre, sn := e.sn, fn := 0, serder := e, ilk := e.ilk, kt := e.kt, keys := e.keys, ndigs := e.ndigs,
      nt := e.nt, toad := e.toad, wits := e.wits, cuts := [], adds := [], estOnly := e.estOnly,
      doNotDelegate := e.doNotDelegate, lastS := e.sn, lastD := e.said,
      delpre := if e.ilk = .dip then e.delpre else none }

/-- eventing.py:2689-2735 `deriveBacks`: new witnesses, cuts and adds. -/
def deriveBacks (k : Kever) (e : Event) : Except Exn (List Id × List Id × List Id) :=
  if (e.ilk ≠ .rot ∧ e.ilk ≠ .drt) ∨ k.sn ≥ e.sn then .ok (k.wits, k.cuts, k.adds)
  else if (oset e.cuts).length ≠ e.cuts.length then .error .validation
  else if !cutsOk k.wits e.cuts then .error .validation
  else if (oset e.adds).length ≠ e.adds.length then .error .validation
  else if e.cuts.any (fun c => decide (c ∈ e.adds)) then .error .validation
  else if k.wits.any (fun w => decide (w ∈ e.adds)) then .error .validation
  else
    let wits := ioPut ((oset k.wits).filter (fun w => !decide (w ∈ e.cuts))) e.adds
    if (wits.length : Int) ≠ (k.wits.length : Int) - e.cuts.length + e.adds.length then .error .validation
    else .ok (wits, e.cuts, e.adds)

/-- Where a rotation attaches, eventing.py:2609-2659 (first part of `rotate`). -/
def rotatePrior (db : Db) (k : Kever) (e : Event) : Except Exn Unit :=
  if e.sn > k.sn + 1 then .error .validation
  else if e.sn ≤ k.sn then
    if (e.ilk = .rot ∧ e.sn ≤ k.lastS) ∨ (e.ilk = .drt ∧ e.sn < k.lastS) then .error .validation
    else if e.ilk = .rot ∧ k.ilk ≠ .ixn then .error .validation
    else if e.sn = 0 then .error .validation
    else match (db.kels e.pre (e.sn - 1)).getLast? with
      | none => .error .validation
      | some pdig => match db.evts e.pre pdig with
        | none => .error .validation
        | some ps => if ps.said ≠ e.prior then .error .validation else .ok ()
  else if k.serder.said ≠ e.prior then .error .validation else .ok ()

/-- eventing.py:2588-2686 `rotate`: witnesses, cuts, adds of the provisional state. Fetching "the event at sn -1" when `sn = 0`
finds nothing. -/
def rotate (env : Env) (db : Db) (k : Kever) (e : Event) : Except Exn (List Id × List Id × List Id) :=
  match rotatePrior db k e with
  | .error x => .error x
  | .ok () =>
    if k.ndigs = [] then .error .validation
    else if e.keys.length < Thold.size e.kt then .error .validation
    else match deriveBacks k e with
      | .error x => .error x
      | .ok (wits, cuts, adds) =>
        if !toadOk e.toad wits then .error .value
        else if !e.keys.all env.okKey then .error .validation
        else .ok (wits, cuts, adds)

/-- MaxON, 256^16 - 1. -/
def maxON : Nat := 256 ^ 16 - 1

/-- basing.py:2067-2083 `fullyWitnessed`: stored witness signatures against the current witness threshold. -/
def Node.fullyWitnessed (n : Node) (e : Event) : Bool :=
  match n.kevers e.pre with
  | none => false
  | some k => decide (k.toad ≤ (n.db.wigs e.pre e.said).length)

/-- basing.py:2150-2173 `getEvtLastPreIter`: the last event at each number from 0 while numbers are occupied. `fuel` bounds the
walk by the number of occupied positions; the walk stops at the first empty one (on.getLastIter walks stored keys, and stored
keys of a log are contiguous). -/
def lastEvents (db : Db) (pre : Id) : Nat → Nat → List Event
  | 0, _ => []
  | fuel + 1, sn =>
    match (db.kels pre sn).getLast? with
    | none => []
    | some d => match db.evts pre d with
      | none => lastEvents db pre fuel (sn + 1)
      | some e => e :: lastEvents db pre fuel (sn + 1)

/-- basing.py:1968-2002 `fetchLastSealingEventByEventSeal`. The walk visits at most as many numbers as there are first-seen
events. -/
def Node.findSeal (n : Node) (pre : Id) (s : Seal) : Option Event :=
  (lastEvents n.db pre (n.db.fels pre).length 0).find? fun e => decide (s ∈ e.seals) && n.fullyWitnessed e

/-- Arguments of `valSigsWigsDel` and `validateDelegation` that describe the message and the provisional state. -/
structure Ctx where
  k : Kever
  e : Event
  sigs : List Sig
  wigs : List Sig
  wits : List Id
  couple : Option Couple
  eager : Bool
  isLocal : Bool

/-- Event seal of an event. -/
def sealOf (e : Event) : Seal := ⟨e.pre, e.sn, e.said⟩

/-- eventing.py:3487-3604 `fetchDelegatingEvent(delpre, serder, original=True, eager)`. -/
def Node.fetchDelegating (n : Node) (dp : Id) (e : Event) (eager : Bool) : Db × Except Exn (Option Event) :=
  match n.db.aess e.pre e.said with
  | some (_, dd) =>
    match n.db.fons dp dd with
    | none => ({ n.db with aess := upd2 n.db.aess e.pre e.said none }, .ok none)
    | some _ => match n.db.evts dp dd with
      | none => (n.db, .error .validation)
      | some de => (n.db, .ok (some de))
  | none =>
    if eager then
      match n.findSeal dp (sealOf e) with
      | none => (n.db, .error .validation)
      | some de =>
        match n.db.fons e.pre e.said with
        | none => (n.db, .ok (some de))
        | some _ => ({ n.db with aess := upd2 n.db.aess e.pre e.said (some (de.sn, de.said)) }, .ok (some de))
    else (n.db, .ok none)

/-- Result of locating the delegating event: the event and its couple, or the final outcome. eventing.py:3297-3390. -/
def Node.locateSeal (n : Node) (c : Ctx) (dp : Id) : Db × Except Exn Event :=
  match c.couple with
  | none =>
    match (if c.eager then n.findSeal dp (sealOf c.e) else none) with
    | some de => (n.db, .ok de)
    | none => (n.db.escrowPD c.e c.sigs c.wigs none c.isLocal, .error .missingDelegation)
  | some (s, d) =>
    if s > maxON ∨ s < 1 then (n.db, .error .validation)
    else match (n.db.kels dp s).getLast? with
      | none =>
        if c.e.sn > maxON then (n.db, .error .validation)
        else (n.db.escrowPD c.e c.sigs c.wigs (some (s, d)) c.isLocal, .error .missingDelegation)
      | some dd =>
        match n.db.evts dp dd with
        | none => (n.db, .error .validation)
        | some de =>
          if sealOf c.e ∈ de.seals then (n.db, .ok de)
          else (n.db.escrowPD c.e c.sigs c.wigs none c.isLocal, .error .missingDelegation)

/-- eventing.py:2995-3484 `validateDelegation`. In the superseding loop (3426-3482) `bossn.sn > bosso.sn` returns; otherwise
`bossn.Ilk` is evaluated, and no serder has that attribute, so the call ends in AttributeError and the loop never repeats. -/
def Node.validateDelegation (n : Node) (c : Ctx) (delpre : Option Id) : Db × Except Exn (Option Couple) :=
  match delpre with
  | none => (n.db, .ok none)
  | some dp =>
    if n.owned c.k.pre || n.membered c.k.pre || n.witnessed c.k c.wits then (n.db, .ok none)
    else match n.kevers dp with
      | none => (n.db.escrowPD c.e c.sigs c.wigs c.couple c.isLocal, .error .missingDelegation)
      | some dk =>
        if dk.doNotDelegate then (n.db, .error .validation)
        else match n.locateSeal c dp with
          | (db, .error x) => (db, .error x)
          | (_, .ok de) =>
            if c.e.ilk = .dip ∨ c.e.sn = c.k.sn + 1 ∨ (c.e.sn = c.k.sn ∧ c.k.ilk = .ixn ∧ c.e.ilk = .drt) then
              (n.db, .ok (some (de.sn, de.said)))
            else match n.fetchDelegating dp c.k.serder c.eager with
              | (db, .error x) => (db, .error x)
              | (db, .ok none) =>
                (db.escrowPD c.e c.sigs c.wigs (some (de.sn, de.said)) c.isLocal, .error .missingDelegation)
              | (db, .ok (some bo)) =>
                if de.sn > bo.sn then (db, .ok (some (de.sn, de.said))) else (db, .error .attribute)

/-- eventing.py:2784-2806: threshold size, removal of locally contributed signatures of remote messages, verification, at least
one verified signature. -/
def Node.checkSigs (env : Env) (n : Node) (k : Kever) (e : Event) (ss : List Sig) (keys : List Id) (kt : Thold)
    (isLocal : Bool) : Except Exn (List Sig) :=
  if keys.length < Thold.size kt then .error .validation
  else
    match (if !isLocal && n.membered k.pre then n.contributed k.pre keys else .ok []) with
    | .error x => .error x
    | .ok idx =>
      let vs := verifySigs env e (ss.filter fun s => !decide (s.index ∈ idx)) keys
      if vs = [] then .error .validation else .ok vs

/-- eventing.py:2815-2825: delegator of the event. -/
def delegator (k : Kever) (e : Event) : Except Exn (Option Id) :=
  match e.ilk with
  | .dip => match e.delpre with
    | none => .error .validation
    | some p => .ok (some p)
  | .drt => .ok k.delpre
  | _ => .ok none

/-- What acceptance needs from validation: verified signatures and witness signatures and the delegation couple. -/
structure Verified where
  sigs : List Sig
  wigs : List Sig
  couple : Option Couple

/-- eventing.py:2884-2943: witness threshold, delegable approval, delegation. -/
def Node.checkWitDel (n : Node) (c : Ctx) (toad : Nat) (delpre : Option Id) : Db × Except Exn Verified :=
  if c.wits = [] ∧ toad ≠ 0 then (n.db, .error .validation)
  else if c.wits ≠ [] ∧ !(n.owned c.k.pre || n.membered c.k.pre || n.witnessed c.k c.wits) ∧
      !(decide (1 ≤ toad) && decide (toad ≤ c.wits.length)) then (n.db, .error .validation)
  else if c.wits ≠ [] ∧ !(n.owned c.k.pre || n.membered c.k.pre || n.witnessed c.k c.wits) ∧
      (c.wigs.map Sig.index).length < toad then
    (n.db.escrowPW c.e c.sigs c.wigs c.couple c.isLocal, .error .missingWitness)
  else if (c.e.ilk = .dip ∨ c.e.ilk = .drt) ∧ n.delegated delpre ∧ !n.owned c.k.pre ∧ c.couple = none then
    (n.db.escrowDelegable c.e c.sigs c.wigs c.isLocal, .error .missingApproval)
  else match n.validateDelegation c delpre with
    | (db, .error x) => (db, .error x)
    | (db, .ok couple) => (db, .ok ⟨c.sigs, c.wigs, couple⟩)

/-- eventing.py:2739-2946 `valSigsWigsDel`. `keys`, `kt`, `toad`, `wits` are the key list, signing threshold, witness threshold
and witnesses authoritative for the event. -/
def Node.valSigsWigsDel (env : Env) (n : Node) (k : Kever) (e : Event) (ss ws : List Sig) (keys : List Id) (kt : Thold)
    (toad : Nat) (wits : List Id) (couple : Option Couple) (eager isLocal : Bool) : Db × Except Exn Verified :=
  match n.checkSigs env k e ss keys kt isLocal with
  | .error x => (n.db, .error x)
  | .ok vs =>
    match delegator k e with
    | .error x => (n.db, .error x)
    | .ok delpre =>
      if !isLocal && (n.owned k.pre || n.witnessed k wits || n.delegated delpre) then
        (n.db.escrowMF e vs ws couple isLocal, .error .misfit)
      else if !wits.all env.okKey then (n.db, .error .validation)
      else
        let vw := verifySigs env e ws wits
        if !Thold.satisfy kt (vs.map Sig.index) then
          (n.db.escrowPS e vs vw couple isLocal, .error .missingSignature)
        else if (e.ilk = .rot ∨ e.ilk = .drt) ∧ !Thold.satisfy k.nt (exposeds env k.ndigs keys vs) then
          (n.db.escrowPS e vs vw couple isLocal, .error .missingSignature)
        else n.checkWitDel ⟨k, e, vs, vw, wits, couple, eager, isLocal⟩ toad delpre

/-! ## Logging and acceptance -/

/-- Authorizer seal, eventing.py:3655-3657. `k` is the Kever before its state is updated. -/
def Node.logAes (n : Node) (k : Kever) (e : Event) (wits : List Id) (couple : Option Couple) (db : Db) : Db :=
  match couple with
  | none => db
  | some c =>
    if k.delpre.isSome && decide (e.ilk ≠ .ixn) && !n.owned k.pre && !n.witnessed k wits then
      { db with aess := upd2 db.aess e.pre e.said (some c) }
    else db

/-- The writes of `logEvent` in order, eventing.py:3634-3690. `first` appends to the first-seen log. -/
def Node.logWrites (n : Node) (k : Kever) (e : Event) (ss ws : List Sig) (wits : List Id) (first : Bool)
    (couple : Option Couple) (isLocal : Bool) : List (Db → Db) :=
  [fun db => db.putSigs e ss, fun db => db.putWigs e ws, fun db => db.putWits e wits, fun db => db.putEvt e,
   fun db => n.logAes k e wits couple db, fun db => db.esr e isLocal] ++
  (if first then
    [fun db : Db => { db with fels := upd db.fels e.pre (db.fels e.pre ++ [e.said]) },
     fun db : Db => { db with fons := upd2 db.fons e.pre e.said (some ((db.fels e.pre).length - 1)) }] else []) ++
  [fun db => { db with kels := upd2 db.kels e.pre e.sn (ioAdd (db.kels e.pre e.sn) e.said) }]

/-- eventing.py:3607-3695 `logEvent`. -/
def Node.logEvent (n : Node) (k : Kever) (e : Event) (ss ws : List Sig) (wits : List Id) (first : Bool)
    (couple : Option Couple) (isLocal : Bool) : Db :=
  (n.logWrites k e ss ws wits first couple isLocal).foldl (fun db w => w db) n.db

/-- `states.pin`, eventing.py:2107, 2531, 2576. -/
def Db.pinState (db : Db) (k : Kever) : Db := { db with states := upd db.states k.pre (some k) }

/-- A processed message leaves a node and either succeeds or raises. -/
abbrev Out := Node × Except Exn Unit

/-- eventing.py:2069-2108 `Kever.__init__` and 4284 `self.kevers[pre] = kever`. `isLocal` as given. -/
def Node.inception (env : Env) (n : Node) (e : Event) (ss ws : List Sig) (couple : Option Couple)
    (eager isLocal : Bool) : Out :=
  if ss = [] then (n, .error .value)
  else match incept env e with
    | .error x => (n, .error x)
    | .ok k =>
      match n.valSigsWigsDel env k e ss ws e.keys e.kt e.toad e.wits couple eager isLocal with
      | (db, .error x) => ({ n with db := db }, .error x)
      | (db, .ok v) =>
        let n1 := { n with db := db }
        let k1 := { k with fn := (db.fels e.pre).length }
        let db2 := n1.logEvent k e v.sigs v.wigs e.wits true v.couple isLocal
        ({ n1 with db := db2.pinState k1, kevers := upd n.kevers e.pre (some k1) }, .ok ())

/-- eventing.py:2507-2531, key state after a rotation. -/
def Kever.rotated (k : Kever) (e : Event) (fn : Nat) (wits cuts adds : List Id) : Kever :=
  { k with sn := e.sn, fn := fn, serder := e, ilk := e.ilk, kt := e.kt, keys := e.keys, ndigs := e.ndigs, nt := e.nt,
           toad := e.toad, wits := wits, cuts := cuts, adds := adds, lastS := e.sn, lastD := e.said }

/-- eventing.py:2571-2576, key state after an interaction. -/
def Kever.interacted (k : Kever) (e : Event) (fn : Nat) : Kever :=
  { k with sn := e.sn, fn := fn, serder := e, ilk := e.ilk }

/-- eventing.py:2470-2533 `update`, rotation branch. -/
def Node.updateRot (env : Env) (n : Node) (k : Kever) (e : Event) (ss ws : List Sig) (couple : Option Couple)
    (eager isLocal : Bool) : Out :=
  if k.delpre.isSome ∧ e.ilk ≠ .drt then (n, .error .validation)
  else match rotate env n.db k e with
    | .error x => (n, .error x)
    | .ok (wits, cuts, adds) =>
      match n.valSigsWigsDel env k e ss ws e.keys e.kt e.toad wits couple eager isLocal with
      | (db, .error x) => ({ n with db := db }, .error x)
      | (db, .ok v) =>
        let n1 := { n with db := db }
        let k1 := k.rotated e (db.fels e.pre).length wits cuts adds
        let db2 := n1.logEvent k e v.sigs v.wigs wits true v.couple isLocal
        ({ n1 with db := db2.pinState k1, kevers := upd n.kevers e.pre (some k1) }, .ok ())

/-- eventing.py:2536-2580 `update`, interaction branch: keys, thresholds and witnesses of the current state; `logEvent` is
called without `wits`, couple and `local` (default True). -/
def Node.updateIxn (env : Env) (n : Node) (k : Kever) (e : Event) (ss ws : List Sig) (eager isLocal : Bool) : Out :=
  if k.estOnly then (n, .error .validation)
  else if e.sn ≠ k.sn + 1 then (n, .error .validation)
  else if k.serder.said ≠ e.prior then (n, .error .validation)
  else match n.valSigsWigsDel env k e ss ws k.keys k.kt k.toad k.wits none eager isLocal with
    | (db, .error x) => ({ n with db := db }, .error x)
    | (db, .ok v) =>
      let n1 := { n with db := db }
      let k1 := k.interacted e (db.fels e.pre).length
      let db2 := n1.logEvent k e v.sigs v.wigs [] true none true
      ({ n1 with db := db2.pinState k1, kevers := upd n.kevers e.pre (some k1) }, .ok ())

/-- eventing.py:2425-2585 `update`. -/
def Node.update (env : Env) (n : Node) (k : Kever) (e : Event) (ss ws : List Sig) (couple : Option Couple)
    (eager isLocal : Bool) : Out :=
  if !k.transferable env then (n, .error .validation)
  else if e.pre ≠ k.pre then (n, .error .validation)
  else match e.ilk with
    | .rot => n.updateRot env k e ss ws couple eager isLocal
    | .drt => n.updateRot env k e ss ws couple eager isLocal
    | .ixn => n.updateIxn env k e ss ws eager isLocal
    | _ => (n, .error .validation)

/-- Establishment event ilks. -/
def Ilk.est : Ilk → Bool
  | .icp | .dip | .rot | .drt => true
  | _ => false

/-- eventing.py:5664-5690 `fetchEstEvent(pre, sn)`. The next number looked at comes from the event found (its own `s` minus
one); `fuel` bounds the number of steps. -/
def fetchEst (db : Db) (pre : Id) : Nat → Nat → Option Event
  | 0, _ => none
  | fuel + 1, sn =>
    match (db.kels pre sn).getLast? with
    | none => none
    | some d => match db.evts pre d with
      | none => none
      | some e =>
        if e.ilk.est then some e
        else if e.sn = 0 then none
        else fetchEst db pre fuel (e.sn - 1)

/-- Backward walk over all events of a log from `sn`, eventing.py:4218 `kels.getBackIter`. -/
def backDigs (db : Db) (pre : Id) : Nat → List Dig
  | 0 => (db.kels pre 0).reverse
  | sn + 1 => (db.kels pre (sn + 1)).reverse ++ backDigs db pre sn

/-- eventing.py:4202-4224 `fetchWitnessState`: witnesses stored for the nearest establishment event (superseded ones
included); a missing body raises AttributeError. -/
def witState (db : Db) (pre : Id) : List Dig → Except Exn (List Id)
  | [] => .ok []
  | d :: ds => match db.evts pre d with
    | none => .error .attribute
    | some e => if e.ilk.est then .ok (db.wits pre d) else witState db pre ds

/-- eventing.py:4318-4342, an inception for a known identifier. -/
def Node.reIncept (env : Env) (n : Node) (k : Kever) (e : Event) (ss ws : List Sig) : Out :=
  if e.sn ≠ 0 then (n, .error .value)
  else match fetchEst n.db e.pre (e.sn + 1) e.sn with
    | none => (n, .error .attribute)
    | some es =>
      if es.said = e.said then
        let vs := verifySigs env e ss es.keys
        let vw := verifySigs env e ws es.wits
        if vs ≠ [] ∨ vw ≠ [] then ({ n with db := n.logEvent k e vs vw [] false none true }, .ok ()) else (n, .ok ())
      else ({ n with db := n.db.escrowLD e ss }, .error .attribute)

/-- eventing.py:4407-4441, an event at an occupied position that is not a recovery. -/
def Node.reEvent (env : Env) (n : Node) (k : Kever) (e : Event) (ss ws : List Sig) : Out :=
  if (n.db.kels e.pre e.sn).getLast? = some e.said then
    match fetchEst n.db e.pre (e.sn + 1) e.sn with
    | none => (n, .error .attribute)
    | some es =>
      let vs := verifySigs env e ss es.keys
      match witState n.db e.pre (backDigs n.db e.pre e.sn) with
      | .error x => (n, .error x)
      | .ok wits =>
        if !wits.all env.okKey then (n, .error .validation)
        else
          let vw := verifySigs env e ws wits
          if vs ≠ [] ∨ vw ≠ [] then ({ n with db := n.logEvent k e vs vw [] false none true }, .ok ()) else (n, .ok ())
  else ({ n with db := n.db.escrowLD e ss }, .error .attribute)

/-- eventing.py:4227-4441 `Kevery.processEvent`. -/
def Node.processEvent (env : Env) (n : Node) (e : Event) (ss ws : List Sig) (couple : Option Couple)
    (eager isLocal : Bool) : Out :=
  if !env.okPre e.pre then (n, .error .validation)
  else match n.kevers e.pre with
    | none =>
      if e.ilk = .icp ∨ e.ilk = .dip then n.inception env e ss ws couple eager isLocal
      else ({ n with db := n.db.escrowOO e ss ws couple isLocal }, .error .outOfOrder)
    | some k =>
      if e.ilk = .icp ∨ e.ilk = .dip then n.reIncept env k e ss ws
      else if e.sn > k.sn + 1 then ({ n with db := n.db.escrowOO e ss ws couple isLocal }, .error .outOfOrder)
      else if e.sn = k.sn + 1 ∨ (e.ilk = .rot ∧ k.lastS < e.sn ∧ e.sn ≤ k.sn + 1) ∨
          (e.ilk = .drt ∧ k.lastS ≤ e.sn ∧ e.sn ≤ k.sn + 1) then
        n.update env k e ss ws couple eager isLocal
      else n.reEvent env k e ss ws

end Verif.Kel
