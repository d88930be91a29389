import Verif.Kel.Run

/-!
# Model of transaction event logs: `Tever`, `Tevery` and `Reger` (src/keri/vdr/eventing.py 637-2167)

Registries of credentials. Registry events (vcp, vrt) and credential events (iss, rev, bis, brv) are accepted when the identifier that
controls the registry seals them in its key event log; the key event logs are those of a node of `Verif.Kel`.

Not modelled: cues, log output, date-times (`tets`, field dt), version and nonce fields, the trait EO (kept by the code but used nowhere),
the reply routes for state notices (1634-1922; acceptance of replies is the subject of `Verif.Rpy`), queries, ordinals above `MaxON`.
Sequence number texts are canonical, so that comparing texts is comparing numbers.
-/

namespace Verif.Tel

open Verif.Kel (Id Dig Sig Couple Event Node Inp upd upd2 ioPut oset escAdd)

/-- Message types of transaction events; every other type is `other`. -/
inductive TIlk where
  | vcp | vrt | iss | rev | bis | brv | other
  deriving DecidableEq, Repr

/-- A transaction event (`SerderKERI`). Fields: t, i, s, d, p; `issuer` is "ii", `baks` "b", `toad` "bt", `noBackers` tells whether
"c" has the trait NB, `cuts` "br", `adds` "ba", `ri` "ri", `raI` and `raD` are "i" and "d" of "ra". Fields of other ilks are ignored. -/
structure TEvt where
  ilk : TIlk
  pre : Id
  sn : Nat
  said : Dig
  prior : Dig
  issuer : Id
  baks : List Id
  toad : Nat
  noBackers : Bool
  cuts : List Id
  adds : List Id
  ri : Id
  raI : Id
  raD : Dig
  deriving DecidableEq

/-- What `verifyAnchor` sees in field "a" of a key event: a list that does not have exactly one member, one member with fields i, s
and d, or one member that lacks one of them. -/
inductive Anc where
  | notOne | one (pre : Id) (sn : Nat) (said : Dig) | odd
  deriving DecidableEq

/-- Cryptography and code tables: those of key events, the shape of an event's anchors, signatures of backers over transaction events. -/
structure TEnv where
  kel : Kel.Env
  anc : Event → Anc
  bverify : Id → Nat → TEvt → Bool

/-- Exceptions by class. -/
inductive TExn where
  | validation | value | attribute | key | outOfOrder | likelyDuplicitous | missingAnchor | missingWitness | missingEntry
  deriving DecidableEq, Repr

/-- State of a registry in memory, eventing.py:667-855. `pre` is the controlling identifier, `isLocal` is `.local`. -/
structure Tever where
  pre : Id
  regk : Id
  sn : Nat
  serder : TEvt
  ilk : TIlk
  toad : Nat
  baks : List Id
  noBackers : Bool
  isLocal : Bool
  deriving DecidableEq

/-- State of a registry as stored (`RegStateRecord`), eventing.py:762-791. -/
structure TState where
  pre : Id
  regk : Id
  sn : Nat
  said : Dig
  ilk : TIlk
  toad : Nat
  baks : List Id
  noBackers : Bool
  deriving DecidableEq

/-- The sub-databases of `Reger` used here (2297-2312), the registries in memory (`tevers`) and the own ones (`registries`).
`tels`: entries (ordinal, digest) in order of ordinals. -/
structure Reger where
  tvts : Id → Dig → Option TEvt
  tels : Id → List (Nat × Dig)
  ancs : Id → Dig → Option Couple
  tibs : Id → Dig → List Sig
  baks : Id → Dig → List Id
  oots : List (Id × Nat × Dig)
  taes : List (Id × Nat × Dig)
  twes : List (Id × Nat × Dig)
  states : Id → Option TState
  tevers : Id → Option Tever
  registries : List Id

/-- A node with registries. -/
structure TNode where
  node : Node
  reg : Reger

/-- State reached and how it ended. -/
abbrev TOut (α : Type) := Reger × Except TExn α

/-- `OnSuber.put`: no overwriting, entries stay in order of ordinals. -/
def telPut : List (Nat × Dig) → Nat → Dig → List (Nat × Dig)
  | [], on, d => [(on, d)]
  | x :: xs, on, d => if on < x.1 then (on, d) :: x :: xs else if on = x.1 then x :: xs else x :: telPut xs on d

/-- `OnSuber.get`. -/
def telGet (l : List (Nat × Dig)) (on : Nat) : Option Dig := (l.find? (fun x => decide (x.1 = on))).map (·.2)

/-- `tvts.put`: no overwriting. -/
def Reger.putTvt (r : Reger) (e : TEvt) : Reger :=
  match r.tvts e.pre e.said with
  | none => { r with tvts := upd2 r.tvts e.pre e.said (some e) }
  | some _ => r

/-- `ancs.put`: no overwriting. -/
def Reger.putAnc (r : Reger) (e : TEvt) (c : Couple) : Reger :=
  match r.ancs e.pre e.said with
  | none => { r with ancs := upd2 r.ancs e.pre e.said (some c) }
  | some _ => r

/-- `tibs.pin` when there are signatures (1229-1230, 1357-1358, 1381-1382). -/
def Reger.pinTibs (r : Reger) (e : TEvt) (bigers : List Sig) : Reger :=
  if bigers = [] then r else { r with tibs := upd2 r.tibs e.pre e.said bigers }

/-- `baks.rem` and `baks.put` when there are backers (1231-1233, 1383-1385). -/
def Reger.pinBaks (r : Reger) (e : TEvt) (baks : List Id) : Reger :=
  if baks = [] then r else { r with baks := upd2 r.baks e.pre e.said (oset baks) }

/-- eventing.py:1208-1239 `logEvent`. -/
def Reger.logEvent (r : Reger) (e : TEvt) (c : Couple) (bigers : List Sig) (baks : List Id) : Reger :=
  let r := (((r.putAnc e c).pinTibs e bigers).pinBaks e baks).putTvt e
  { r with tels := upd r.tels e.pre (telPut (r.tels e.pre) e.sn e.said) }

/-- eventing.py:1345-1362 `escrowPWEvent`. -/
def Reger.escrowPW (r : Reger) (e : TEvt) (c : Couple) (bigers : List Sig) : Reger :=
  let r := ((r.putAnc e c).pinTibs e bigers).putTvt e
  { r with twes := escAdd r.twes (e.pre, e.sn, e.said) }

/-- eventing.py:1364-1390 `escrowALEvent`. -/
def Reger.escrowAL (r : Reger) (e : TEvt) (c : Option Couple) (bigers : List Sig) (baks : List Id) : Reger :=
  let r := match c with
    | some c => r.putAnc e c
    | none => r
  let r := ((r.pinTibs e bigers).pinBaks e baks).putTvt e
  { r with taes := escAdd r.taes (e.pre, e.sn, e.said) }

/-- eventing.py:1945-1966 `escrowOOEvent`: without a source seal the attribute `sn` of None raises after the event is stored. -/
def Reger.escrowOO (r : Reger) (e : TEvt) (c : Option Couple) : TOut Unit :=
  let r := r.putTvt e
  match c with
  | none => (r, .error .attribute)
  | some c =>
    let r := r.putAnc e c
    ({ r with oots := escAdd r.oots (e.pre, e.sn, e.said) }, .error .outOfOrder)

/-- eventing.py:1299-1343 `verifyAnchor` for a registry controlled by `iss`. -/
def verifyAnchor (env : TEnv) (n : Node) (iss : Id) (e : TEvt) : Option Couple → Except TExn Bool
  | none => .ok false
  | some (s, d) => match (n.db.kels iss s).getLast? with
    | none => .ok false
    | some dig => match n.db.evts iss dig with
      | none => .ok false
      | some x =>
        if x.said ≠ d then .ok false
        else match env.anc x with
          | .notOne => .ok false
          | .odd => .error .key
          | .one p q y => .ok (decide (p = e.pre ∧ q = e.sn ∧ y = e.said))

/-- eventing.py:316-359 `verifySigs` over a transaction event. -/
def verifyBigs (env : TEnv) (e : TEvt) (bigers : List Sig) (baks : List Id) : List Sig :=
  (oset bigers).filter (fun s => match baks[s.index]? with
    | none => false
    | some v => env.bverify v s.raw e)

/-- eventing.py:1241-1297 `valAnchorBigs` for registry `regk` of `iss`: the verified signatures and the source seal. The first
alternative of the condition at 1281 does not occur since `regk` is always given. -/
def valAnchorBigs (env : TEnv) (n : Node) (r : Reger) (iss regk : Id) (isLocal : Bool) (e : TEvt) (c : Option Couple)
    (bigers : List Sig) (toad : Nat) (baks : List Id) : TOut (Couple × List Sig) :=
  if !baks.all env.kel.okKey then (r, .error .value)
  else
    let bs := verifyBigs env e bigers baks
    match verifyAnchor env n iss e c, c with
    | .error x, _ => (r, .error x)
    | .ok true, some c =>
      if baks ≠ [] ∧ isLocal = false ∧ regk ∉ baks then
        if baks.length < toad then (r, .error .validation)
        else if bs.length < toad then (r.escrowPW e c bs, .error .missingWitness)
        else (r, .ok (c, bs))
      else (r, .ok (c, bs))
    | _, c => (r.escrowAL e c bs baks, .error .missingAnchor)

/-- Bounds of the backer threshold, eventing.py:820-828, 994-1002. -/
def toadOk (toad : Nat) (baks : List Id) : Bool :=
  if baks = [] then decide (toad = 0) else decide (1 ≤ toad ∧ toad ≤ baks.length)

/-- `state()`, eventing.py:762-791. -/
def Tever.state (t : Tever) : TState :=
  { pre := t.pre, regk := t.regk, sn := t.sn, said := t.serder.said, ilk := t.ilk, toad := t.toad, baks := t.baks, noBackers := t.noBackers }

/-- `reload`, eventing.py:735-760 and 703-705: `none` when the event of the state is missing. -/
def TState.reload (r : Reger) (s : TState) : Option Tever :=
  match r.tvts s.regk s.said with
  | none => none
  | some e => some { pre := s.pre, regk := s.regk, sn := s.sn, serder := e, ilk := s.ilk, toad := s.toad, baks := s.baks,
                     noBackers := s.noBackers, isLocal := false }

/-- `regk in self.tevers` followed by `self.tevers[regk]`: read through cache, eventing.py:2108-2167. -/
def Reger.fetch (r : Reger) (k : Id) : Reger × Option Tever :=
  match r.tevers k with
  | some t => (r, some t)
  | none => match r.states k with
    | none => (r, none)
    | some s => match s.reload r with
      | none => (r, none)
      | some t => ({ r with tevers := upd r.tevers k (some t) }, some t)

/-- `Tever.__init__` and `tevers[regk] = tever`, eventing.py:667-733, 793-855, 1514-1525, 2137-2139. -/
def Reger.incept (env : TEnv) (n : Node) (r : Reger) (isLocal : Bool) (e : TEvt) (c : Option Couple) (bigers : List Sig) : TOut Unit :=
  if (oset e.baks).length ≠ e.baks.length then (r, .error .validation)
  else if !toadOk e.toad e.baks then (r, .error .validation)
  else match valAnchorBigs env n r e.issuer e.pre isLocal e c bigers e.toad e.baks with
    | (r, .error x) => (r, .error x)
    | (r, .ok (c, bs)) =>
      let r := r.logEvent e c bs e.baks
      let t : Tever := { pre := e.issuer, regk := e.pre, sn := e.sn, serder := e, ilk := .vcp, toad := e.toad, baks := e.baks,
                         noBackers := e.noBackers, isLocal := isLocal }
      ({ r with tevers := upd r.tevers e.pre (some t), states := upd r.states e.pre (some t.state) }, .ok ())

/-- eventing.py:921-1004 `rotate`: the new backers. -/
def Tever.rotate (t : Tever) (e : TEvt) : Except TExn (List Id) :=
  if e.pre ≠ t.regk then .error .validation
  else if e.sn ≠ t.sn + 1 then .error .validation
  else if t.serder.said ≠ e.prior then .error .validation
  else if (oset e.cuts).length ≠ e.cuts.length then .error .validation
  else if !Kel.cutsOk t.baks e.cuts then .error .validation
  else if (oset e.adds).length ≠ e.adds.length then .error .validation
  else if e.cuts.any (fun c => decide (c ∈ e.adds)) then .error .validation
  else if t.baks.any (fun c => decide (c ∈ e.adds)) then .error .validation
  else
    let baks := ioPut ((oset t.baks).filter (fun w => !decide (w ∈ e.cuts))) e.adds
    if baks.length + e.cuts.length ≠ t.baks.length + e.adds.length then .error .validation
    else if !toadOk e.toad baks then .error .validation
    else .ok baks

/-- eventing.py:1392-1422 `getBackerState`: threshold and backers recorded for the registry event the event refers to. -/
def Reger.backerState (r : Reger) (t : Tever) (e : TEvt) : Except TExn (Nat × List Id) :=
  if e.raI ≠ t.regk then .error .validation
  else match r.tvts e.raI e.raD with
    | none => .error .validation
    | some x => match x.ilk with
      | .vcp | .vrt => .ok (x.toad, r.baks e.raI e.raD)
      | _ => .error .key

/-- eventing.py:1045-1051, 1117-1122: simple events need the anchor only. -/
def Reger.simple (env : TEnv) (n : Node) (r : Reger) (t : Tever) (e : TEvt) (c : Option Couple) : TOut Unit :=
  match verifyAnchor env n t.pre e c, c with
  | .error x, _ => (r, .error x)
  | .ok true, some c => (r.logEvent e c [] [], .ok ())
  | _, c => (r.escrowAL e c [] [], .error .missingAnchor)

/-- eventing.py:1058-1066, 1130-1138: events of registries with backers. -/
def Reger.backed (env : TEnv) (n : Node) (r : Reger) (t : Tever) (e : TEvt) (c : Option Couple) (bigers : List Sig) : TOut Unit :=
  match r.backerState t e with
  | .error x => (r, .error x)
  | .ok (toad, baks) => match valAnchorBigs env n r t.pre t.regk t.isLocal e c bigers toad baks with
    | (r, .error x) => (r, .error x)
    | (r, .ok (c, bs)) => (r.logEvent e c bs [], .ok ())

/-- eventing.py:1006-1069 `issue`. -/
def Reger.issue (env : TEnv) (n : Node) (r : Reger) (t : Tever) (e : TEvt) (c : Option Couple) (bigers : List Sig) : TOut Unit :=
  match e.ilk with
  | .iss => if !t.noBackers then (r, .error .validation)
    else if e.ri ≠ t.regk then (r, .error .validation)
    else r.simple env n t e c
  | _ => if t.noBackers then (r, .error .validation) else r.backed env n t e c bigers

/-- eventing.py:1071-1142 `revoke`: the event before it in the log of the same identifier is its prior event. The registry of that event
is not looked at. `.attribute` stands for the TypeError raised by a missing digest in the key. -/
def Reger.revoke (env : TEnv) (n : Node) (r : Reger) (t : Tever) (e : TEvt) (c : Option Couple) (bigers : List Sig) : TOut Unit :=
  match telGet (r.tels e.pre) (e.sn - 1) with
  | none => (r, .error .attribute)
  | some dig => match r.tvts e.pre dig with
    | none => (r, .error .validation)
    | some x =>
      if x.said ≠ e.prior then (r, .error .validation)
      else match e.ilk with
        | .rev => if !t.noBackers then (r, .error .validation) else r.simple env n t e c
        | _ => if t.noBackers then (r, .error .validation) else r.backed env n t e c bigers

/-- eventing.py:857-918 `update`. The stored state is not written. -/
def Reger.update (env : TEnv) (n : Node) (r : Reger) (t : Tever) (e : TEvt) (c : Option Couple) (bigers : List Sig) : TOut Unit :=
  match e.ilk with
  | .vrt =>
    if t.noBackers then (r, .error .validation)
    else match t.rotate e with
      | .error x => (r, .error x)
      | .ok baks => match valAnchorBigs env n r t.pre t.regk t.isLocal e c bigers e.toad baks with
        | (r, .error x) => (r, .error x)
        | (r, .ok (c, bs)) =>
          let t := { t with sn := e.sn, serder := e, ilk := .vrt, toad := e.toad, baks := baks }
          ({ (r.logEvent e c bs baks) with tevers := upd r.tevers t.regk (some t) }, .ok ())
  | .iss | .bis => r.issue env n t e c bigers
  | .rev | .brv => r.revoke env n t e c bigers
  | _ => (r, .error .validation)

/-- eventing.py:1924-1943 `registryKey`. -/
def TEvt.regk (e : TEvt) : Option Id :=
  match e.ilk with
  | .vcp | .vrt => some e.pre
  | .iss | .rev => some e.ri
  | .bis | .brv => some e.raI
  | .other => none

/-- Events that must have number 0, eventing.py:1500-1501. -/
def TIlk.inceptive : TIlk → Bool
  | .vcp | .iss | .bis => true
  | _ => false

/-- `Number(…).validate(inceptive=…)` fails, eventing.py:1501 and 879. -/
def TEvt.badNum (e : TEvt) : Bool := if e.ilk.inceptive then decide (e.sn ≠ 0) else decide (e.sn = 0)

/-- Own registries in remote mode and others in local mode are refused, eventing.py:1503-1511. -/
def Reger.sourceBad (r : Reger) (lax isLocal : Bool) (k : Id) : Bool :=
  !lax && (if isLocal then !decide (k ∈ r.registries) else decide (k ∈ r.registries))

/-- The number the next event of `e`'s log must have, eventing.py:1550-1554. -/
def Reger.nextSn (r : Reger) (t : Tever) (e : TEvt) : Nat := if e.ilk = .vrt then t.sn + 1 else (r.tels e.pre).length

/-- eventing.py:1476-1575 `Tevery.processEvent`. -/
def Reger.processEvent (env : TEnv) (n : Node) (r : Reger) (lax isLocal : Bool) (e : TEvt) (c : Option Couple) (bigers : List Sig) :
    TOut Unit :=
  if !env.kel.okPre e.pre then (r, .error .validation)
  else match e.regk with
  | none => (r, .error .validation)
  | some k =>
    if e.badNum then (r, .error .validation)
    else if r.sourceBad lax isLocal k then (r, .error .value)
    else match r.fetch k with
      | (r, none) => if e.ilk = .vcp then r.incept env n isLocal e c bigers else r.escrowOO e c
      | (r, some t) =>
        if e.ilk = .vcp then (r, .error .likelyDuplicitous)
        else if r.nextSn t e < e.sn then r.escrowOO e c
        else if e.sn = r.nextSn t e then r.update env n t e c bigers
        else (r, .error .likelyDuplicitous)

/-- `rem(keys=pre, on=sn)` without value: all entries at the key go. -/
def remAt (l : List (Id × Nat × Dig)) (p : Id) (s : Nat) : List (Id × Nat × Dig) := l.filter (fun x => !decide (x.1 = p ∧ x.2.1 = s))

/-- One entry of `processEscrowOutOfOrders`, eventing.py:2001-2046. -/
def Reger.stepO (env : TEnv) (n : Node) (lax isLocal : Bool) (r : Reger) (x : Id × Nat × Dig) : Reger :=
  let drop (r : Reger) : Reger := { r with oots := remAt r.oots x.1 x.2.1 }
  match r.tvts x.1 x.2.2, r.ancs x.1 x.2.2 with
  | some e, some c => match r.processEvent env n lax isLocal e (some c) (r.tibs x.1 x.2.2) with
    | (r, .error .outOfOrder) => r
    | (r, _) => drop r
  | _, _ => drop r

/-- One entry of `processEscrowAnchorless`, eventing.py:2059-2104. -/
def Reger.stepA (env : TEnv) (n : Node) (lax isLocal : Bool) (r : Reger) (x : Id × Nat × Dig) : Reger :=
  let drop (r : Reger) : Reger := { r with taes := remAt r.taes x.1 x.2.1 }
  match r.tvts x.1 x.2.2, r.ancs x.1 x.2.2 with
  | none, _ => drop r
  | some _, none => r
  | some e, some c => match r.processEvent env n lax isLocal e (some c) (r.tibs x.1 x.2.2) with
    | (r, .error .missingAnchor) => r
    | (r, _) => drop r

/-- eventing.py:1991-2046; the iteration sees the entries present when it starts. -/
def Reger.passO (env : TEnv) (n : Node) (lax isLocal : Bool) (r : Reger) : Reger := r.oots.foldl (fun r x => r.stepO env n lax isLocal x) r

/-- eventing.py:2048-2104; the iteration sees the entries present when it starts. -/
def Reger.passA (env : TEnv) (n : Node) (lax isLocal : Bool) (r : Reger) : Reger := r.taes.foldl (fun r x => r.stepA env n lax isLocal x) r

/-- Status of a credential as reported by a registry (`VcStateRecord`): number and digest of its last event, type, source seal. -/
structure VcSt where
  sn : Nat
  said : Dig
  regk : Id
  ilk : TIlk
  anchor : Couple
  deriving DecidableEq

/-- eventing.py:1144-1192 `vcState`: the type is derived from the number of events. -/
def Reger.vcState (r : Reger) (t : Tever) (vci : Id) : Except TExn (Option VcSt) :=
  match (r.tels vci).getLast? with
  | none => .ok none
  | some (_, d) => match r.tvts vci d with
    | none => .error .attribute
    | some e =>
      if !t.noBackers && !(e.ilk == .bis || e.ilk == .brv) then .error .key
      else match r.ancs vci d with
        | none => .error .missingEntry
        | some c =>
          let one := decide ((r.tels vci).length = 1)
          .ok (some { sn := (r.tels vci).length - 1, said := d, regk := t.regk, anchor := c,
                      ilk := if t.noBackers then (if one then .iss else .rev) else (if one then .bis else .brv) })

/-! ## Histories -/

/-- Inputs: those of the key event node, a transaction event with its source seal and backer signatures, the two escrow passes, the set of own
registries, and a restart (registries in memory are lost and read again on demand). -/
inductive TInp where
  | kel (i : Inp)
  | tel (lax isLocal : Bool) (e : TEvt) (c : Option Couple) (bigers : List Sig)
  | passO (lax isLocal : Bool)
  | passA (lax isLocal : Bool)
  | own (l : List Id)
  | restart

/-- Effect of an input. -/
def TNode.step (env : TEnv) (t : TNode) : TInp → TNode
  | .kel i => { t with node := t.node.step env.kel i }
  | .tel lax l e c bs => { t with reg := (t.reg.processEvent env t.node lax l e c bs).1 }
  | .passO lax l => { t with reg := t.reg.passO env t.node lax l }
  | .passA lax l => { t with reg := t.reg.passA env t.node lax l }
  | .own l => { t with reg := { t.reg with registries := l } }
  | .restart => { t with reg := { t.reg with tevers := fun _ => none } }

/-- An empty registry database. -/
def Reger.empty : Reger :=
  { tvts := fun _ _ => none, tels := fun _ => [], ancs := fun _ _ => none, tibs := fun _ _ => [], baks := fun _ _ => [], oots := [],
    taes := [], twes := [], states := fun _ => none, tevers := fun _ => none, registries := [] }

/-- A node before any input. -/
def TNode.start (prefixes groups : List Id) (mid : Id → Option Id) : TNode := { node := Node.start prefixes groups mid, reg := Reger.empty }

/-- A history run. -/
def TNode.run (env : TEnv) (t : TNode) (h : List TInp) : TNode := h.foldl (fun t i => t.step env i) t

end Verif.Tel
