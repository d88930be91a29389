import Verif.Kel.Model

/-!
# Model of reply processing (src/keri/core/routing.py `Revery`, and the reply handlers of `Kevery`)

A reply message whose said verifies (routing.py:175-176) is its said, route kind, authorising identifier, the data it is about,
its date-time stamp and its content.  Date-times are numbers in their order.  The database of key events (`View`) may be any at
each step.  Not modelled: routes by text, parsing of the attributes, cues, the oobi record of watcher replies, the registry and
oobi handlers (vdr/eventing.py, app/oobiing.py) that also use `acceptReply`.
-/

namespace Verif.Rpy

open Verif.Kel (Id Dig Sig ioPut oset)
open Verif.Thold (Thold)

/-- Routes `/end/role`, `/loc/scheme`, `/ksn/{aid}` and `/watcher/{aid}`. -/
inductive Kind where
  | endRole | loc | ksn | watched
  deriving DecidableEq

/-- A reply. `aid` is who must have signed it, `key` names the data under that identifier: role and endpoint, scheme, the identifier a
notice is about, watcher and watched. `rest` is the rest of the route, `val` the content (allowed or not, the url, the key state),
`evd` the event digest in a key state notice. -/
structure Rpy where
  said : Dig
  kind : Kind
  aid : Id
  key : Nat
  rest : Nat
  dt : Nat
  val : Nat
  evd : Dig
  deriving DecidableEq

/-- Database key of the data a reply is about. -/
abbrev Slot := Kind × Id × Nat
def Rpy.slot (r : Rpy) : Slot := (r.kind, r.aid, r.key)

/-- Route under which a reply waits: the base route for roles and locations (eventing.py:5128, 5224), else the whole one (5502). -/
abbrev Route := Kind × Nat
def Rpy.route (r : Rpy) : Route :=
  match r.kind with
  | .endRole => (.endRole, 0)
  | .loc => (.loc, 0)
  | k => (k, r.rest)

/-- Last event at a number of an identifier's log: said, keys (empty if not an establishment event) and threshold. -/
structure Est where
  said : Dig
  keys : List Id
  kt : Thold
  deriving DecidableEq

/-- Signature group of a transferable identifier: identifier, number and said of its establishment event, signatures. -/
structure Group where
  pre : Id
  sn : Nat
  dig : Dig
  sigs : List Sig
  deriving DecidableEq

/-- Cryptography. -/
structure Env where
  verify : Id → Nat → Rpy → Bool
  transferable : Id → Bool

/-- Mode of the processor: promiscuous, local, own identifiers. -/
structure Cfg where
  lax : Bool
  isLocal : Bool
  own : List Id

/-- What the rest of the database says while a reply is processed: key event logs, and the two checks of key
state notices: trusted and not behind (eventing.py:5347-5358, an untrusted source raises AttributeError), and no other event accepted
at its number (5371-5381). -/
structure View where
  log : Id → Nat → Option Est
  ksnPre : Rpy → Bool
  ksnPost : Rpy → Bool

/-- Stored replies. `tsgs` lists the groups under a said in key order: by number, then by digest (the identifier is the reply's).
`ans` is eans, lans, knas and wwas, `vals` is ends, locs and obvs, `ksns` the key states by event digest. -/
structure Db where
  sdts : Dig → Option Nat
  rpys : Dig → Option Rpy
  scgs : Dig → List (Id × Nat)
  tsgs : Dig → List ((Nat × Dig) × List Sig)
  rpes : Route → List Dig
  ans : Slot → Option Dig
  vals : Slot → Option Nat
  ksns : Dig → Option Nat

def Db.empty : Db := ⟨fun _ => none, fun _ => none, fun _ => [], fun _ => [], fun _ => [], fun _ => none, fun _ => none, fun _ => none⟩

def upd {α β} [DecidableEq α] (f : α → β) (a : α) (b : β) : α → β := fun x => if x = a then b else f x

inductive Exn where
  | unverified | validation | value
  deriving DecidableEq

/-- Order of group keys. -/
def gLt (a b : Nat × Dig) : Bool := decide (a.1 < b.1) || (decide (a.1 = b.1) && decide (a.2 < b.2))

/-- `tsgs.put(keys=quadkeys, vals=sigers)`. -/
def putGroup (k : Nat × Dig) (ss : List Sig) : List ((Nat × Dig) × List Sig) → List ((Nat × Dig) × List Sig)
  | [] => [(k, oset ss)]
  | (k', s') :: r => if k = k' then (k', ioPut s' ss) :: r else if gLt k k' then (k, oset ss) :: (k', s') :: r else (k', s') :: putGroup k ss r

/-- Common writes of `updateReply` and `escrowReply` (routing.py:459-461, 497-499): first one stays. -/
def Db.putReply (db : Db) (r : Rpy) : Db :=
  { db with sdts := upd db.sdts r.said (some ((db.sdts r.said).getD r.dt)), rpys := upd db.rpys r.said (some ((db.rpys r.said).getD r)) }

/-- routing.py:431-466 `updateReply` with a couple. -/
def Db.updateCig (db : Db) (r : Rpy) (c : Id × Nat) : Db :=
  { db.putReply r with scgs := upd db.scgs r.said (ioPut (db.scgs r.said) [c]) }

/-- routing.py:431-466 `updateReply` with signatures of a group; nothing is stored without signatures. -/
def Db.updateTsg (db : Db) (r : Rpy) (g : Group) (ss : List Sig) : Db :=
  if ss = [] then db.putReply r else { db.putReply r with tsgs := upd db.tsgs r.said (putGroup (g.sn, g.dig) ss (db.tsgs r.said)) }

/-- routing.py:468-479 `removeReply`. -/
def Db.removeReply (db : Db) (s : Option Dig) : Db :=
  match s with
  | none => db
  | some d => { db with tsgs := upd db.tsgs d [], scgs := upd db.scgs d [], rpys := upd db.rpys d none, sdts := upd db.sdts d none }

/-- routing.py:481-502 `escrowReply`. -/
def Db.escrowReply (db : Db) (r : Rpy) (g : Group) (ss : List Sig) : Db :=
  if ss = [] then db
  else { db.putReply r with tsgs := upd db.tsgs r.said (putGroup (g.sn, g.dig) ss (db.tsgs r.said)),
                            rpes := upd db.rpes r.route (ioPut (db.rpes r.route) [r.said]) }

/-- Own attachment on a reply that is not local (routing.py:248-258, 297-304). -/
def skipOwn (cfg : Cfg) (p : Id) : Bool := !cfg.lax && decide (p ∈ cfg.own) && !cfg.isLocal

/-- A couple that is accepted (routing.py:240-294). -/
def cigOk (cfg : Cfg) (env : Env) (r : Rpy) (od : Option Nat) (c : Id × Nat) : Bool :=
  !env.transferable c.1 && !skipOwn cfg c.1 && decide (r.aid = c.1) &&
    (match od with | some d => decide (d < r.dt) | none => true) && env.verify c.1 c.2 r

/-- Staleness of a group (routing.py:316-342); the zeroth group of the old reply counts. -/
def staleTsg (db : Db) (os : Option Dig) (od : Option Nat) (r : Rpy) (g : Group) : Bool :=
  match os with
  | none => false
  | some o => match db.tsgs o with
    | [] => false
    | ((osn, _), _) :: _ => decide (g.sn < osn) || (decide (g.sn = osn) && (match od with | some d => decide (r.dt ≤ d) | none => false))

/-- eventing.py:316-359 `verifySigs` on a reply. -/
def verifySigs (env : Env) (r : Rpy) (ss : List Sig) (keys : List Id) : List Sig :=
  (oset ss).filter fun s => match keys[s.index]? with
    | none => false
    | some k => env.verify k s.raw r

/-- Whether the clean up of lower groups raises (routing.py:405-413): any group it wants to trim raises ValueError for the format
`032h`. The bound `snh` is compared with padded numbers as text, so it excludes all groups when the number is 0 and none otherwise. -/
def trimRaises (db : Db) (r : Rpy) (g : Group) : Bool :=
  decide (g.sn ≠ 0) && (db.tsgs r.said).any (fun x => decide (x.1.1 < g.sn) || (decide (x.1.1 = g.sn) && decide (x.1.2 ≠ g.dig)))

/-- Signatures stored for a group. -/
def Db.groupSigs (db : Db) (d : Dig) (k : Nat × Dig) : List Sig := ((db.tsgs d).find? (fun x => decide (x.1 = k))).elim [] (·.2)

/-- One group (routing.py:296-427). -/
def tsgStep (cfg : Cfg) (env : Env) (v : View) (r : Rpy) (os : Option Dig) (od : Option Nat) (db : Db) (g : Group) : Db × Except Exn Bool :=
  if skipOwn cfg g.pre then (db, .ok false)
  else if r.aid ≠ g.pre then (db, .ok false)
  else if staleTsg db os od r g then (db, .ok false)
  else match v.log g.pre g.sn with
    | none => (db.escrowReply r g g.sigs, .ok false)
    | some est =>
      if est.said ≠ g.dig then (db, .error .validation)
      else if est.keys = [] then (db, .error .validation)
      else if est.keys.length < Thold.size est.kt then (db, .error .validation)
      else
        let ss := verifySigs env r (g.sigs ++ db.groupSigs r.said (g.sn, g.dig)) est.keys
        if ss = [] then (db, .error .validation)
        else if Thold.satisfy est.kt (ss.map Sig.index) then
          let db1 := (db.updateTsg r g ss).removeReply os
          if trimRaises db1 r g then (db1, .error .value) else (db1, .ok true)
        else (db.escrowReply r g ss, .ok false)

/-- The groups in turn (routing.py:296). -/
def tsgLoop (cfg : Cfg) (env : Env) (v : View) (r : Rpy) (os : Option Dig) (od : Option Nat) : List Group → Db → Bool → Db × Except Exn Bool
  | [], db, acc => (db, .ok acc)
  | g :: gs, db, acc => match tsgStep cfg env v r os od db g with
    | (db1, .error e) => (db1, .error e)
    | (db1, .ok b) => tsgLoop cfg env v r os od gs db1 (acc || b)

/-- routing.py:181-429 `acceptReply`. -/
def acceptReply (cfg : Cfg) (env : Env) (v : View) (db : Db) (r : Rpy) (os : Option Dig) (cigs : List (Id × Nat)) (tsgs : List Group) : Db × Except Exn Bool :=
  let od := os.bind db.sdts
  match cigs.find? (cigOk cfg env r od) with
  | some c => tsgLoop cfg env v r os od tsgs ((db.updateCig r c).removeReply os) true
  | none => tsgLoop cfg env v r os od tsgs db false

/-- Said of the old reply: eventing.py:5146-5148, 5246, 5361, 5513; for key state notices the said of an event. -/
def Db.oldSaid (db : Db) (r : Rpy) : Option Dig :=
  match r.kind with
  | .endRole => if db.ans r.slot = some r.said then none else db.ans r.slot
  | _ => db.ans r.slot

/-- eventing.py:5387-5440, 5526-5540 `updateEnd`, `updateLoc`, `updateKeyState`, `updateWatched`. -/
def Db.record (db : Db) (r : Rpy) : Db :=
  match r.kind with
  | .ksn => { db with ans := upd db.ans r.slot (some r.evd), ksns := upd db.ksns r.evd (some r.val) }
  | _ => { db with ans := upd db.ans r.slot (some r.said), vals := upd db.vals r.slot (some r.val) }

/-- eventing.py:5067-5384, 5450-5524 `processReplyEndRole`, `processReplyLocScheme`, `processReplyKeyStateNotice`,
`processReplyAddWatched`. -/
def processReply (cfg : Cfg) (env : Env) (v : View) (db : Db) (r : Rpy) (cigs : List (Id × Nat)) (tsgs : List Group) : Db × Except Exn Unit :=
  if r.kind = .ksn ∧ v.ksnPre r = false then (db, .error .validation)
  else match acceptReply cfg env v db r (db.oldSaid r) cigs tsgs with
    | (db1, .error e) => (db1, .error e)
    | (db1, .ok false) => (db1, .error .unverified)
    | (db1, .ok true) =>
      if r.kind = .ksn ∧ v.ksnPost r = false then (db1, .error .validation) else (db1.record r, .ok ())

/-- Groups stored for a reply, as given to reprocessing (dbing.py:69-107 `fetchTsgs`). -/
def Db.fetchTsgs (db : Db) (r : Rpy) : List Group := (db.tsgs r.said).map fun x => ⟨r.aid, x.1.1, x.1.2, x.2⟩

/-- One escrowed reply (routing.py:511-565). `late` says that the reply's date-time is
more than TimeoutRPE before now. -/
def escrowOne (cfg : Cfg) (env : Env) (v : View) (late : Rpy → Bool) (rt : Route) (db : Db) (d : Dig) : Db × Option Rpy :=
  match db.rpys d, db.sdts d with
  | some r, some _ =>
    if db.tsgs d = [] ∨ late r = true then
      (({ db with rpes := upd db.rpes rt ((db.rpes rt).filter (fun x => decide (x ≠ d))) } : Db).removeReply (some d), none)
    else match processReply cfg env v db r [] (db.fetchTsgs r) with
      | (db1, .ok ()) => ({ db1 with rpes := upd db1.rpes rt ((db1.rpes rt).filter (fun x => decide (x ≠ d))) }, some r)
      | (db1, .error .unverified) => (db1, none)
      | (db1, .error _) => (({ db1 with rpes := upd db1.rpes rt ((db1.rpes rt).filter (fun x => decide (x ≠ d))) } : Db).removeReply (some d), none)
  | _, _ => (({ db with rpes := upd db.rpes rt ((db.rpes rt).filter (fun x => decide (x ≠ d))) } : Db).removeReply (some d), none)

/-- The entries in turn, and the replies accepted. -/
def escrowLoop (cfg : Cfg) (env : Env) (v : View) (late : Rpy → Bool) : List (Route × Dig) → Db → Db × List Rpy
  | [], db => (db, [])
  | (rt, d) :: ds, db =>
    let (db1, o) := escrowOne cfg env v late rt db d
    let (db2, l) := escrowLoop cfg env v late ds db1
    (db2, o.toList ++ l)

/-- routing.py:504-565 `processEscrowReply`: the entries there at the beginning (the iterator reads a snapshot), route by route.
`routes` are the routes in text order; here they may be any list. -/
def processEscrow (cfg : Cfg) (env : Env) (v : View) (late : Rpy → Bool) (routes : List Route) (db : Db) : Db × List Rpy :=
  escrowLoop cfg env v late (routes.flatMap fun rt => (db.rpes rt).map fun d => (rt, d)) db

/-- What happens to a node: a reply arrives, or the escrow is processed; the rest of the database is as `View` says. -/
inductive Step where
  | deliver (v : View) (r : Rpy) (cigs : List (Id × Nat)) (tsgs : List Group)
  | escrows (v : View) (late : Rpy → Bool) (routes : List Route)

/-- One step and the replies accepted in it, in order. -/
def step (cfg : Cfg) (env : Env) (db : Db) : Step → Db × List Rpy
  | .deliver v r cigs tsgs => match processReply cfg env v db r cigs tsgs with
    | (db1, .ok ()) => (db1, [r])
    | (db1, .error _) => (db1, [])
  | .escrows v late routes => processEscrow cfg env v late routes db

/-- A history and the replies accepted in it, in order. -/
def run (cfg : Cfg) (env : Env) : Db → List Step → Db × List Rpy
  | db, [] => (db, [])
  | db, s :: ss => let (db1, l) := step cfg env db s; let (db2, l') := run cfg env db1 ss; (db2, l ++ l')

end Verif.Rpy
