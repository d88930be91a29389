import Verif.Krm.Tab

/-!
# Endpoints (src/keri/app/habbing.py, src/keri/core/eventing.py)

Who serves an identifier in which role (`db.ends`, keys cid, role, eid), where it is found (`db.locs`, keys eid, scheme), and what is told of that to
others. Identifiers are an opaque type. The parts of a key are joined by a dot, and entries are looked up by what a joined key starts with. Texts of
identifiers of different codes are never the start of one another, hence they are compared whole here; names of schemes are compared as the code does.
Entries are listed in the order in which they were first written, the code has the order of keys; where it matters the statement says so.
-/

namespace Verif.Ends

open Verif.Krm

/-- kering.py:375 `Schemes`. -/
inductive Scheme where
  | tcp | http | https
  deriving DecidableEq

/-- kering.py:375: the texts. -/
def Scheme.name : Scheme → List Char
  | .tcp => ['t', 'c', 'p']
  | .http => ['h', 't', 't', 'p']
  | .https => ['h', 't', 't', 'p', 's']

/-- kering.py:378-381 `Roles`. -/
inductive Role where
  | controller | witness | registrar | gateway | watcher | judge | juror | peer | mailbox | agent | indexer
  deriving DecidableEq

/-- recording.py `EndpointRecord`; `None` is false. -/
structure Ender where
  enabled : Bool
  allowed : Bool
  deriving DecidableEq

variable {Id Url : Type} [DecidableEq Id]

/-- The databases that are looked at. `locs`: `none` is the empty URL. `wits`: the witnesses in the key state of an identifier that is known
(`kevers`). -/
structure Db (Id Url : Type) where
  ends : Tab (Id × Role × Id) Ender
  locs : Tab (Id × Scheme) (Option Url)
  wits : Id → Option (List Id)

/-! ## Replies accepted -/

/-- What replies accepted say: a role is added or cut, a location is set (`none` for the empty URL). -/
inductive Rep (Id Url : Type) where
  | role (cid : Id) (r : Role) (eid : Id) (add : Bool)
  | loc (eid : Id) (s : Scheme) (url : Option Url)

/-- eventing.py:5387-5402 `updateEnd` of `db.ends`; the reply itself (`eans`) is not held here, there is one for every entry. -/
def updateEnd (db : Db Id Url) (cid : Id) (r : Role) (eid : Id) (allowed : Bool) : Db Id Url :=
  match Tab.get db.ends (cid, r, eid) with
  | some e => { db with ends := Tab.pin db.ends (cid, r, eid) { e with allowed := allowed } }
  | none => { db with ends := Tab.pin db.ends (cid, r, eid) ⟨false, allowed⟩ }

/-- eventing.py:5405-5419 `updateLoc` of `db.locs`, as `updateEnd`. -/
def updateLoc (db : Db Id Url) (eid : Id) (s : Scheme) (url : Option Url) : Db Id Url :=
  { db with locs := Tab.pin db.locs (eid, s) url }

/-- A reply accepted; which are is the subject of `Verif.Rpy`. -/
def apply (db : Db Id Url) : Rep Id Url → Db Id Url
  | .role cid r eid add => updateEnd db cid r eid add
  | .loc eid s url => updateLoc db eid s url

/-- Replies accepted one after another, from empty databases. -/
def run (wits : Id → Option (List Id)) (h : List (Rep Id Url)) : Db Id Url := h.foldl apply ⟨[], [], wits⟩

/-! ## Looking up -/

/-- habbing.py:1931-1946 `fetchEndAllowed`. -/
def fetchEndAllowed (db : Db Id Url) (cid : Id) (r : Role) (eid : Id) : Option Bool := (Tab.get db.ends (cid, r, eid)).map (·.allowed)

/-- habbing.py:1967-1982 `fetchEndAuthzed`. -/
def fetchEndAuthzed (db : Db Id Url) (cid : Id) (r : Role) (eid : Id) : Option Bool :=
  (Tab.get db.ends (cid, r, eid)).map (fun e => e.enabled || e.allowed)

/-- habbing.py:1985-1996 `fetchUrl`: outer `none` without a record, inner `none` for the empty URL. -/
def fetchUrl (db : Db Id Url) (eid : Id) (s : Scheme) : Option (Option Url) := Tab.get db.locs (eid, s)

/-- subing.py:296-338 with the keys of habbing.py:2014: does the key of a scheme start with the text asked for; `none` is the empty text. -/
def starts : Option Scheme → Scheme → Bool
  | none, _ => true
  | some s, t => s.name.isPrefixOf t.name

/-- habbing.py:1999-2014 `fetchUrls`; every key is there once, hence `firsts()` of it is the same. -/
def fetchUrls (db : Db Id Url) (eid : Id) (s : Option Scheme) : List (Scheme × Url) :=
  db.locs.filterMap (fun e => if e.1.1 = eid && starts s e.1.2 then e.2.map (fun u => (e.1.2, u)) else none)

/-- `not eids or eid in eids` (habbing.py:2044, 2052, 2454, 2464). -/
def among (eids : List Id) (eid : Id) : Bool := eids.isEmpty || decide (eid ∈ eids)

/-- habbing.py:2040-2048: the witnesses of the key state. -/
def witUrls (db : Db Id Url) (s : Option Scheme) (eids : List Id) : List Id → List (Role × Id × List (Scheme × Url))
  | [] => []
  | w :: ws =>
    if among eids w then
      if (fetchUrls db w s).isEmpty then witUrls db s eids ws
      else (.witness, w, fetchUrls db w s) :: witUrls db s eids ws
    else witUrls db s eids ws

/-- habbing.py:2050-2055: the roles stored. Names of roles are no start of one another, hence compared whole. -/
def endUrls (db : Db Id Url) (cid : Id) (role : Option Role) (s : Option Scheme) (eids : List Id) (enabled allowed : Bool) :
    Tab (Id × Role × Id) Ender → List (Role × Id × List (Scheme × Url))
  | [] => []
  | e :: es =>
    if e.1.1 = cid && (role.isNone || decide (role = some e.1.2.1)) then
      if (enabled && e.2.enabled) || (allowed && e.2.allowed) then
        if among eids e.1.2.2 then
          if (fetchUrls db e.1.2.2 s).isEmpty then endUrls db cid role s eids enabled allowed es
          else (e.1.2.1, e.1.2.2, fetchUrls db e.1.2.2 s) :: endUrls db cid role s eids enabled allowed es
        else endUrls db cid role s eids enabled allowed es
      else endUrls db cid role s eids enabled allowed es
    else endUrls db cid role s eids enabled allowed es

/-- habbing.py:2017-2056 `fetchRoleUrls`; the items of the nested multi-dict that it returns. -/
def fetchRoleUrls (db : Db Id Url) (cid : Id) (role : Option Role) (s : Option Scheme) (eids : List Id) (enabled allowed : Bool) :
    List (Role × Id × List (Scheme × Url)) :=
  (if role = some .witness then witUrls db s eids ((db.wits cid).getD []) else []) ++ endUrls db cid role s eids enabled allowed db.ends

/-- habbing.py:2095-2104: the endpoints stored, by role. -/
def stored (db : Db Id Url) (cid : Id) (r : Role) : Tab (Id × Role × Id) Ender → List (Id × List (Scheme × Url))
  | [] => []
  | e :: es => if e.1.1 = cid && decide (e.1.2.1 = r) then (e.1.2.2, fetchUrls db e.1.2.2 none) :: stored db cid r es else stored db cid r es

/-- habbing.py:2085-2119 `endsFor`, as what the dict returned has for a role; a role that is not in it has no endpoints here. Witnesses of the key
state replace those stored (2116-2117). -/
def endsFor (db : Db Id Url) (cid : Id) (r : Role) : List (Id × List (Scheme × Url)) :=
  match r, (db.wits cid).getD [] with
  | .witness, w :: ws => (w :: ws).eraseDups.map (fun v => (v, fetchUrls db v none))
  | r, _ => stored db cid r db.ends

/-! ## Telling others -/

/-- The parts of a stream that is given out. `kel`: the log of an identifier, delegators first. `loc`: the reply stored for a location. `auth`: that
stored for a role. `ownLoc` and `made`: replies made and signed by this identifier (`self`), of the location of `eid`, and of `eid` in a role of
`self`. -/
inductive Msg (Id Url : Type) where
  | kel (pre : Id)
  | loc (eid : Id) (s : Scheme)
  | auth (cid : Id) (r : Role) (eid : Id)
  | ownLoc (self eid : Id) (s : Scheme) (url : Url)
  | made (self : Id) (r : Role) (eid : Id)
  deriving DecidableEq

/-- habbing.py:2327-2394 `loadLocScheme`: of all entries, those of an empty URL too. `lans` has the keys of `locs`. -/
def loadLocScheme (db : Db Id Url) (eid : Id) (s : Option Scheme) : List (Msg Id Url) :=
  db.locs.filterMap (fun e => if e.1.1 = eid && starts s e.1.2 then some (.loc eid e.1.2) else none)

/-- habbing.py:2293-2324 `replyLocScheme`. -/
def replyLocScheme (db : Db Id Url) (self eid : Id) (s : Option Scheme) : List (Msg Id Url) :=
  (fetchUrls db eid s).map (fun p => .ownLoc self eid p.1 p.2)

/-- habbing.py:2192-2262 `loadEndRole`. -/
def loadEndRole (db : Db Id Url) (cid : Id) (r : Role) (eid : Id) : List (Msg Id Url) :=
  match Tab.get db.ends (cid, r, eid) with
  | some e => if e.enabled || e.allowed then [.auth cid r eid] else []
  | none => []

/-- habbing.py:2453-2461: of a witness of the key state. -/
def witMsgs (db : Db Id Url) (self : Id) (witness : Bool) (s : Option Scheme) (eids : List Id) (w : Id) : List (Msg Id Url) :=
  if among eids w then
    (if w = self then replyLocScheme db self w s else loadLocScheme db w s) ++ (if witness then [] else [.made self .witness w])
  else []

/-- habbing.py:2463-2468: of an entry of `db.ends`. -/
def endMsgs (db : Db Id Url) (cid : Id) (role : Option Role) (s : Option Scheme) (eids : List Id) (e : (Id × Role × Id) × Ender) : List (Msg Id Url) :=
  if e.1.1 = cid && (e.2.enabled || e.2.allowed) && (role.isNone || decide (role = some e.1.2.1)) && among eids e.1.2.2 then
    loadLocScheme db e.1.2.2 s ++ loadEndRole db cid e.1.2.1 e.1.2.2
  else []

/-- habbing.py:2397-2470 `replyEndRole`, and 2473-2506 `replyToOobi`, of the identifier `self`. -/
def replyEndRole (db : Db Id Url) (self cid : Id) (role : Option Role) (eids : List Id) (s : Option Scheme) : List (Msg Id Url) :=
  match db.wits cid with
  | none => []
  | some wits =>
    .kel cid ::
      ((if role = some .witness then wits.flatMap (witMsgs db self (decide (self ∈ wits)) s eids) else []) ++
        db.ends.flatMap (endMsgs db cid role s eids))

/-- habbing.py:1852-1881 `replay`; `none` is KeyError (1876). -/
def replay (db : Db Id Url) (pre : Id) : Option (List (Msg Id Url)) := (db.wits pre).map (fun _ => [.kel pre])

/-- habbing.py:3503-3509: of the entries of `db.ends`, with the log of each endpoint; `none` is KeyError. -/
def sigEnds (db : Db Id Url) (cid : Id) (role : Option Role) (s : Option Scheme) (eids : List Id) :
    Tab (Id × Role × Id) Ender → Option (List (Msg Id Url))
  | [] => some []
  | e :: es =>
    if e.1.1 = cid && (e.2.enabled || e.2.allowed) && (role.isNone || decide (role = some e.1.2.1)) && among eids e.1.2.2 then
      match replay db e.1.2.2 with
      | none => none
      | some k => (sigEnds db cid role s eids es).map (fun m => k ++ loadLocScheme db e.1.2.2 s ++ loadEndRole db cid e.1.2.1 e.1.2.2 ++ m)
    else sigEnds db cid role s eids es

/-- habbing.py:3494-3499, of a witness of the key state. -/
def sigWit (db : Db Id Url) (self : Id) (witness : Bool) (s : Option Scheme) (eids : List Id) (w : Id) : List (Msg Id Url) :=
  if among eids w then loadLocScheme db w s ++ (if witness then [] else [.made self .witness w]) else []

/-- habbing.py:3433-3511 `SignifyHab.replyEndRole`; `none` is KeyError. -/
def sigReplyEndRole (db : Db Id Url) (self cid : Id) (role : Option Role) (eids : List Id) (s : Option Scheme) : Option (List (Msg Id Url)) :=
  match db.wits cid with
  | none => none
  | some wits =>
    (sigEnds db cid role s eids db.ends).map (fun m =>
      .kel cid ::
        ((if role = some .witness then
            wits.flatMap (sigWit db self (decide (self ∈ wits)) s eids) ++ (if self ∈ wits then [.kel cid] else [])
          else []) ++ m))

end Verif.Ends
