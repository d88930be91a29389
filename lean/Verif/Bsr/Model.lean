import Verif.Kel.Run

/-!
# Model of the registries of blindable state (src/keri/acdc/registraring.py, registering.py)

A call is a list of writes to the store in the order of the code, each a transaction of its own, so that a crash in the middle
of a call leaves a prefix of the list.  The key event logs are the node of `Verif.Kel`, which moves by steps of its own.

Not modelled: the content of blinded attributes (`Blinder.blind`), the building of the messages (`messaging.regcept`, `blindate`:
an event that is made carries the digest given with the call), numbers that are no canonical hex text, the web backend, closing
of the store, ordinals above `MaxON`.
-/

namespace Verif.Bsr

open Verif.Kel (Id Dig Node Seal Event)

/-- Message types of registry events; every other type is `other`. -/
inductive Ilk where
  | rip | bup | other
  deriving DecidableEq, Repr

/-- A registry event (`SerderACDC`): "i" is read of `rip` only, "rd" and "p" of `bup` only (messaging.py:41, 72). -/
structure REvt where
  ilk : Ilk
  said : Dig
  iss : Id
  rd : Dig
  n : Nat
  prior : Dig
  deriving DecidableEq

/-- `serder.said if serder.ilk == "rip" else serder.regid` (registraring.py:234, 266, 300, 533). -/
def REvt.regk (e : REvt) : Dig := if e.ilk = .rip then e.said else e.rd

/-- Alias of a registry: a text, and whether the separator "." occurs in it. -/
structure Name where
  text : Nat
  dotted : Bool
  deriving DecidableEq

/-- Sub-databases (regbasing.py:104-112) and `records` (registering.py:40). `maes` and `ooes` list (number, digest) per registry, in
the order of iteration: by number, then by insertion. -/
structure Store where
  evts : Dig → Option REvt
  ancs : Dig → Option (Nat × Dig)
  tels : Dig → Nat → Option Dig
  heads : Dig → Option Dig
  maes : Dig → List (Nat × Dig)
  ooes : Dig → List (Nat × Dig)
  records : List (Name × Dig)

/-- A store before any write. -/
def Store.empty : Store :=
  { evts := fun _ => none, ancs := fun _ => none, tels := fun _ _ => none, heads := fun _ => none, maes := fun _ => [],
    ooes := fun _ => [], records := [] }

/-- Function update. -/
def put {α : Type} (f : Nat → α) (k : Nat) (v : α) : Nat → α := fun x => if x = k then v else f x

/-- `B64OnIoSetSuber.add` (subing.py:3103-3124): at the end of the values with this number, unless present. -/
def ioAdd (l : List (Nat × Dig)) (n : Nat) (d : Dig) : List (Nat × Dig) :=
  if (n, d) ∈ l then l else l.takeWhile (fun x => decide (x.1 ≤ n)) ++ (n, d) :: l.dropWhile (fun x => decide (x.1 ≤ n))

/-- `B64OnIoSetSuber.rem` (subing.py:3232-3256) of one value. -/
def ioRem (l : List (Nat × Dig)) (n : Nat) (d : Dig) : List (Nat × Dig) := l.filter (fun x => decide (x ≠ (n, d)))

/-- Writes to the store. -/
inductive Wr where
  | evt (e : REvt)
  | anc (d : Dig) (c : Nat × Dig)
  | tel (k : Dig) (n : Nat) (d : Dig)
  | head (k d : Dig)
  | addM (k : Dig) (n : Nat) (d : Dig)
  | addO (k : Dig) (n : Nat) (d : Dig)
  | remM (k : Dig) (n : Nat) (d : Dig)
  | remO (k : Dig) (n : Nat) (d : Dig)
  | record (name : Name) (k : Dig)
  deriving DecidableEq

/-- Effect of a write: registering.py:52-53 `putEvent` (pin), 58-59 `putAnchor` (pin), 75-79 `accept` (`tels.put` does not overwrite,
`heads.pin` does), 81-89 escrows, `records.pin`. -/
def Store.apply (s : Store) : Wr → Store
  | .evt e => { s with evts := put s.evts e.said (some e) }
  | .anc d c => { s with ancs := put s.ancs d (some c) }
  | .tel k n d => match s.tels k n with
    | some _ => s
    | none => { s with tels := put s.tels k (put (s.tels k) n (some d)) }
  | .head k d => { s with heads := put s.heads k (some d) }
  | .addM k n d => { s with maes := put s.maes k (ioAdd (s.maes k) n d) }
  | .addO k n d => { s with ooes := put s.ooes k (ioAdd (s.ooes k) n d) }
  | .remM k n d => { s with maes := put s.maes k (ioRem (s.maes k) n d) }
  | .remO k n d => { s with ooes := put s.ooes k (ioRem (s.ooes k) n d) }
  | .record name k => { s with records := s.records.filter (fun x => decide (x.1 ≠ name)) ++ [(name, k)] }

/-- A list of writes. -/
def Store.applyAll (s : Store) (ws : List Wr) : Store := ws.foldl Store.apply s

/-- registering.py:71-73 `seqEvent`. -/
def Store.seqEvent (s : Store) (k : Dig) (n : Nat) : Option REvt := (s.tels k n).bind s.evts

/-- registering.py:64-66 `headEvent`. -/
def Store.headEvent (s : Store) (k : Dig) : Option REvt := (s.heads k).bind s.evts

/-- `Registry.sn + 1` (registraring.py:186-194): the number is -1 without a head. -/
def Store.next (s : Store) (k : Dig) : Nat := match s.headEvent k with
  | none => 0
  | some e => e.n + 1

/-- Accepted predecessor of a number. Nothing precedes number 0; the code asks only for numbers from 1 on (no event with number 0
gets into `ooes`). -/
def Store.before (s : Store) (k : Dig) : Nat → Option REvt
  | 0 => none
  | n + 1 => s.seqEvent k n

/-- Digests in an escrow at a number. -/
def at' (l : List (Nat × Dig)) (n : Nat) : List Dig := (l.filter (fun x => decide (x.1 = n))).map (·.2)

/-- A `Registry` object: the controlling habitat, `.regk` and `.regd` (registraring.py:155-173). -/
structure Obj where
  hab : Id
  regk : Option Dig
  regd : Option Dig
  deriving DecidableEq

/-- The event seal of a registry event (registraring.py:462, 546). -/
def REvt.seal (e : REvt) : Seal := ⟨e.regk, e.n, e.said⟩

/-- registraring.py:206-242 `_verifyAnchor`. Seals are members of "a" with the three fields of an event seal, in any order there and in
this order in `findSeal`; both are `Event.seals`. -/
def verifyAnchor (nd : Node) (hab : Id) (e : REvt) (c : Nat × Dig) : Bool :=
  match (nd.db.kels hab c.1).getLast? with
  | none => false
  | some d => match nd.db.evts hab d with
    | none => false
    | some a => decide (a.said = c.2) && nd.fullyWitnessed a && decide (e.seal ∈ a.seals)

/-- registraring.py:244-288 `_validateEvent`: `none` is `ValidationError`, otherwise `existing` and `prior`. -/
def validate (s : Store) (o : Obj) (e : REvt) : Option (Option REvt × Option REvt) :=
  if e.ilk = .other then none
  else if e.ilk = .rip ∧ e.n ≠ 0 then none
  else if e.ilk = .rip ∧ e.iss ≠ o.hab then none
  else if e.ilk ≠ .rip ∧ e.n < 1 then none
  else if o.regk.any (fun k => decide (k ≠ e.regk)) then none
  else if (s.seqEvent e.regk e.n).any (fun x => decide (x.said ≠ e.said)) then none
  else if e.ilk = .rip then some (s.seqEvent e.regk e.n, none)
  else if (s.before e.regk e.n).any (fun x => decide (x.said ≠ e.prior)) then none
  else some (s.seqEvent e.regk e.n, s.before e.regk e.n)

/-- registraring.py:290-314 `_commit`, with registering.py:75-79. -/
def commit (s : Store) (e : REvt) : List Wr :=
  [.evt e, .tel e.regk e.n e.said, .head e.regk e.said] ++
    (at' (s.maes e.regk) e.n).map (.remM e.regk e.n) ++ (at' (s.ooes e.regk) e.n).map (.remO e.regk e.n)

/-- registering.py:87-89 `clearEscrows`. -/
def clear (k : Dig) (n : Nat) (d : Dig) : List Wr := [.remM k n d, .remO k n d]

/-- Sort key of a queued digest (registraring.py:374-379): entries without anchor come last. Text order of digests is the order of the
numbers that stand for them. -/
def qle (s : Store) (a b : Dig) : Bool :=
  match s.ancs a, s.ancs b with
  | none, none => decide (a ≤ b)
  | none, some _ => false
  | some _, none => true
  | some x, some y => decide (x.1 < y.1 ∨ (x.1 = y.1 ∧ (x.2 < y.2 ∨ (x.2 = y.2 ∧ a ≤ b))))

/-- Insertion into a sorted list. -/
def ins (s : Store) (a : Dig) : List Dig → List Dig
  | [] => [a]
  | b :: l => if qle s a b then a :: b :: l else b :: ins s a l

/-- `sorted(queued, key=…)`, registraring.py:374-379. -/
def sortQ (s : Store) (l : List Dig) : List Dig := l.foldr (ins s) []

/-- What becomes of a queued digest. -/
inductive Verdict where
  | clear | wait | commit (e : REvt)

/-- registraring.py:384-407: one queued digest. -/
def verdict (s : Store) (k : Dig) (n : Nat) (d : Dig) : Verdict :=
  match s.evts d with
  | none => .clear
  | some e =>
    if (s.seqEvent k n).any (fun a => decide (a.said ≠ d)) then .clear
    else if (s.ancs d).isNone then .wait
    else match s.before k n with
      | none => .wait
      | some p => if p.said ≠ e.prior then .clear else .commit e

/-- registraring.py:383-411: the loop over the queued digests at one number; it ends with the first commit, which is returned. -/
def walk (s : Store) (k : Dig) (n : Nat) : List Dig → List Wr × Option REvt
  | [] => ([], none)
  | d :: l => match verdict s k n d with
    | .clear => (clear k n d ++ (walk (s.applyAll (clear k n d)) k n l).1, (walk (s.applyAll (clear k n d)) k n l).2)
    | .wait => walk s k n l
    | .commit e => (commit s e, some e)

/-- registraring.py:363-414: the loop of `_processQueued`. Every round that goes on removes the entry it commits, so that the loop ends;
`fuel` is an upper bound of the rounds (`drain_stops`). -/
def drain : Nat → Store → Dig → List Wr
  | 0, _, _ => []
  | f + 1, s, k =>
    if at' (s.ooes k) (s.next k) = [] then []
    else match walk s k (s.next k) (sortQ s (at' (s.ooes k) (s.next k))) with
      | (ws, none) => ws
      | (ws, some e) => ws ++ drain f (s.applyAll ws) e.regk

/-- registraring.py:345-414 `_processQueued` of an object bound to `k`. -/
def processQueued (s : Store) (k : Dig) : List Wr := drain ((s.ooes k).length + 1) s k

/-- What a call leaves: its writes, the object, and the result, `none` for `ValidationError`. -/
structure Res where
  ws : List Wr
  obj : Obj
  out : Option Bool

/-- registraring.py:456-468: the anchor found in the key event log of the habitat, unless one is stored. -/
def anchorWrites (nd : Node) (s : Store) (hab : Id) (e : REvt) : List Wr :=
  match s.ancs e.said with
  | some _ => []
  | none => match nd.findSeal hab e.seal with
    | none => []
    | some a => if verifyAnchor nd hab e (a.sn, a.said) then [.anc e.said (a.sn, a.said)] else []

/-- The commit of an event followed by that of queued ones (registraring.py:480-483, 489-491). -/
def commitAll (s : Store) (e : REvt) : List Wr := commit s e ++ processQueued (s.applyAll (commit s e)) e.regk

/-- registraring.py:476-491: from the anchor on. `_commit` sets `.regd` to what it makes the head. -/
def advance (s : Store) (o : Obj) (e : REvt) (prior : Option REvt) (ws : List Wr) : Res :=
  if e.ilk = .rip ∨ prior.isSome = true then
    { ws := ws ++ .remM e.regk e.n e.said :: commitAll (s.apply (.remM e.regk e.n e.said)) e,
      obj := { o with regk := some e.regk,
                      regd := (s.applyAll (.remM e.regk e.n e.said :: commitAll (s.apply (.remM e.regk e.n e.said)) e)).heads e.regk },
      out := some true }
  else { ws := ws ++ [.remM e.regk e.n e.said, .addO e.regk e.n e.said], obj := o, out := some false }

/-- registraring.py:439-443: a first `rip` binds the object. -/
def bind1 (o : Obj) (e : REvt) : Obj :=
  if o.regk = none ∧ e.ilk = .rip then { o with regk := some e.regk, regd := some e.said } else o

/-- registraring.py:416-491 `processEvent`. -/
def processEvent (nd : Node) (s : Store) (o : Obj) (e : REvt) : Res :=
  match validate s o e with
  | none => { ws := [], obj := o, out := none }
  | some (some x, _) => { ws := [], obj := { o with regk := some e.regk, regd := some x.said }, out := some true }
  | some (none, prior) =>
    if ((s.applyAll (.evt e :: anchorWrites nd s o.hab e)).ancs e.said).isNone = true then
      { ws := .evt e :: anchorWrites nd s o.hab e ++ [.addM e.regk e.n e.said], obj := bind1 o e, out := some false }
    else advance (s.applyAll (.evt e :: anchorWrites nd s o.hab e)) (bind1 o e) e prior (.evt e :: anchorWrites nd s o.hab e)

/-- registraring.py:329-343: one entry of the missing-anchor escrow. The digest read from the escrow is a tuple of one text
(subing.py:857-870, 3368), so that the comparison of line 337 tells it from the text of the accepted event in every case. -/
def missOne (nd : Node) (s : Store) (o : Obj) (k : Dig) (x : Nat × Dig) : List Wr × Obj :=
  match s.evts x.2 with
  | none => (clear k x.1 x.2, o)
  | some e =>
    if (s.seqEvent k x.1).isSome = true then (clear k x.1 x.2, o)
    else match (processEvent nd s o e).out with
      | none => (clear k x.1 x.2, o)
      | some _ => ((processEvent nd s o e).ws, (processEvent nd s o e).obj)

/-- registraring.py:316-343: the loop of `_processMissingAnchors` over a list read beforehand. -/
def missAll (nd : Node) (k : Dig) : List (Nat × Dig) → Store → Obj → List Wr × Obj
  | [], _, o => ([], o)
  | x :: l, s, o =>
    ((missOne nd s o k x).1 ++ (missAll nd k l (s.applyAll (missOne nd s o k x).1) (missOne nd s o k x).2).1,
      (missAll nd k l (s.applyAll (missOne nd s o k x).1) (missOne nd s o k x).2).2)

/-- `.regd` after queued events were committed. -/
def regdOf (s : Store) (k : Dig) (ws : List Wr) (o : Obj) : Obj :=
  if ws.any (fun w => match w with | .head _ _ => true | _ => false) then { o with regd := (s.applyAll ws).heads k } else o

/-- registraring.py:493-503 `Registry.processEscrows`. -/
def escrows (nd : Node) (s : Store) (o : Obj) : List Wr × Obj :=
  match o.regk with
  | none => ([], o)
  | some k =>
    ((missAll nd k (s.maes k) s o).1 ++ processQueued (s.applyAll (missAll nd k (s.maes k) s o).1) k,
      regdOf (s.applyAll (missAll nd k (s.maes k) s o).1) k (processQueued (s.applyAll (missAll nd k (s.maes k) s o).1) k)
        (missAll nd k (s.maes k) s o).2)

/-- registraring.py:545-551: the couple given, or the one found. -/
def couple (nd : Node) (hab : Id) (e : REvt) : Option Nat → Option Dig → Option (Nat × Dig)
  | some s, some d => some (s, d)
  | _, _ => (nd.findSeal hab e.seal).map (fun a => (a.sn, a.said))

/-- registraring.py:505-557 `anchorMsg`. -/
def anchorMsg (nd : Node) (s : Store) (o : Obj) (d : Dig) (num : Option Nat) (dig : Option Dig) : Res :=
  match s.evts d with
  | none => { ws := [], obj := o, out := none }
  | some e =>
    if o.regk.any (fun k => decide (k ≠ e.regk)) then { ws := [], obj := o, out := none }
    else match validate s o e with
      | none => { ws := [], obj := o, out := none }
      | some _ =>
        if num.isNone ≠ dig.isNone then { ws := [], obj := o, out := none }
        else match couple nd o.hab e num dig with
          | none => { ws := [], obj := o, out := none }
          | some c =>
            if verifyAnchor nd o.hab e c then
              { ws := .anc d c :: (processEvent nd (s.apply (.anc d c)) o e).ws,
                obj := (processEvent nd (s.apply (.anc d c)) o e).obj,
                out := (processEvent nd (s.apply (.anc d c)) o e).out }
            else { ws := [], obj := o, out := none }

/-- What `blind` reads of an ACDC: `verify()`, the registry and the issuer it names. -/
structure Acdc where
  valid : Bool
  rd : Option Dig
  iss : Option Id

/-- Results of calls: an exception of either class, or what `processEvent` returned, or nothing. -/
inductive Out where
  | config | validation | done (accepted : Bool) | unit
  deriving DecidableEq

/-- Result of `processEvent` as that of the call. -/
def outOf : Option Bool → Out
  | none => .validation
  | some b => .done b

/-- The update made by `blind` (registraring.py:622-632): after the head, with the digest `said`. -/
def update (s : Store) (k : Dig) (said : Dig) (h : REvt) : REvt :=
  { ilk := .bup, said := said, iss := 0, rd := k, n := s.next k, prior := h.said }

/-- registraring.py:600-617: the head of the registry when the arguments are in order. `blinder` among the arguments and an `acdc` of
another class are left out. -/
def blindHead (s : Store) (o : Obj) (a : Acdc) : Option (Dig × REvt) :=
  match o.regk with
  | none => none
  | some k => match s.headEvent k with
    | none => none
    | some h => if a.valid = true ∧ a.rd = some k ∧ a.iss = some o.hab then some (k, h) else none

/-- registraring.py:573-634 `blind`. -/
def blind (nd : Node) (s : Store) (o : Obj) (a : Acdc) (said : Dig) : List Wr × Obj × Out :=
  match blindHead s o a with
  | none => ([], o, .config)
  | some (k, h) => ((processEvent nd s o (update s k said h)).ws, (processEvent nd s o (update s k said h)).obj,
      outOf (processEvent nd s o (update s k said h)).out)

/-- The process: key event logs, store, loaded habitats, `Registry` objects by handle, and the maps of the `Regery`
(registraring.py:46-48) from registry identifiers and from aliases to objects. -/
structure World where
  nd : Node
  s : Store
  habs : List Id
  objs : List Obj
  regs : List (Dig × Nat)
  names : List (Name × Nat)

/-- A process before anything. -/
def World.start (nd : Node) (habs : List Id) : World :=
  { nd := nd, s := Store.empty, habs := habs, objs := [], regs := [], names := [] }

/-- Calls. Objects are named by handles. `event`, `make` carry the message; `update` the digest of the update that is made. -/
inductive Call where
  | attach (hab : Id) (regk : Option Dig)
  | event (h : Nat) (e : REvt)
  | anchor (h : Nat) (d : Dig) (num : Option Nat) (dig : Option Dig)
  | escrows (h : Nat)
  | make (h : Nat) (said : Dig)
  | blind (h : Nat) (a : Acdc) (said : Dig)
  | makeRegistry (name : Name) (pre : Id) (said : Dig)
  | sweep

/-- What a call leaves. -/
structure Eff where
  ws : List Wr
  objs : List Obj
  regs : List (Dig × Nat)
  names : List (Name × Nat)
  out : Out

/-- A call that changes nothing. -/
def World.idle (w : World) (out : Out) : Eff := { ws := [], objs := w.objs, regs := w.regs, names := w.names, out := out }

/-- The inception that `regcept` makes for an issuer (messaging.py:36-42). -/
def inception (pre : Id) (said : Dig) : REvt := { ilk := .rip, said := said, iss := pre, rd := 0, n := 0, prior := 0 }

/-- Lookup in a dictionary. -/
def look {α β : Type} [DecidableEq α] (l : List (α × β)) (a : α) : Option β := (l.find? (fun x => decide (x.1 = a))).map (·.2)

/-- registraring.py:132-133: one registry after the other. -/
def sweepAll (nd : Node) : List Nat → Store → List Obj → List Wr × List Obj
  | [], _, os => ([], os)
  | h :: l, s, os => match os[h]? with
    | none => sweepAll nd l s os
    | some o =>
      ((escrows nd s o).1 ++ (sweepAll nd l (s.applyAll (escrows nd s o).1) (os.set h (escrows nd s o).2)).1,
        (sweepAll nd l (s.applyAll (escrows nd s o).1) (os.set h (escrows nd s o).2)).2)

/-- registraring.py:52-81 `Regery.makeRegistry`: the new object has the next handle. -/
def World.makeRegistry (w : World) (name : Name) (pre : Id) (said : Dig) : Eff :=
  if (look w.names name).isSome = true then w.idle .config
  else if pre ∉ w.habs then w.idle .config
  else if (look w.regs said).isSome = true then w.idle .config
  else match (processEvent w.nd w.s ⟨pre, none, none⟩ (inception pre said)).out with
    | none => w.idle .validation
    | some _ =>
      { ws := (processEvent w.nd w.s ⟨pre, none, none⟩ (inception pre said)).ws ++ [.record name said],
        objs := w.objs ++ [(processEvent w.nd w.s ⟨pre, none, none⟩ (inception pre said)).obj],
        regs := w.regs ++ [(said, w.objs.length)],
        names := w.names ++ [(name, w.objs.length)],
        out := .unit }

/-- A call on an object. -/
def World.onObj (w : World) (h : Nat) (f : Obj → List Wr × Obj × Out) : Eff :=
  match w.objs[h]? with
  | none => w.idle .unit
  | some o => { ws := (f o).1, objs := w.objs.set h (f o).2.1, regs := w.regs, names := w.names, out := (f o).2.2 }

/-- Effect of a call: `Registry(hab, store, regk)`, `processEvent`, `anchorMsg`, `processEscrows`, `make` (registraring.py:559-571), `blind`,
`Regery.makeRegistry`, `Regery.processEscrows`. -/
def World.call (w : World) : Call → Eff
  | .attach hab regk => { w.idle .unit with objs := w.objs ++ [⟨hab, regk, none⟩] }
  | .event h e => w.onObj h fun o => ((processEvent w.nd w.s o e).ws, (processEvent w.nd w.s o e).obj, outOf (processEvent w.nd w.s o e).out)
  | .anchor h d num dig => w.onObj h fun o =>
      ((anchorMsg w.nd w.s o d num dig).ws, (anchorMsg w.nd w.s o d num dig).obj, outOf (anchorMsg w.nd w.s o d num dig).out)
  | .escrows h => w.onObj h fun o => ((escrows w.nd w.s o).1, (escrows w.nd w.s o).2, .unit)
  | .make h said => w.onObj h fun o =>
      ((processEvent w.nd w.s o (inception o.hab said)).ws, (processEvent w.nd w.s o (inception o.hab said)).obj,
        outOf (processEvent w.nd w.s o (inception o.hab said)).out)
  | .blind h a said => w.onObj h fun o => blind w.nd w.s o a said
  | .makeRegistry name pre said => w.makeRegistry name pre said
  | .sweep =>
    { ws := (sweepAll w.nd (w.regs.map (·.2)) w.s w.objs).1, objs := (sweepAll w.nd (w.regs.map (·.2)) w.s w.objs).2,
      regs := w.regs, names := w.names, out := .unit }

/-- One record in `loadRegistries` (registraring.py:92-110); `none` is an exception, which leaves no `Regery`. An alias with a separator
comes back from the key of the record as a tuple of more than one text, which the loop cannot unpack (koming.py:258-260). -/
def World.load1 (w : World) (x : Name × Dig) : Option World :=
  if x.1.dotted = true then none
  else match w.s.evts x.2 with
    | none => none
    | some rip =>
      if rip.ilk ≠ .rip then none
      else if rip.iss ∉ w.habs then none
      else match look w.regs x.2 with
        | some h => some { w with names := w.names ++ [(x.1, h)] }
        | none => some { w with objs := w.objs ++ [⟨rip.iss, some x.2, some ((w.s.heads x.2).getD x.2)⟩],
                                regs := w.regs ++ [(x.2, w.objs.length)], names := w.names ++ [(x.1, w.objs.length)] }

/-- registraring.py:83-110 `loadRegistries`. -/
def World.load : List (Name × Dig) → World → Option World
  | [], w => some w
  | x :: l, w => (w.load1 x).bind (World.load l)

/-- The process ended: what was in memory is gone. -/
def World.down (w : World) : World := { w with objs := [], regs := [], names := [] }

/-- Steps of the world: of the key event logs, calls, calls cut off after `m` writes by a crash, changes of the loaded habitats, and the
opening of a new `Regery` on the store. -/
inductive Inp where
  | kel (i : Kel.Inp)
  | call (c : Call)
  | crash (c : Call) (m : Nat)
  | config (habs : List Id)
  | reopen

/-- Effect of a step. -/
def World.step (env : Kel.Env) (w : World) : Inp → World
  | .kel i => { w with nd := w.nd.step env i }
  | .call c => { w with s := w.s.applyAll (w.call c).ws, objs := (w.call c).objs, regs := (w.call c).regs, names := (w.call c).names }
  | .crash c m => { w.down with s := w.s.applyAll ((w.call c).ws.take m) }
  | .config habs => { w with habs := habs }
  | .reopen => (w.down.load w.s.records).getD w.down

end Verif.Bsr
