import Verif.Mgr.Model
import Verif.Kel.Crash
import Verif.Thold.Text

/-!
# Model of event builders and of habitats (src/keri/core/eventing.py 563-953, src/keri/app/habbing.py 997-3090)

A habitat is one identifier of the controller: its keys are in the key store (`Verif.Mgr`), its log in the database (`Verif.Kel`). Public keys,
prefixes and digests are the opaque values of those models. The builders are modelled on the content of events; how a message is made of it is the
subject of `Verif.Ser`.

Not modelled: group habitats and those whose keys are elsewhere (`GroupHab`, `SignifyHab`), inception from given secrets (`secrecies`), hidden
habitats, the configuration file, attachments of the returned message, the option `intive`, configuration traits of rotations (version 2).
-/

namespace Verif.Hab

open Verif.Thold (Thold Sith ofSith sith ampleDefault ceilDiv)
open Verif.Kel (Id Dig Ilk Seal Event Kever)

/-- What is taken as given: the cryptography of the two models; the digest of an event whose "d" (and "i", when that is a digest too) is left out;
the signature made with the private key of a public key; the code of an Ed25519 seed. -/
structure Env where
  kel : Kel.Env
  mgr : Mgr.Env
  said : Event → Dig
  sig : Nat → Event → Nat
  seed : Nat

/-- What a call raises: an exception of the key store manager, of a builder, or of event processing; the attempt to use a key state that is not there. -/
inductive Fail where
  | mgr (e : Mgr.Err) | build | event (x : Kel.Exn) | attr | name
  deriving DecidableEq, Repr

/-- `code` of an inception: missing, the code of a digest, or that of a public key. -/
inductive PreCode where
  | none | digest | key
  deriving DecidableEq, Repr

/-- `Tholder(sith=…)`. -/
def thold (s : Sith) : Except Fail Thold :=
  match ofSith s with
  | .error _ => .error .build
  | .ok t => .ok t

/-- `Tholder(sith=Tholder(sith=…).sith)`, habbing.py:1096-1097, 1337-1338 and then eventing.py:612, 776. -/
def thold2 (s : Sith) : Except Fail Thold :=
  match thold s with
  | .error e => .error e
  | .ok t => thold (sith t)

/-- Signing threshold of an establishment event (eventing.py:612-616, 776-780): at least one, no greater than the number of keys. -/
def signingThold (t : Thold) (keys : List Id) : Bool :=
  decide (t ≠ .num 0) && decide (Thold.size t ≤ keys.length)

/-- Witness threshold (eventing.py:635-647, 824-836): the default is `ample` of the number of witnesses. -/
def toadFor (toad : Option Int) (wits : List Id) : Except Fail Nat :=
  let t : Int := match toad with
    | some t => t
    | none => if wits = [] then 0 else ampleDefault wits.length true
  if t < 0 then .error .build
  else if wits = [] then (if t = 0 then .ok 0 else .error .build)
  else if 1 ≤ t ∧ t ≤ wits.length then .ok t.toNat else .error .build

/-- Arguments of `incept` after those of the key sets: thresholds as read, witnesses, traits, seals, prefix code, delegator. -/
structure IcpArgs where
  toad : Option Int
  wits : List Id
  estOnly : Bool
  doNotDelegate : Bool
  seals : List Seal
  anchors : Bool
  code : PreCode
  delpre : Option Id

/-- The identifier of an inception event and its digest (eventing.py:673-686; serdering.py:2237-2293): with the code of a public key, or none, and a
single key, it is that key; the message is refused unless the key can be a prefix, the threshold is one, and nothing is committed to by a prefix that is not
transferable. With the code of a public key and several keys, or a delegator, the field is left empty and the message is refused. -/
def inceptId (env : Env) (a : IcpArgs) (e : Event) : Except Fail Event :=
  match a.code, a.delpre, e.keys with
  | .digest, _, _ => .ok { e with pre := env.said e, said := env.said e }
  | _, none, [k] =>
    if !env.kel.okPre k then .error .build
    else if e.kt ≠ .num 1 then .error .build
    else if !env.kel.transferable k && (!e.ndigs.isEmpty || !e.wits.isEmpty || e.anchors) then .error .build
    else .ok { e with pre := k, said := env.said { e with pre := k } }
  | .none, _, _ => .ok { e with pre := env.said e, said := env.said e }
  | .key, _, _ => .error .build

/-- eventing.py:563-686 `incept` and `delcept`, with both thresholds given (as `BaseHab.incept` does). -/
def buildIcp (env : Env) (keys : List Id) (kt : Thold) (ndigs : List Dig) (nt : Thold) (a : IcpArgs) : Except Fail Event :=
  if !signingThold kt keys then .error .build
  else if Thold.size nt > ndigs.length then .error .build
  else if (Kel.oset a.wits).length ≠ a.wits.length then .error .build
  else match toadFor a.toad a.wits with
    | .error e => .error e
    | .ok toad =>
      inceptId env a
        { ilk := if a.delpre.isNone then .icp else .dip, pre := 0, sn := 0, said := 0, prior := 0, keys := keys, kt := kt, ndigs := ndigs, nt := nt,
          toad := toad, wits := a.wits, cuts := [], adds := [], estOnly := a.estOnly, doNotDelegate := a.doNotDelegate, delpre := a.delpre,
          seals := a.seals, anchors := a.anchors }

/-- Arguments of `rotate` after those of the key sets. -/
structure RotArgs where
  toad : Option Int
  cuts : List Id
  adds : List Id
  seals : List Seal
  anchors : Bool

/-- eventing.py:716-869 `rotate` and 872-905 `deltate`, with both thresholds given (as `BaseHab.rotate` does): `wits` are the prior witnesses. -/
def buildRot (env : Env) (ilk : Ilk) (pre : Id) (prior : Dig) (sn : Nat) (wits keys : List Id) (kt : Thold) (ndigs : List Dig) (nt : Thold) (a : RotArgs) :
    Except Fail Event :=
  let witset := Kel.oset wits
  let new := Kel.ioPut (witset.filter fun w => !decide (w ∈ a.cuts)) a.adds
  if ilk ≠ .rot ∧ ilk ≠ .drt then .error .build
  else if sn < 1 then .error .build
  else if !signingThold kt keys then .error .build
  else if Thold.size nt > ndigs.length then .error .build
  else if witset.length ≠ wits.length then .error .build
  else if (Kel.oset a.cuts).length ≠ a.cuts.length then .error .build
  else if !Kel.cutsOk wits a.cuts then .error .build
  else if (Kel.oset a.adds).length ≠ a.adds.length then .error .build
  else if wits.any fun w => decide (w ∈ a.adds) then .error .build
  else if a.cuts.any fun c => decide (c ∈ a.adds) then .error .build
  else if (new.length : Int) ≠ (wits.length : Int) - a.cuts.length + a.adds.length then .error .build
  else match toadFor a.toad new with
    | .error e => .error e
    | .ok toad =>
      let e : Event :=
        { ilk := ilk, pre := pre, sn := sn, said := 0, prior := prior, keys := keys, kt := kt, ndigs := ndigs, nt := nt, toad := toad, wits := [],
          cuts := a.cuts, adds := a.adds, estOnly := false, doNotDelegate := false, delpre := none, seals := a.seals, anchors := a.anchors }
      .ok { e with said := env.said e }

/-- eventing.py:908-953 `interact`. -/
def buildIxn (env : Env) (pre : Id) (prior : Dig) (sn : Nat) (seals : List Seal) (anchors : Bool) : Except Fail Event :=
  if sn < 1 then .error .build
  else
    let e : Event :=
      { ilk := .ixn, pre := pre, sn := sn, said := 0, prior := prior, keys := [], kt := .num 0, ndigs := [], nt := .num 0, toad := 0, wits := [], cuts := [],
        adds := [], estOnly := false, doNotDelegate := false, delpre := none, seals := seals, anchors := anchors }
    .ok { e with said := env.said e }

/-! ## Habitats -/

/-- Key store, its manager, the node with the database, and the names of habitats (`db.names`). -/
structure World where
  ks : Mgr.Ks
  mem : Mgr.Mem
  node : Kel.Node
  names : List (List Char)

/-- A signature of the manager as the node sees it. -/
def sigOf (env : Env) (e : Event) (s : Mgr.Sig) : Kel.Sig := ⟨0, s.index, s.ondex, env.sig s.key e⟩

/-- habbing.py:1456-1485 `sign`: one signature for each key, at its place in the list (`Manager.sign` without indices). -/
def signEvent (env : Env) (w : World) (keys : List Id) (e : Event) : Except Fail (List Kel.Sig) :=
  match Mgr.sign env.mgr w.ks w.mem keys [] [] with
  | .error x => .error (.mgr x)
  | .ok ss => .ok (ss.map (sigOf env e))

/-- `self.kvy.processEvent(serder, sigers)` of a habitat: the Kevery is local (habbing.py:194); a MissingSignatureError is passed over
(habbing.py:2996-3002, 1391-1398, 1447-1454). -/
def process (env : Env) (w : World) (e : Event) (ss : List Kel.Sig) : World × Except Fail Event :=
  match w.node.processEvent env.kel e ss [] none false true with
  | (n, .ok _) => ({ w with node := n }, .ok e)
  | (n, .error x) => ({ w with node := n }, if x = .missingSignature then .ok e else .error (.event x))

/-- Signing and processing an event. -/
def publish (env : Env) (w : World) (keys : List Id) (e : Event) : World × Except Fail Event :=
  match signEvent env w keys e with
  | .error x => (w, .error x)
  | .ok ss => process env w e ss

/-- Arguments of `Hab.rotate` (habbing.py:3018-3019), with what the manager may draw. -/
structure RotateArgs where
  isith : Option Sith
  nsith : Option Sith
  ncount : Option Int
  rot : RotArgs
  temp : Bool
  rsalt : Nat
  rnd : Nat → Nat

/-- The next keys of the key store become current (habbing.py:3062-3067): those stored already are used, new ones are made if there are none. -/
def advance (env : Env) (w : World) (p : Id) (ncount : Int) (a : RotateArgs) : List Mgr.Wr × Except Mgr.Err Mgr.Keys :=
  match Mgr.replay env.mgr w.ks w.mem p true false with
  | (_, .error .index) => Mgr.rotate env.mgr w.ks w.mem p ⟨[], ncount, env.seed, true, a.temp, false, a.rsalt, a.rnd⟩
  | r => r

/-- Positions of the digests committed to that belong to one of the keys (habbing.py:1342-1347). -/
def revealed (env : Env) (ndigs : List Dig) (keys : List Id) : List Nat :=
  (List.range ndigs.length).filter fun i => match ndigs[i]? with
    | none => false
    | some d => keys.any fun k => env.kel.commits k d

/-- The event of `BaseHab.rotate` (habbing.py:1323-1379). -/
def rotEvent (env : Env) (k : Kever) (keys : Mgr.Keys) (a : RotateArgs) : Except Fail Event :=
  let isith := a.isith.getD (sith k.nt)
  match thold2 isith with
  | .error e => .error e
  | .ok kt => match thold2 (a.nsith.getD isith) with
    | .error e => .error e
    | .ok nt =>
      if !Thold.satisfy k.nt (revealed env k.ndigs keys.verfers) then .error .build
      else buildRot env (if k.delpre.isSome then .drt else .rot) k.pre k.serder.said (k.sn + 1) k.wits keys.verfers kt keys.digers nt
        { a.rot with toad := if a.rot.toad.isNone && a.rot.cuts.isEmpty && a.rot.adds.isEmpty then some k.toad else a.rot.toad }

/-- habbing.py:1275-1398 `BaseHab.rotate`, as called by `Hab.rotate`. -/
def baseRotate (env : Env) (w : World) (k : Kever) (keys : Mgr.Keys) (a : RotateArgs) : World × Except Fail Event :=
  match rotEvent env k keys a with
  | .error x => (w, .error x)
  | .ok e => publish env w keys.verfers e

/-- The keys in use before the last ones (`ps_before.old.pubs`), removed when a rotation is done (habbing.py:3086-3088). -/
def oldKeys (ks : Mgr.Ks) (p : Id) : List Nat :=
  match ks.sits p with
  | none => []
  | some ps => ps.old.pubs

/-- The situation of the key store before the rotation is put back (habbing.py:3078-3082). -/
def putBack (ks0 : Mgr.Ks) (p : Id) (w : World) : World :=
  match ks0.sits p with
  | none => w
  | some ps => { w with ks := w.ks.apply (.sits p ps) }

/-- habbing.py:3018-3091 `Hab.rotate`. -/
def rotate (env : Env) (w : World) (p : Id) (a : RotateArgs) : World × Except Fail Event :=
  match w.node.kevers p with
  | none => (w, .error .attr)
  | some k =>
    match advance env w p (a.ncount.getD k.ndigs.length) a with
    | (ws, .error x) => ({ w with ks := w.ks.applyAll ws }, .error (.mgr x))
    | (ws, .ok keys) =>
      match baseRotate env { w with ks := w.ks.applyAll ws } k keys a with
      | (w1, .error x) => (putBack w.ks p w1, .error x)
      | (w1, .ok e) => ({ w1 with ks := w1.ks.applyAll ((oldKeys w.ks p).map .prisRem) }, .ok e)

/-- habbing.py:1400-1454 `interact`. -/
def interact (env : Env) (w : World) (p : Id) (seals : List Seal) (anchors : Bool) : World × Except Fail Event :=
  match w.node.kevers p with
  | none => (w, .error .attr)
  | some k => match buildIxn env k.pre k.serder.said (k.sn + 1) seals anchors with
    | .error x => (w, .error x)
    | .ok e => publish env w k.keys e

/-- Arguments of `Hab.incept` (habbing.py:2864-2869), with what the manager may draw. -/
structure MakeArgs where
  name : List Char
  code : PreCode
  icode : Nat
  transferable : Bool
  isith : Option Sith
  icount : Int
  nsith : Option Sith
  ncount : Option Int
  icp : IcpArgs
  algo : Option Mgr.Algo
  salt : Option Nat
  tier : Option Nat
  temp : Bool
  rsalt : Nat
  rnd : Nat → Nat

/-- Hex text of a default threshold, habbing.py:1093, 1095. -/
def hexSith (n : Nat) : Sith := .hex (Verif.Thold.natText 16 n)

/-- The call of the manager (habbing.py:2941-2962). -/
def makeKeys (env : Env) (w : World) (a : MakeArgs) : List Mgr.Wr × Except Mgr.Err Mgr.Keys :=
  Mgr.incept env.mgr w.ks w.mem
    { icodes := [], icount := a.icount, icode := a.icode, ncodes := [], ncount := if a.transferable then a.ncount.getD a.icount else 0, ncode := env.seed,
      algo := a.algo, salt := a.salt, stem := a.name, tier := a.tier, rooted := true, tr := a.transferable, temp := a.temp, rsalt := a.rsalt, rnd := a.rnd }

/-- The event of `BaseHab.incept` (habbing.py:1090-1131) with the defaults of `Hab.incept` (habbing.py:2933-2940). -/
def icpEvent (env : Env) (keys : Mgr.Keys) (a : MakeArgs) : Except Fail Event :=
  let nsith := if a.transferable then (match a.nsith with | none => a.isith | some s => some s) else some (.hex ['0'])
  match thold2 (a.isith.getD (hexSith (max 1 (ceilDiv keys.verfers.length 2)))) with
  | .error e => .error e
  | .ok kt => match thold2 (nsith.getD (hexSith (ceilDiv keys.digers.length 2))) with
    | .error e => .error e
    | .ok nt => buildIcp env keys.verfers kt keys.digers nt { a.icp with code := if a.transferable then a.code else .key }

/-- habbing.py:361-407 `makeHab` and 2864-3012 `Hab.incept`: keys, event, the key sequence gets the name of the identifier, the habitat is entered among the
own identifiers unless its name is taken, then the event is signed and processed. -/
def make (env : Env) (w : World) (a : MakeArgs) : World × Except Fail Event :=
  match makeKeys env w a with
  | (ws, .error x) => ({ w with ks := w.ks.applyAll ws }, .error (.mgr x))
  | (ws, .ok keys) =>
    let w1 := { w with ks := w.ks.applyAll ws }
    match icpEvent env keys a with
    | .error x => (w1, .error x)
    | .ok e => match Mgr.move w1.ks (keys.verfers.headD 0) e.pre with
      | (wm, .error x) => ({ w1 with ks := w1.ks.applyAll wm }, .error (.mgr x))
      | (wm, .ok _) =>
        let w2 := { w1 with ks := w1.ks.applyAll wm }
        if a.name ∈ w.names then (w2, .error .name)
        else
          let n := w2.node.step env.kel (.config (Kel.ioAdd w2.node.prefixes e.pre) w2.node.groups w2.node.mid)
          publish env { w2 with node := n, names := w2.names ++ [a.name] } keys.verfers e

/-- Calls of the interface. -/
inductive Call where
  | make (a : MakeArgs)
  | rotate (p : Id) (a : RotateArgs)
  | interact (p : Id) (seals : List Seal) (anchors : Bool)

/-- What a call does. -/
def exec (env : Env) (w : World) : Call → World × Except Fail Event
  | .make a => make env w a
  | .rotate p a => rotate env w p a
  | .interact p s an => interact env w p s an

/-- The process stops in a rotation after `n` writes of the key store, before the event is processed. -/
def crashRotate (env : Env) (w : World) (p : Id) (a : RotateArgs) (n : Nat) : World :=
  match w.node.kevers p with
  | none => w
  | some k => { w with ks := w.ks.applyAll ((advance env w p (a.ncount.getD k.ndigs.length) a).1.take n), node := w.node.restart }

/-- The process stops in a rotation after the event was processed, and after `n` of the keys before the last ones were removed. -/
def crashErase (env : Env) (w : World) (p : Id) (a : RotateArgs) (n : Nat) : World :=
  match w.node.kevers p with
  | none => w
  | some k => match advance env w p (a.ncount.getD k.ndigs.length) a with
    | (ws, .error _) => { w with ks := w.ks.applyAll ws }
    | (ws, .ok keys) =>
      let w1 := (baseRotate env { w with ks := w.ks.applyAll ws } k keys a).1
      { w1 with ks := w1.ks.applyAll (((oldKeys w.ks p).map .prisRem).take n), node := w1.node.restart }

end Verif.Hab
