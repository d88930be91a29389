import Verif.Tel.Model
import Verif.Hab.Model

/-!
# Model of registries of the own identifiers (src/keri/vdr/credentialing.py 35-535 `Regery`, `BaseRegistry`, `Registry`, `SignifyRegistry`; builders of
src/keri/vdr/eventing.py 50-406)

The registry database, the registries in memory and the processing of events are those of `Verif.Tel`; the Tevery of a Regery is local and lax (credentialing.py:62).

Simplifications: names are numbers; the digest of an event that is made is given to the call (it depends on the nonce, on the date and on the serialization); version, kind of
serialization, dates, traits other than NB and log output are left out. `hby.habs` does not change while a Regery lives. Reading the state of a registry puts it into memory
(eventing.py:2121-2135); here that is left to the processing of the event.
-/

namespace Verif.Reg

open Verif.Kel (Id Dig Couple upd upd2 oset ioPut cutsOk)
open Verif.Tel (TNode TEnv TEvt TIlk TExn TInp Reger Tever telGet)

/-- What a call raises: KeyError, ValueError, ValidationError, AttributeError, or what the processing of the event raises. -/
inductive Exn where
  | key | value | validation | attribute | tel (x : TExn)
  deriving DecidableEq

/-- A registry object (`BaseRegistry`), without what it shares with others; `signify`: its class is `SignifyRegistry`. -/
structure Obj where
  name : Nat
  pre : Id
  signify : Bool
  deriving DecidableEq

/-- `recs` is the store `reger.regs` (name, registry key, controller), `regs` the registries in memory by key, `habs` the prefixes of `hby.habs`. -/
structure World where
  t : TNode
  recs : List (Nat × Id × Id)
  regs : Id → Option Obj
  habs : List Id

/-- A Regery over an empty database. -/
def World.start (t : TNode) (habs : List Id) : World := ⟨t, [], fun _ => none, habs⟩

/-- `reger.regs.get`. -/
def World.rec? (w : World) (name : Nat) : Option (Id × Id) := (w.recs.find? fun x => decide (x.1 = name)).map (·.2)

/-- credentialing.py:125-128 `registryByName`: the key and the object. -/
def World.byName (w : World) (name : Nat) : Option (Id × Obj) :=
  match w.rec? name with
  | none => none
  | some (k, _) => match w.regs k with
    | none => none
    | some o => some (k, o)

/-- credentialing.py:256-268 `processEvent`: a missing anchor is not an error. -/
def World.process (env : TEnv) (w : World) (e : TEvt) : World × Except Exn Unit :=
  let o := w.t.reg.processEvent env w.t.node true true e none []
  let w := { w with t := { w.t with reg := o.1 } }
  match o.2 with
  | .ok _ => (w, .ok ())
  | .error .missingAnchor => (w, .ok ())
  | .error x => (w, .error (.tel x))

/-- credentialing.py:330-332, 450-452: own from now on; `put` does not replace a record of the same name. -/
def World.record (w : World) (name : Nat) (pre k : Id) : World :=
  { w with t := { w.t with reg := { w.t.reg with registries := k :: w.t.reg.registries } },
           recs := match w.rec? name with
             | none => w.recs ++ [(name, k, pre)]
             | some _ => w.recs }

/-- A transaction event with nothing in it. -/
def blank : TEvt :=
  { ilk := .other, pre := 0, sn := 0, said := 0, prior := 0, issuer := 0, baks := [], toad := 0, noBackers := false, cuts := [], adds := [], ri := 0, raI := 0, raD := 0 }

/-- eventing.py:50-121 `incept`: both "d" and "i" are the digest. -/
def buildVcp (pre : Id) (d : Dig) (nb : Bool) (toad : Option Int) (baks : List Id) : Except Exn TEvt :=
  if nb = true ∧ baks ≠ [] then .error .value
  else if (oset baks).length ≠ baks.length then .error .value
  else match Hab.toadFor toad baks with
    | .error _ => .error .value
    | .ok n => .ok { blank with ilk := .vcp, pre := d, said := d, issuer := pre, baks := baks, toad := n, noBackers := nb }

/-- eventing.py:124-219 `rotate`. -/
def buildVrt (regk : Id) (prior : Dig) (sn : Nat) (baks : List Id) (d : Dig) (toad : Option Int) (cuts adds : List Id) : Except Exn TEvt :=
  if sn < 1 then .error .value
  else if (oset baks).length ≠ baks.length then .error .value
  else if (oset cuts).length ≠ cuts.length then .error .value
  else if !cutsOk baks cuts then .error .value
  else if (oset adds).length ≠ adds.length then .error .value
  else if cuts.any (fun c => decide (c ∈ adds)) then .error .value
  else if baks.any (fun c => decide (c ∈ adds)) then .error .value
  else
    let new := ioPut ((oset baks).filter (fun w => !decide (w ∈ cuts))) adds
    if new.length + cuts.length ≠ baks.length + adds.length then .error .value
    else match Hab.toadFor toad new with
      | .error _ => .error .value
      | .ok n => .ok { blank with ilk := .vrt, pre := regk, sn := sn, said := d, prior := prior, toad := n, cuts := cuts, adds := adds }

/-- eventing.py:222-257 `issue` and 307-354 `backerIssue`. -/
def buildIss (t : Tever) (k : Id) (d : Dig) (vci : Id) : TEvt :=
  if t.noBackers then { blank with ilk := .iss, pre := vci, said := d, ri := k }
  else { blank with ilk := .bis, pre := vci, said := d, issuer := k, raI := k, raD := t.serder.said }

/-- eventing.py:260-304 `revoke` and 357-406 `backerRevoke`. -/
def buildRev (t : Tever) (k : Id) (d : Dig) (vci : Id) (prior : Dig) : TEvt :=
  if t.noBackers then { blank with ilk := .rev, pre := vci, sn := 1, said := d, prior := prior, ri := k }
  else { blank with ilk := .brv, pre := vci, sn := 1, said := d, prior := prior, raI := k, raD := t.serder.said }

/-- What a registry can be asked to make. -/
inductive Ask where
  | rotate (toad : Option Int) (cuts adds : List Id)
  | issue (vci : Id)
  | revoke (vci : Id)

/-- Protocol of a message, told by its version string. -/
inductive Proto where
  | keri | acdc
  deriving DecidableEq

/-- Events of registries are messages of KERI (eventing.py:79, 157, 244, 284, 333, 385: `versify` with the protocol left at its default). -/
def protoOf (_ : TEvt) : Proto := .keri

/-- The event made by registry `k`, credentialing.py:337-361, 366-388, 393-425 and, for `signify`, 479-498, 503-532. Reading back the issuance takes KERI in the one class
(411) and ACDC in the other (521), serdering.py:744-746. A SignifyRegistry makes no rotations. -/
def build (r : Reger) (signify : Bool) (k : Id) (d : Dig) : Ask → Except Exn TEvt
  | .rotate toad cuts adds => match (r.fetch k).2 with
    | none => .error .key
    | some t => if t.noBackers then .error .value
      else buildVrt k t.serder.said (t.serder.sn + 1) t.baks d toad cuts adds
  | .issue vci => match (r.fetch k).2 with
    | none => .error .key
    | some t => .ok (buildIss t k d vci)
  | .revoke vci => match telGet (r.tels vci) 0 with
    | none => .error .validation
    | some g => match r.tvts vci g with
      | none => .error .attribute
      | some x =>
        if protoOf x ≠ (if signify then .acdc else .keri) then .error .validation
        else match (r.fetch k).2 with
          | none => .error .key
          | some t => .ok (buildRev t k d vci x.said)

/-- `Registry.rotate`, `.issue` and `.revoke`, `SignifyRegistry.issue` and `.revoke` (credentialing.py:337-428, 479-535). -/
def World.ask (env : TEnv) (w : World) (signify : Bool) (k : Id) (d : Dig) (a : Ask) : World × Except Exn TEvt :=
  match build w.t.reg signify k d a with
  | .error x => (w, .error x)
  | .ok e => match w.process env e with
    | (w, .error x) => (w, .error x)
    | (w, .ok _) => (w, .ok e)

/-- A value of Python: text or a number. Text and numbers are never equal. -/
inductive Py where
  | str (hex : Nat) | int (n : Nat)
  deriving DecidableEq

/-- credentialing.py:461-477 `SignifyRegistry.rotate`: the number as found in the event (text in hex) is compared with a number. -/
def World.signifyRotate (env : TEnv) (w : World) (k : Id) (e : TEvt) : World × Except Exn TEvt :=
  match (w.t.reg.fetch k).2 with
  | none => (w, .error .key)
  | some t =>
    if t.noBackers then (w, .error .value)
    else if Py.str e.sn ≠ Py.int (t.serder.sn + 1) then (w, .error .value)
    else match w.process env e with
      | (w, .error x) => (w, .error x)
      | (w, .ok _) => (w, .ok e)

/-- credentialing.py:100-110, 325-335 `makeRegistry` with a given inception event, and 112-123, 437-459 `makeSignifyRegistry`, which does not mind a likely duplicity. The record is
written first; the object is kept only when nothing was raised. -/
def World.make (env : TEnv) (w : World) (signify : Bool) (name : Nat) (pre : Id) (e : TEvt) : World × Except Exn Unit :=
  if pre ∉ w.habs then (w, .error .key)
  else match (w.record name pre e.pre).process env e with
    | (w, .error x) =>
      if signify = true ∧ x = .tel .likelyDuplicitous then ({ w with regs := upd w.regs e.pre (some ⟨name, pre, signify⟩) }, .ok ())
      else (w, .error x)
    | (w, .ok _) => ({ w with regs := upd w.regs e.pre (some ⟨name, pre, signify⟩) }, .ok ())

/-- credentialing.py:100-110, 291-335 `makeRegistry` with the inception event built from its parameters. -/
def World.makeNew (env : TEnv) (w : World) (name : Nat) (pre : Id) (d : Dig) (nb : Bool) (toad : Option Int) (baks : List Id) : World × Except Exn Unit :=
  if pre ∉ w.habs then (w, .error .key)
  else match buildVcp pre d nb toad baks with
    | .error x => (w, .error x)
    | .ok e => w.make env false name pre e

/-- credentialing.py:270-282 `anchorMsg`: does not replace. -/
def World.anchor (w : World) (p : Id) (d : Dig) (c : Couple) : World :=
  match w.t.reg.ancs p d with
  | none => { w with t := { w.t with reg := { w.t.reg with ancs := upd2 w.t.reg.ancs p d (some c) } } }
  | some _ => w

/-- The objects of the records, the last of those with the same key. -/
def loaded (recs : List (Nat × Id × Id)) : Id → Option Obj :=
  recs.foldl (fun f x => upd f x.2.1 (some ⟨x.1, x.2.2, false⟩)) fun _ => none

/-- A new Regery over the same database, with the prefixes `habs` (credentialing.py:66-98 `setup`, `loadRegistries`): a record whose prefix is not among them raises KeyError.
All objects are of class `Registry`. -/
def World.restart (w : World) (habs : List Id) : World × Except Exn Unit :=
  if w.recs.all (fun x => decide (x.2.2 ∈ habs)) then
    ({ w with t := { w.t with reg := { w.t.reg with tevers := fun _ => none, registries := w.recs.map (·.2.1) } }, regs := loaded w.recs, habs := habs }, .ok ())
  else ({ w with t := { w.t with reg := { w.t.reg with tevers := fun _ => none, registries := [] } }, regs := fun _ => none, habs := habs }, .error .key)

/-- Inputs: calls, a seal told, a restart with the same prefixes, and whatever the node under it gets. -/
inductive Inp where
  | make (signify : Bool) (name : Nat) (pre : Id) (e : TEvt)
  | makeNew (name : Nat) (pre : Id) (d : Dig) (nb : Bool) (toad : Option Int) (baks : List Id)
  | ask (signify : Bool) (k : Id) (d : Dig) (a : Ask)
  | rotate (k : Id) (e : TEvt)
  | anchor (p : Id) (d : Dig) (c : Couple)
  | restart
  | node (i : TInp)

/-- Effect of an input. -/
def World.step (env : TEnv) (w : World) : Inp → World
  | .make s name pre e => (w.make env s name pre e).1
  | .makeNew name pre d nb toad baks => (w.makeNew env name pre d nb toad baks).1
  | .ask s k d a => (w.ask env s k d a).1
  | .rotate k e => (w.signifyRotate env k e).1
  | .anchor p d c => w.anchor p d c
  | .restart => (w.restart w.habs).1
  | .node i => { w with t := w.t.step env i }

/-- A history run. -/
def World.run (env : TEnv) (w : World) (h : List Inp) : World := h.foldl (fun w i => w.step env i) w

end Verif.Reg
