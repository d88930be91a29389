import Verif.Tel.Model

/-!
# Model of the credential verifier: `Verifier` (src/keri/vdr/verifying.py 26-490) and the credential stores of `Reger` (src/keri/vdr/eventing.py)

Credentials are checked against the transaction event logs of a node of `Verif.Tel`, against schemas and against the credentials their
edges point at.

Not modelled: cues, log output, queries, the contents of schemas (whether a credential fits one is part of the environment), dates (whether an
event or a waiting entry is too old at the time of processing is part of the input), presentation and export of credentials.
-/

namespace Verif.Vry

open Verif.Kel (Id Dig upd ioPut)
open Verif.Tel (TNode TEnv TExn Reger Tever VcSt TInp TIlk)

/-- Tokens of field "o" of an edge; every other token is `unknown`. -/
inductive Op where
  | i2i | ni2i | di2i | e1e | not | unknown
  deriving DecidableEq, Repr

/-- A member of an edge section other than the labels d and o: field "n" (`none`: the member has none or is not a block), the tokens of
field "o" (one or a list; none when absent), field "s". -/
structure Edge where
  n : Option Dig
  ops : List Op
  schema : Option Id
  deriving DecidableEq

/-- A credential (`SerderACDC`): `said`, `regid`, `israid`, `iseaid`, `schema`, and the members of `edge` in order; `none` when the edge section is
neither a block nor a list. -/
structure Cred where
  said : Dig
  regid : Id
  issuer : Id
  issuee : Option Id
  schema : Id
  edges : Option (List Edge)
  deriving DecidableEq

/-- Environment: that of transaction events, and whether a credential is valid against a schema (`Schemer.verify`). -/
structure VEnv where
  tel : TEnv
  fits : Id → Cred → Bool

/-- Ways processing ends other than success. `tel` is an exception of `vcState`, `key` a KeyError or TypeError of a malformed edge. -/
inductive VExn where
  | missingRegistry | missingSchema | failedSchema | validation | missingChain | revokedChain | key | tel (x : TExn)
  deriving DecidableEq

/-- An anchor given with a credential (prefixer, number, diger). -/
abbrev Anchor := Id × Nat × Dig

/-- Credential stores of `Reger` (eventing.py:2314-2353) and the schema cache. `saved` lists digests in the order they were first saved. -/
structure Store where
  creds : Dig → Option Cred
  cancs : Dig → Option Anchor
  saved : List Dig
  issus : Id → List Dig
  subjs : Id → List Dig
  schms : Id → List Dig
  mre : List Dig
  mce : List Dig
  mse : List Dig
  schemas : List Id

/-- A node with a verifier. -/
structure VNode where
  t : TNode
  s : Store

/-- State reached and how it ended. -/
abbrev VOut := VNode × Except VExn Unit

/-- `logCred`, eventing.py:2478-2488: the anchor is overwritten, the credential is not. -/
def Store.logCred (s : Store) (c : Cred) (a : Anchor) : Store :=
  { s with cancs := upd s.cancs c.said (some a),
           creds := match s.creds c.said with
             | none => upd s.creds c.said (some c)
             | some _ => s.creds }

/-- `put` in an escrow: the date of an entry already there stays. -/
def addDig (l : List Dig) (d : Dig) : List Dig := if d ∈ l then l else l ++ [d]

/-- verifying.py:262-275. -/
def Store.escrowMRE (s : Store) (c : Cred) (a : Anchor) : Store := { s.logCred c a with mre := addDig s.mre c.said }
/-- verifying.py:277-290. -/
def Store.escrowMCE (s : Store) (c : Cred) (a : Anchor) : Store := { s.logCred c a with mce := addDig s.mce c.said }
/-- verifying.py:292-307. -/
def Store.escrowMSE (s : Store) (c : Cred) (a : Anchor) : Store := { s.logCred c a with mse := addDig s.mse c.said }

/-- verifying.py:363-389 `saveCredential`. -/
def Store.save (s : Store) (c : Cred) (a : Anchor) : Store :=
  let s := s.logCred c a
  { s with saved := addDig s.saved c.said,
           issus := upd s.issus c.issuer (addDig (s.issus c.issuer) c.said),
           schms := upd s.schms c.schema (addDig (s.schms c.schema) c.said),
           subjs := match c.issuee with
             | none => s.subjs
             | some x => upd s.subjs x (addDig (s.subjs x) c.said) }

/-- `self.tevers[regk].vcState(said)`, with `none` when the registry or the credential is unknown. -/
def status (r : Reger) (k : Id) (d : Dig) : Reger × Except VExn (Option VcSt) :=
  match r.fetch k with
  | (r, none) => (r, .ok none)
  | (r, some t) => match r.vcState t d with
    | .error x => (r, .error (.tel x))
    | .ok o => (r, .ok o)

/-- The subset `DelegativeOps`, verifying.py:48. -/
def Op.delegative : Op → Bool
  | .i2i | .ni2i | .di2i => true
  | _ => false

/-- The subset `UnaryOps`, verifying.py:42. -/
def Op.known : Op → Bool
  | .unknown => false
  | _ => true

/-- The operator in force for the issuer, verifying.py:431-440. -/
def effective (far : Cred) (ops : List Op) : Option Op :=
  let ops := ops.filter Op.known
  if ops = [] then (if far.issuee.isSome then some .i2i else some .ni2i)
  else ops.reverse.find? Op.delegative

/-- verifying.py:400-490 `verifyChain` for an edge of a credential with the given issuer and issuee. -/
def verifyChain (r : Reger) (s : Store) (d : Dig) (ops : List Op) (issuer : Id) (issuee : Option Id) : Reger × Except VExn (Option VcSt) :=
  if d ∉ s.saved then (r, .ok none)
  else match s.creds d with
    | none => (r, .error .key)
    | some far =>
      let op := effective far ops
      if .not ∈ ops then (r, .error .validation)
      else if op = some .di2i then (r, .error .validation)
      else if .e1e ∈ ops ∧ (far.issuee = none ∨ issuee = none ∨ issuee ≠ far.issuee) then (r, .ok none)
      else match op, far.issuee with
        | some .i2i, none => (r, .ok none)
        | some .i2i, some x =>
          if s.subjs x = [] then (r, .ok none)
          else if issuer ≠ x then (r, .ok none)
          else status r far.regid d
        | _, _ => status r far.regid d

/-- A status that says revoked. -/
def VcSt.revoked (x : VcSt) : Bool := x.ilk == .rev || x.ilk == .brv

/-- The loop over edges, verifying.py:171-241. `late d` tells whether the transaction event `d` is too old now. -/
def edges (env : VEnv) (late : Dig → Bool) (c : Cred) (a : Anchor) : VNode → List Edge → VOut
  | v, [] => (v, .ok ())
  | v, e :: es => match e.n with
    | none => (v, .error .key)
    | some d => match verifyChain v.t.reg v.s d e.ops c.issuer c.issuee with
      | (r, .error x) => ({ v with t := { v.t with reg := r } }, .error x)
      | (r, .ok none) => ({ t := { v.t with reg := r }, s := v.s.escrowMCE c a }, .error .missingChain)
      | (r, .ok (some st)) =>
        let v : VNode := { v with t := { v.t with reg := r } }
        let go : VOut :=
          if late st.said then ({ v with s := v.s.escrowMCE c a }, .error .missingChain)
          else if VcSt.revoked st then (v, .error .revokedChain)
          else edges env late c a v es
        match e.schema, v.s.creds d with
        | none, _ => go
        | some _, none => (v, .error .key)
        | some sc, some far =>
          if far.schema = sc then go
          else if sc ∉ v.s.schemas then ({ v with s := v.s.escrowMSE c a }, .error .missingSchema)
          else if !env.fits sc far then ({ v with s := v.s.escrowMCE c a }, .error .missingChain)
          else go

/-- verifying.py:107-244 `processCredential`. A revoked credential is only logged and goes on. -/
def VNode.process (env : VEnv) (late : Dig → Bool) (v : VNode) (c : Cred) (a : Anchor) : VOut :=
  match status v.t.reg c.regid c.said with
  | (r, .error x) => ({ v with t := { v.t with reg := r } }, .error x)
  | (r, .ok none) => ({ t := { v.t with reg := r }, s := v.s.escrowMRE c a }, .error .missingRegistry)
  | (r, .ok (some st)) =>
    let v : VNode := { v with t := { v.t with reg := r } }
    if late st.said then ({ v with s := v.s.escrowMRE c a }, .error .missingRegistry)
    else if c.schema ∉ v.s.schemas then ({ v with s := v.s.escrowMSE c a }, .error .missingSchema)
    else if !env.fits c.schema c then (v, .error .failedSchema)
    else match c.edges with
      | none => (v, .error .validation)
      | some es => match edges env late c a v es with
        | (v, .error x) => (v, .error x)
        | (v, .ok ()) => ({ v with s := v.s.save c a }, .ok ())

/-- The three escrows. -/
inductive Esc where
  | mce | mse | mre
  deriving DecidableEq

/-- Entries of an escrow. -/
def Store.esc (s : Store) : Esc → List Dig
  | .mce => s.mce
  | .mse => s.mse
  | .mre => s.mre

/-- `db.rem(said)`. -/
def Store.drop (s : Store) (k : Esc) (d : Dig) : Store :=
  match k with
  | .mce => { s with mce := s.mce.filter (fun x => !decide (x = d)) }
  | .mse => { s with mse := s.mse.filter (fun x => !decide (x = d)) }
  | .mre => { s with mre := s.mre.filter (fun x => !decide (x = d)) }

/-- The exception that leaves an entry in its escrow, verifying.py:314-316. -/
def Esc.etype : Esc → VExn
  | .mce => .missingChain
  | .mse => .missingSchema
  | .mre => .missingRegistry

/-- One entry of `_processEscrow`, verifying.py:327-360. `timeout d` tells whether the entry is too old. A missing credential would raise out
of the loop; entries always have theirs (`Verif.Vry.VInv`). -/
def VNode.stepE (env : VEnv) (late timeout : Dig → Bool) (k : Esc) (v : VNode) (d : Dig) : VNode :=
  match v.s.creds d, v.s.cancs d with
  | some c, some a =>
    if timeout d then { v with s := v.s.drop k d }
    else match v.process env late c a with
      | (v, .ok ()) => { v with s := v.s.drop k d }
      | (v, .error x) => if x = k.etype then v else { v with s := v.s.drop k d }
  | _, _ => v

/-- verifying.py:318-361; the iteration sees the entries present when it starts. -/
def VNode.passE (env : VEnv) (late timeout : Dig → Bool) (k : Esc) (v : VNode) : VNode :=
  (v.s.esc k).foldl (fun v d => v.stepE env late timeout k d) v

/-- verifying.py:309-316 `processEscrows`. -/
def VNode.pass (env : VEnv) (late timeout : Dig → Bool) (v : VNode) : VNode :=
  ((v.passE env late timeout .mce).passE env late timeout .mse).passE env late timeout .mre

/-! ## Histories -/

/-- Inputs: those of the transaction event node, a credential with its anchor, a schema put in the cache, a pass over the escrows. -/
inductive VInp where
  | tel (i : TInp)
  | cred (late : Dig → Bool) (c : Cred) (a : Anchor)
  | schema (k : Id)
  | pass (late timeout : Dig → Bool)

/-- Effect of an input. -/
def VNode.step (env : VEnv) (v : VNode) : VInp → VNode
  | .tel i => { v with t := v.t.step env.tel i }
  | .cred late c a => (v.process env late c a).1
  | .schema k => { v with s := { v.s with schemas := addDig v.s.schemas k } }
  | .pass late timeout => v.pass env late timeout

/-- Empty stores. -/
def Store.empty : Store :=
  { creds := fun _ => none, cancs := fun _ => none, saved := [], issus := fun _ => [], subjs := fun _ => [], schms := fun _ => [], mre := [],
    mce := [], mse := [], schemas := [] }

/-- A node before any input. -/
def VNode.start (prefixes groups : List Id) (mid : Id → Option Id) : VNode := { t := TNode.start prefixes groups mid, s := Store.empty }

/-- A history run. -/
def VNode.run (env : VEnv) (v : VNode) (h : List VInp) : VNode := h.foldl (fun v i => v.step env i) v

end Verif.Vry
