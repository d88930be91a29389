import Verif.Kel.Model
import Verif.Codec.Counter
import Verif.Krm.Tab

/-!
# Replay protection: `Kramer` (src/keri/core/kraming.py)

Times are whole microseconds, the resolution of the time stamps; the code computes with floating point milliseconds, whose rounding is not
modelled.  Windows are whole milliseconds.  What is stored of attachments that do not authenticate the sender (kraming.py:782-842) and given
back with the message is not modelled, nor are cues.
-/

namespace Verif.Krm

open Verif.Thold (Thold)
open Verif.Kel (Id Dig Sig)

/-- Message types are texts, `Ilks.xip` and `Ilks.exn` are special. -/
abbrev Ilk := List Char
def xip : Ilk := ['x', 'i', 'p']
def exn : Ilk := ['e', 'x', 'n']

/-- What `Kramer` reads of a message: `msg.pre`, `.said`, `.ilk`, `.route` (none or not empty), `.stamp`, `.pvrsn` and the field "x" (none or not
empty). -/
structure Msg where
  sender : Id
  said : Dig
  ilk : Ilk
  route : Option (List Char)
  stamp : Option Int
  pvrsn : Nat × Nat
  x : Option Dig
  deriving DecidableEq

/-- The attachments that can authenticate the sender. -/
structure Kwa where
  sigers : List Sig := []
  cigars : List (Id × Nat) := []
  lsgs : List (Id × List Sig) := []
  tsgs : List (Id × Nat × Dig × List Sig) := []
  sscs : List (Nat × Dig) := []
  ssts : List (Id × Nat × Dig) := []
  deriving DecidableEq

/-- Current key state of an identifier (`db.kevers`). -/
structure Ks where
  sn : Nat
  said : Dig
  keys : List Id
  kt : Thold

/-- What is known of key events at some time, and cryptography: current key states, last event at a number, digests in the seals of an event
(field "d"). -/
structure Env where
  verify : Id → Nat → Msg → Bool
  transferable : Id → Bool
  kevers : Id → Option Ks
  kels : Id → Nat → Option Dig
  seals : Id → Dig → Option (List Dig)

/-- recording.py:430-463 `CacheTypeRecord`. -/
structure Rec where
  d : Int
  sl : Int
  ll : Int
  xl : Int
  psl : Int
  pll : Int
  pxl : Int
  deriving DecidableEq

/-- Keys of cache types: `~`, a message type, a message type and route (`qry.R.open/sesame`).  Message types contain no dots. -/
inductive Ctype where
  | any
  | typ (ilk : Ilk)
  | rte (ilk : Ilk) (route : List Char)
  deriving DecidableEq

/-- recording.py:470-521 `MsgCacheRecord` and `TxnMsgCacheRecord`. -/
structure Cache where
  mdt : Int
  xdt : Int := 0
  d : Int
  ml : Int
  pml : Int
  xl : Int
  pxl : Int
  deriving DecidableEq

/-- A change that waits (kraming.py:1680-1687). -/
structure Pend where
  sl : Int
  ll : Int
  xl : Int
  start : Int
  delta : Int
  deriving DecidableEq

inductive Exn where
  | missingAuth | missingKeyState | kram | config | attribute | value
  deriving DecidableEq, Repr

/-- `Kramer` with the sub-databases it uses (basing.py:1264-1285). -/
structure Krm where
  enabled : Bool := true
  denials : List (List Char) := []
  cf : Tab Ctype Rec := []
  pending : Tab Ctype Pend := []
  ctyp : Tab Ctype Rec := []
  msgc : Tab (Id × Dig) Cache := []
  tmsc : Tab (Id × Dig × Dig) Cache := []
  pmkm : Tab (Id × Dig) Msg := []
  pmks : Tab (Id × Dig) (List Sig) := []
  pmsk : Tab (Id × Dig) (Nat × Dig) := []

/-! ## Configuration -/

/-- kraming.py:149-185 `_parseValidateCtyp`, after `int`. -/
def validRec (r : Rec) : Bool :=
  decide (0 ≤ r.d) && decide (0 < r.sl ∧ r.sl ≤ r.ll ∧ r.ll ≤ r.xl) && decide (r.sl ≤ r.psl) && decide (r.ll ≤ r.pll) && decide (r.xl ≤ r.pxl)

/-- kraming.py:187-192 `_validateCtypConfig`. -/
def validCf (cf : Tab Ctype Rec) : Bool := cf.all (fun e => validRec e.2)

/-- kraming.py:194-204 `_populateCtyp`. -/
def populate (ctyp cf : Tab Ctype Rec) : Tab Ctype Rec := cf.foldl (fun t e => t.pin e.1 e.2) ctyp

/-- A new `Kramer` on an existing database (kraming.py:103-127). -/
def open_ (k : Krm) (enabled : Bool) (denials : List (List Char)) (cf : Tab Ctype Rec) : Except Exn Krm :=
  if validCf cf then .ok { k with enabled := enabled, denials := denials, cf := cf, pending := [], ctyp := populate k.ctyp cf } else .error .config

/-- kraming.py:267-311 `_fetchCacheType`: the iteration over all keys that begin with the type finds the exact one, or the type, if there. -/
def fetch (ctyp : Tab Ctype Rec) (m : Msg) : Except Exn Rec :=
  match (match m.route with | some r => ctyp.get (.rte m.ilk r) | none => none) with
  | some r => .ok r
  | none => match ctyp.get (.typ m.ilk) with
    | some r => .ok r
    | none => match ctyp.get .any with
      | some r => .ok r
      | none => .error .kram

/-! ## Attachments -/

/-- kraming.py:379-410 `_normalizeSenderSeals`. -/
def normSeals (s : Id) (k : Kwa) : Kwa :=
  { k with sscs := k.sscs ++ (k.ssts.filter (fun t => t.1 = s)).map (fun t => (t.2.1, t.2.2)), ssts := k.ssts.filter (fun t => t.1 ≠ s) }

/-- kraming.py:413-437 `_normalizeSenderTlsgs`. -/
def normLast (s : Id) (k : Kwa) : Kwa :=
  { k with sigers := k.sigers ++ (k.lsgs.filter (fun l => l.1 = s)).flatMap (·.2), lsgs := k.lsgs.filter (fun l => l.1 ≠ s) }

/-- kraming.py:315-347 `_hasSeals`. -/
def hasSeals (s : Id) (k : Kwa) : Bool := !k.sscs.isEmpty || k.ssts.any (fun t => decide (t.1 = s))

/-- kraming.py:351-376 `_hasSigs`. -/
def hasSigs (s : Id) (k : Kwa) : Bool :=
  !k.sigers.isEmpty || k.cigars.any (fun c => decide (c.1 = s)) || k.lsgs.any (fun l => decide (l.1 = s)) || k.tsgs.any (fun t => decide (t.1 = s))

/-- Made with the current key state of the sender. -/
def current (s : Id) (ks : Ks) (t : Id × Nat × Dig × List Sig) : Bool := decide (t.1 = s ∧ t.2.1 = ks.sn ∧ t.2.2.1 = ks.said)

/-- kraming.py:439-466 `_normalizeCurrentSenderTsgs`. -/
def normCurrent (s : Id) (ks : Ks) (k : Kwa) : Kwa := { k with sigers := k.sigers ++ (k.tsgs.filter (current s ks)).flatMap (·.2.2.2) }

/-- kraming.py:524-579 `_scrubSameSenderPriorEventTsgs`; the signatures made with earlier keys it returns are not used. -/
def scrubPrior (s : Id) (ks : Ks) (k : Kwa) : Kwa := { k with tsgs := k.tsgs.filter (fun t => decide (t.1 ≠ s) || current s ks t) }

/-- core/eventing.py:316-359 `verifySigs` over the message. -/
def verifySigs (env : Env) (m : Msg) (ss : List Sig) (keys : List Id) : List Sig :=
  (Verif.Kel.oset ss).filter fun s => match keys[s.index]? with
    | none => false
    | some k => env.verify k s.raw m

/-- kraming.py:581-626 `_scrubFailedVerification`. -/
def scrubFailed (s : Id) (ks : Ks) (k : Kwa) (verified : List Sig) : Kwa :=
  { k with
    sigers := k.sigers.filter (· ∈ verified)
    lsgs := k.lsgs.filterMap fun l => if l.1 ≠ s then some l else
      let f := l.2.filter (· ∈ verified)
      if f = [] then none else some (l.1, f)
    tsgs := k.tsgs.filterMap fun t => if t.1 ≠ s then some t
      else if current s ks t then
        let f := t.2.2.2.filter (· ∈ verified)
        if f = [] then none else some (t.1, t.2.1, t.2.2.1, f)
      else none }

/-- kraming.py:680-701: all signatures attached as made with the current keys of the sender. -/
def pool (s : Id) (ks : Ks) (k : Kwa) : List Sig :=
  k.sigers ++ (k.lsgs.filter (fun l => l.1 = s)).flatMap (·.2) ++ (k.tsgs.filter (current s ks)).flatMap (·.2.2.2)

/-- kraming.py:628-714 `_verifyAttachedSigs`: verified, the signatures and the attachments left. -/
def verifyAttached (env : Env) (m : Msg) (ks : Ks) (k : Kwa) : Bool × List Sig × Kwa :=
  let k := scrubPrior m.sender ks (normCurrent m.sender ks k)
  if k.cigars.any (fun c => !env.transferable c.1 && decide (m.sender = c.1) && env.verify c.1 c.2 m) then (true, [], k)
  else
    let vs := verifySigs env m (pool m.sender ks k) ks.keys
    (!vs.isEmpty, vs, scrubFailed m.sender ks k vs)

/-- kraming.py:716-780 `_validateSenderSeal`: only the last seal counts. -/
def validateSeal (env : Env) (m : Msg) (k : Kwa) : Except Exn Bool :=
  let candidates := k.sscs ++ (k.ssts.filter (fun t => t.1 = m.sender)).map (fun t => (t.2.1, t.2.2))
  match candidates.getLast? with
  | none => .ok false
  | some (sn, dig) => match env.kels m.sender sn with
    | none => .error .missingKeyState
    | some d => if d ≠ dig then .ok false
      else match env.seals m.sender d with
        | none => .error .missingKeyState
        | some ds => .ok (decide (m.said ∈ ds))

/-- kraming.py:37-51 `AuthTypes`. -/
inductive Auth where
  | asr | assk | asmk
  deriving DecidableEq, Repr

def sigAuth (ks : Ks) : Auth := if ks.keys.length = 1 then .assk else .asmk

/-- kraming.py:468-513 `_resolveAuthType`; without seals and signatures it is not reached. -/
def resolve (env : Env) (m : Msg) (k : Kwa) (ks : Ks) (seals sigs : Bool) : Option (Auth × Bool) :=
  if seals && !sigs then some (.asr, false)
  else if sigs && !seals then some (sigAuth ks, false)
  else if seals && sigs then
    match validateSeal env m k with
    | .ok true => some (.asr, true)
    | _ => some (sigAuth ks, false)
  else none

/-! ## Messages -/

/-- kraming.py:1022-1031: the exchange a message belongs to. -/
def exId (m : Msg) : Option Dig :=
  if m.ilk = xip then some m.said
  else if m.ilk = exn then if 2 ≤ m.pvrsn.1 then m.x else none
  else none

/-- Inside of the window of messages (kraming.py:1179, 1428, 1489). -/
def timely (now mdt d ml : Int) : Bool := decide (now - 1000 * d - 1000 * ml ≤ mdt ∧ mdt ≤ now + 1000 * d)

/-- kraming.py:882-884: the signatures given back with the message, ordered by index. -/
def insertSig (s : Sig) : List Sig → List Sig
  | [] => [s]
  | t :: l => if t.index ≤ s.index then t :: insertSig s l else s :: t :: l
def sortSigs (l : List Sig) : List Sig := l.foldl (fun acc s => insertSig s acc) []

/-- `kramPMKS.add(key, sig)` for all of a list: a set in order of insertion. -/
def addSigs (t : Tab (Id × Dig) (List Sig)) (key : Id × Dig) (l : List Sig) : Tab (Id × Dig) (List Sig) :=
  l.foldl (fun t s => if s ∈ t.items key then t else t.pin key (t.items key ++ [s])) t

/-- Result of a delivery. -/
abbrev Out := Krm × Except Exn (Option Kwa)

/-- kraming.py:1096-1103, 1329-1336: the keys have changed since signatures began to wait. -/
def stale (stored : Option (Nat × Dig)) (ks : Ks) : Bool :=
  match stored with
  | some s => decide (s ≠ (ks.sn, ks.said))
  | none => false

/-- kraming.py:1110-1112, 1343-1345: signatures whose index is not there yet. -/
def unseen (existing vs : List Sig) : List Sig := vs.filter (fun s => s.index ∉ existing.map Sig.index)

/-- kraming.py:1114-1123, 1347-1356: they are stored. -/
def gather (k : Krm) (m : Msg) (ks : Ks) (l : List Sig) : Krm :=
  let key := (m.sender, m.said)
  { k with
    pmks := addSigs k.pmks key l
    pmkm := if l ≠ [] then k.pmkm.put key m else k.pmkm
    pmsk := if l ≠ [] ∧ k.pmsk.get key = none then k.pmsk.pin key (ks.sn, ks.said) else k.pmsk }

/-- kraming.py:1087-1138 and 1319-1371: signatures accumulate in the partially signed escrow. -/
def accumulate (env : Env) (k : Krm) (m : Msg) (ks : Ks) (kwa : Kwa) : Out :=
  let key := (m.sender, m.said)
  let v := verifyAttached env m ks kwa
  if v.1 = false then (k, .ok none)
  else if stale (k.pmsk.get key) ks then (k, .ok none)
  else
    let existing := k.pmks.items key
    let fresh := unseen existing v.2.1
    let k' := gather k m ks fresh
    if existing ++ fresh ≠ [] ∧ Verif.Thold.satisfy ks.kt ((existing ++ fresh).map Sig.index) = true then
      (k', .ok (some { v.2.2 with sigers := if k'.pmks.items key = [] then v.2.2.sigers else sortSigs (k'.pmks.items key) }))
    else (k', .ok none)

/-- kraming.py:1038-1138 and 1269-1371: a message that is in the cache. -/
def again (env : Env) (k : Krm) (m : Msg) (mdt : Int) (kwa : Kwa) (seals sigs : Bool) (c : Cache) : Out :=
  if mdt ≤ c.mdt ∧ k.pmkm.get (m.sender, m.said) = none then (k, .ok none)
  else if seals && !sigs then (k, .ok none)
  else match env.kevers m.sender with
    | none => (k, .error .missingKeyState)
    | some ks =>
      match (if seals && sigs then validateSeal env m kwa else .ok false) with
      | .error e => (k, .error e)
      | .ok true => (k, .ok none)
      | .ok false => if ks.keys.length = 1 then (k, .ok none) else accumulate env k m ks kwa

/-- The seal, unless it was validated before (kraming.py:1186-1206, 1440-1460). -/
def sealOk (env : Env) (m : Msg) (kwa : Kwa) (validated : Bool) : Bool :=
  validated || (match validateSeal env m kwa with | .ok b => b | .error _ => false)

/-- kraming.py:1183-1262 and 1437-1548: authentication of a message that is not in the cache; `pin` writes the cache. -/
def authenticate (env : Env) (k : Krm) (m : Msg) (ks : Ks) (kwa : Kwa) (auth : Auth) (validated : Bool) (pin : Krm → Krm) : Out :=
  match auth with
  | .asr => if sealOk env m kwa validated then (pin k, .ok (some kwa)) else (k, .ok none)
  | .assk =>
    let (ok, _, kwa) := verifyAttached env m ks kwa
    if ok then (pin k, .ok (some kwa)) else (k, .ok none)
  | .asmk =>
    let (ok, vs, kwa) := verifyAttached env m ks kwa
    if !ok then (k, .ok none)
    else
      let k := pin k
      if Verif.Thold.satisfy ks.kt (vs.map Sig.index) then (k, .ok (some kwa))
      else
        let key := (m.sender, m.said)
        ({ k with pmkm := k.pmkm.put key m, pmks := addSigs k.pmks key vs, pmsk := k.pmsk.pin key (ks.sn, ks.said) }, .ok none)

/-- kraming.py:1165-1171, 1396-1402: the lags by authentication type. -/
def lags (r : Rec) : Auth → Int × Int
  | .asmk => (r.ll, r.pll)
  | _ => (r.sl, r.psl)

/-- kraming.py:1140-1262: a message of no exchange that is not in the cache. -/
def fresh1 (env : Env) (now : Int) (k : Krm) (m : Msg) (mdt : Int) (kwa : Kwa) (seals sigs : Bool) : Out :=
  match fetch k.ctyp m with
  | .error e => (k, .error e)
  | .ok r => match env.kevers m.sender with
    | none => (k, .error .missingKeyState)
    | some ks => match resolve env m kwa ks seals sigs with
      | none => (k, .ok none)
      | some (auth, validated) =>
        let (ml, pml) := lags r auth
        if !timely now mdt r.d ml then (k, .ok none)
        else authenticate env k m ks kwa auth validated
          (fun k => { k with msgc := k.msgc.pin (m.sender, m.said) ⟨mdt, 0, r.d, ml, pml, r.xl, r.pxl⟩ })

/-- kraming.py:1405-1421, 1493-1508: when the exchange began.  Of the messages of an exchange in the cache the code takes the first by key. -/
def began (k : Krm) (m : Msg) (x : Dig) (mdt : Int) : Option Int :=
  if m.ilk = xip then some mdt
  else (k.tmsc.find? (fun e => e.1.1 = m.sender ∧ e.1.2.1 = x)).map (·.2.xdt)

/-- kraming.py:1373-1550: a message of an exchange that is not in the cache. -/
def fresh2 (env : Env) (now : Int) (k : Krm) (m : Msg) (x : Dig) (mdt : Int) (kwa : Kwa) (seals sigs : Bool) : Out :=
  match fetch k.ctyp m with
  | .error e => (k, .error e)
  | .ok r => match env.kevers m.sender with
    | none => (k, .error .missingKeyState)
    | some ks => match resolve env m kwa ks seals sigs with
      | none => (k, .error .kram)
      | some (auth, validated) =>
        let (ml, pml) := lags r auth
        match began k m x mdt with
        | none => (k, .ok none)
        | some xdt =>
          if !timely now mdt r.d ml then (k, .ok none)
          else if ¬ (xdt ≤ mdt ∧ mdt ≤ xdt + 1000 * r.xl) then (k, .ok none)
          else authenticate env k m ks kwa auth validated
            (fun k => { k with tmsc := k.tmsc.pin (m.sender, x, m.said) ⟨mdt, xdt, r.d, ml, pml, r.xl, r.pxl⟩ })

/-- kraming.py:972-1550 `kramit`: the state after it, and an exception, nothing (dropped or pending), or the attachments to go on with. -/
def kramit (env : Env) (now : Int) (k : Krm) (m : Msg) (kwa : Kwa) : Out :=
  match m.stamp with
  | none => (k, .ok none)
  | some mdt =>
    let kwa := normLast m.sender (normSeals m.sender kwa)
    let seals := hasSeals m.sender kwa
    let sigs := hasSigs m.sender kwa
    if !seals && !sigs then (k, .error .missingAuth)
    else match exId m with
      | none => match k.msgc.get (m.sender, m.said) with
        | some c => again env k m mdt kwa seals sigs c
        | none => fresh1 env now k m mdt kwa seals sigs
      | some x => match k.tmsc.get (m.sender, x, m.said) with
        | some c => again env k m mdt kwa seals sigs c
        | none => fresh2 env now k m x mdt kwa seals sigs

/-- kraming.py:257-264 `denial`; a missing route is the text "None". -/
def denial (m : Msg) : List Char :=
  (match Verif.Ctr.verToB64 m.pvrsn.1 m.pvrsn.2 with | .ok v => v | .error _ => []) ++ ['.'] ++ m.ilk ++ ['.'] ++ m.route.getD ['N', 'o', 'n', 'e']

/-- kraming.py:953-969 `intake`. -/
def intake (env : Env) (now : Int) (k : Krm) (m : Msg) (kwa : Kwa) : Out :=
  if k.enabled then
    if k.denials.any (fun d => d.isPrefixOf (denial m)) then (k, .ok (some kwa)) else kramit env now k m kwa
  else (k, .ok (some kwa))

/-! ## Pruning -/

/-- kraming.py:2117-2123, 2150-2155. -/
def dropPartial (k : Krm) (key : Id × Dig) : Krm := { k with pmkm := k.pmkm.rem key, pmks := k.pmks.rem key, pmsk := k.pmsk.rem key }

/-- kraming.py:2116: `rdt` in milliseconds. -/
def keepMsg (rdt : Int) (c : Cache) : Bool := decide (rdt - c.d - c.pml ≤ c.mdt / 1000 ∧ c.mdt / 1000 ≤ rdt + c.d)

/-- kraming.py:2095-2127 `_pruneMessages`. -/
def pruneMessages (rdt : Int) (k : Krm) : Krm :=
  k.msgc.foldl (fun k e => if keepMsg rdt e.2 then k else dropPartial { k with msgc := k.msgc.rem e.1 } e.1) k

/-- kraming.py:2148. -/
def keepExchange (rdt : Int) (c : Cache) : Bool := decide (c.xdt / 1000 ≤ rdt ∧ rdt ≤ c.xdt / 1000 + c.pxl)

/-- kraming.py:2129-2159 `_pruneExchanges`. -/
def pruneExchanges (rdt : Int) (k : Krm) : Krm :=
  k.tmsc.foldl (fun k e => if keepExchange rdt e.2 then k else dropPartial { k with tmsc := k.tmsc.rem e.1 } (e.1.1, e.1.2.2)) k

/-- kraming.py:2173-2179: a round of `Pruner`. -/
def prune (now : Int) (k : Krm) : Krm := pruneExchanges (now / 1000) (pruneMessages (now / 1000) k)

/-! ## Changes of configuration -/

/-- kraming.py:1927-1933, 1943-1949, 2073-2080: the first pattern covers the second (kraming.py:1863-1882: every key has one pattern). -/
def covers : Ctype → Ctype → Bool
  | .any, _ => true
  | .typ i, .typ j => decide (i = j)
  | .typ i, .rte j _ => decide (i = j)
  | .typ _, .any => false
  | .rte i r, .rte j q => decide (i = j ∧ r = q)
  | .rte _ _, _ => false

/-- kraming.py:2025-2092 `_validateCoverage`. -/
def coverage (old new : Tab Ctype Rec) : Bool := old.all (fun o => new.any (fun n => covers n.1 o.1))

/-- `min(…)` of a list that is not empty. -/
def minOf : List Int → Int
  | [] => 0
  | a :: l => l.foldl min a

/-- The short lags of the cache types that cover a pattern. -/
def accept (cf : Tab Ctype Rec) (p : Ctype) : List Int := (cf.filter (fun e => covers e.1 p)).map (·.2.sl)

/-- kraming.py:1953-1959: the pattern is new or its cache types have changed. -/
def differs (old new : Tab Ctype Rec) (p : Ctype) : Bool :=
  old.all (fun e => e.1 ≠ p) ||
    !((old.filter (fun e => covers e.1 p)).all (fun e => new.any (fun n => n.1 = e.1)) &&
      (new.filter (fun e => covers e.1 p)).all (fun e => old.any (fun n => n.1 = e.1)))

/-- kraming.py:1885-1961 `_computeCoverageDiff` and 1964-2022 `_computeWorstCaseDelta`. -/
def delta3 (old new : Tab Ctype Rec) : Int :=
  ((old ++ new).map (·.1)).foldl (fun acc p =>
    if differs old new p then
      max acc (max 0 (minOf (accept new p) - (if old.all (fun e => e.1 ≠ p) then 0 else minOf (accept old p))))
    else acc) 0

/-- kraming.py:1657-1759: one cache type of the new configuration. -/
def changeOne (now : Int) (old : Tab Ctype Rec) (override : Option Int) (d3 : Int) (k : Krm) (e : Ctype × Rec) : Krm :=
  let n := e.2
  match old.get e.1 with
  | none =>
    if override = none ∧ d3 = 0 then { k with ctyp := k.ctyp.pin e.1 n }
    else
      { k with
        pending := k.pending.pin e.1 ⟨n.sl, n.ll, n.xl, now, override.getD d3⟩
        ctyp := k.ctyp.pin e.1 ⟨n.d, minOf (old.map (·.2.sl)), minOf (old.map (·.2.ll)), minOf (old.map (·.2.xl)), max n.psl n.sl, max n.pll n.ll,
          max n.pxl n.xl⟩ }
  | some o =>
    if n.sl ≤ o.sl ∧ n.ll ≤ o.ll ∧ n.xl ≤ o.xl ∧ n.psl ≤ o.psl ∧ n.pll ≤ o.pll ∧ n.pxl ≤ o.pxl then
      { k with ctyp := k.ctyp.pin e.1 ⟨o.d, n.sl, n.ll, n.xl, n.psl, n.pll, n.pxl⟩ }
    else
      let delta := override.getD (max (max (max 0 (n.sl - o.sl)) (max (max 0 (n.ll - o.ll)) (max 0 (n.xl - o.xl)))) d3)
      { k with
        pending := k.pending.pin e.1 ⟨n.sl, n.ll, n.xl, now, delta⟩
        ctyp := k.ctyp.pin e.1 ⟨o.d, o.sl, o.ll, o.xl, max n.psl n.sl, max n.pll n.ll, max n.pxl n.xl⟩ }

/-- kraming.py:1621-1629: an override must be positive. -/
def badOverride : Option Int → Bool
  | some o => decide (o ≤ 0)
  | none => false

/-- kraming.py:1552-1766 `changeConfig`. -/
def changeConfig (now : Int) (k : Krm) (new : Tab Ctype Rec) (override : Option Int) : Krm × Except Exn Unit :=
  if badOverride override then (k, .error .config)
  else if !validCf new then (k, .error .config)
  else if !coverage k.cf new then (k, .error .kram)
  else
    let old := k.cf
    let k := new.foldl (changeOne now old override (delta3 old new)) k
    let k := old.foldl (fun k e => if new.any (fun n => n.1 = e.1) then k else { k with ctyp := k.ctyp.rem e.1 }) k
    ({ k with cf := new }, .ok ())

/-- kraming.py:1805-1827 `reconcileConfig`: a change that waits for a cache type removed meanwhile is an AttributeError. -/
def reconcileGo (now : Int) : Tab Ctype Pend → Krm → Krm × Except Exn Unit
  | [], k => (k, .ok ())
  | (c, p) :: t, k =>
    if 1000 * p.delta ≤ now - p.start then
      match k.ctyp.get c with
      | none => (k, .error .attribute)
      | some r => reconcileGo now t { k with ctyp := k.ctyp.pin c { r with sl := p.sl, ll := p.ll, xl := p.xl }, pending := k.pending.rem c }
    else reconcileGo now t k

def reconcile (now : Int) (k : Krm) : Krm × Except Exn Unit := reconcileGo now k.pending k

/-- core/eventing.py:4739-4743: a message arrives. -/
def deliver (env : Env) (now : Int) (k : Krm) (m : Msg) (kwa : Kwa) : Out :=
  match reconcile now k with
  | (k, .error e) => (k, .error e)
  | (k, .ok ()) => intake env now k m kwa

end Verif.Krm
