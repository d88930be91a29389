import Verif.Kel.Model

/-!
# Model of the key store manager: `Manager` and `Keeper` (src/keri/app/keeping.py)

Every operation is the list of its database writes, in order, together with what it returns or raises; a write is atomic. An operation
interrupted by a crash has made a prefix of its writes.

A private key is represented by the public key (`signer.verfer.qb64`) it belongs to. Random keys, random salts and the derivation of keys from
salts are part of the environment.

Not modelled: dates of key lots, seeds with unsupported codes, unsupported tiers, malformed salts, decryption of messages (`Manager.decrypt`), the
stores prxs, nxts, smids, rmids that the manager itself does not use.
-/

namespace Verif.Mgr

open Verif.Kel (upd)

/-- Exceptions: ValueError, AuthError, DecryptError, IndexError, InvalidCodeError and its kin (the wrong kind of material), an attempt to use
what is not there (AttributeError, TypeError, UnboundLocalError), and the absence of a manager. -/
inductive Err where
  | value | auth | decrypt | index | code | attr | closed
  deriving DecidableEq, Repr

/-- `Algos` (keeping.py:43-44); `other` stands for group, extern and anything else. -/
inductive Algo where
  | randy | salty | other
  deriving DecidableEq, Repr

/-- A secret as stored: in plain text, as a ciphertext for a box key, or a ciphertext damaged by encrypting a ciphertext with the code for
salts, which cuts it to the size of an encrypted salt (signing.py:838-849, Matter raw size). -/
inductive Sec where
  | plain (x : Nat) | sealed (box x : Nat) | junk
  deriving DecidableEq, Repr

/-- `PubLot` (keeping.py:48-65) without the date. -/
structure Lot where
  pubs : List Nat
  ridx : Nat
  kidx : Nat
  deriving DecidableEq, Repr

/-- `PubLot()`. -/
def Lot.empty : Lot := ⟨[], 0, 0⟩

/-- `PreSit` (keeping.py:72-78). -/
structure Sit where
  old : Lot
  new : Lot
  nxt : Lot
  deriving DecidableEq, Repr

/-- `PrePrm` (keeping.py:85-93). Salt `none` is the empty text. -/
structure Prm where
  pidx : Nat
  algo : Algo
  salt : Option Sec
  stem : List Char
  tier : Nat
  deriving DecidableEq

/-- A store that is iterated over: its content, and keys in the order of their first writing (it may list removed ones). -/
structure Tbl (α : Type) where
  at' : Nat → Option α
  dom : List Nat

/-- `.pin`: set, overwriting. -/
def Tbl.pin {α} (t : Tbl α) (k : Nat) (v : α) : Tbl α :=
  { at' := upd t.at' k (some v), dom := if k ∈ t.dom then t.dom else t.dom ++ [k] }

/-- `.put`: set unless there is a value. -/
def Tbl.put {α} (t : Tbl α) (k : Nat) (v : α) : Tbl α :=
  match t.at' k with
  | some _ => t
  | none => t.pin k v

/-- `.rem`. -/
def Tbl.rem {α} (t : Tbl α) (k : Nat) : Tbl α := { t with at' := upd t.at' k none }

/-- `Keeper` (keeping.py:272-308). The entries of gbls come first; aeid `none` is the empty or missing text. `top` is above every rotation index in
`pubs` and bounds the loop of `move`. -/
structure Ks where
  aeid : Option Nat
  pidx : Option Nat
  algo : Option Algo
  salt : Option Sec
  tier : Option Nat
  pres : Nat → Option Nat
  prms : Tbl Prm
  sits : Nat → Option Sit
  pris : Tbl Sec
  pubs : Nat → Nat → Option (List Nat)
  top : Nat → Nat

/-- A new key store. -/
def Ks.empty : Ks :=
  ⟨none, none, none, none, none, fun _ => none, ⟨fun _ => none, []⟩, fun _ => none, ⟨fun _ => none, []⟩, fun _ _ => none, fun _ => 0⟩

/-- Database writes. -/
inductive Wr where
  | aeid (a : Option Nat) | pidx (n : Nat) | algo (a : Algo) | salt (s : Sec) | tier (t : Nat)
  | pres (k v : Nat)
  | prms (k : Nat) (v : Prm) | prmsRem (k : Nat)
  | sits (k : Nat) (v : Sit) | sitsRem (k : Nat)
  | prisPut (k : Nat) (v : Sec) | prisPin (k : Nat) (v : Sec) | prisRem (k : Nat)
  | pubsPut (k ri : Nat) (v : List Nat)

/-- Effect of a write. -/
def Ks.apply (ks : Ks) : Wr → Ks
  | .aeid a => { ks with aeid := a }
  | .pidx n => { ks with pidx := some n }
  | .algo a => { ks with algo := some a }
  | .salt s => { ks with salt := some s }
  | .tier t => { ks with tier := some t }
  | .pres k v => { ks with pres := upd ks.pres k (some v) }
  | .prms k v => { ks with prms := ks.prms.pin k v }
  | .prmsRem k => { ks with prms := ks.prms.rem k }
  | .sits k v => { ks with sits := upd ks.sits k (some v) }
  | .sitsRem k => { ks with sits := upd ks.sits k none }
  | .prisPut k v => { ks with pris := ks.pris.put k v }
  | .prisPin k v => { ks with pris := ks.pris.pin k v }
  | .prisRem k => { ks with pris := ks.pris.rem k }
  | .pubsPut k ri v => match ks.pubs k ri with
    | some _ => ks
    | none => { ks with pubs := upd ks.pubs k (upd (ks.pubs k) ri (some v)), top := upd ks.top k (max (ks.top k) (ri + 1)) }

/-- Effect of several writes. -/
def Ks.applyAll (ks : Ks) (ws : List Wr) : Ks := ws.foldl Ks.apply ks

/-- Environment: the public key derived from salt, path, seed code, transferability, tier and the flag temp (signing.py:437-454); digests of
public keys; whether the private key of a public key is an Ed25519 seed, the only kind `Encrypter.encrypt` takes (signing.py:805-813); the box
key of an authentication identifier (signing.py:756-762) and of a seed (signing.py:779-784, 985). -/
structure Env where
  derive : Nat → List Char → Nat → Bool → Nat → Bool → Nat
  dig : Nat → Nat
  ed : Nat → Bool
  boxA : Nat → Nat
  boxS : Nat → Nat

/-- The part of the manager held in memory: seed, the box key of the encrypter, the seed of the decrypter (keeping.py:698-705). -/
structure Mem where
  seed : Option Nat
  enc : Option Nat
  dec : Option Nat
  deriving DecidableEq

/-- A hexadecimal digit. -/
def hexDigit (n : Nat) : Char := Char.ofNat (if n < 10 then 48 + n else 87 + n)

/-- Digits of a number, at most `fuel` of them. -/
def hexAux : Nat → Nat → List Char
  | 0, _ => []
  | fuel + 1, n => if n < 16 then [hexDigit n] else hexAux fuel (n / 16) ++ [hexDigit (n % 16)]

/-- `"{:x}".format(n)`. -/
def hex (n : Nat) : List Char := hexAux (n + 1) n

/-- Path of a key (keeping.py:545-547): stem or the index of the prefix, index of rotation, index of key, with nothing in between. -/
def path (stem : List Char) (pidx ridx kidx : Nat) : List Char :=
  (if stem = [] then hex pidx else stem) ++ hex ridx ++ hex kidx

/-- `Creator` and its subclasses (keeping.py:377-520). Salt `none` and tier 0 for random keys. -/
structure Creator where
  algo : Algo
  salt : Option Nat
  stem : List Char
  tier : Nat
  deriving DecidableEq

/-- `Creatory(algo).make(salt, stem, tier)` (keeping.py:576-607). The salt is a text: missing or empty makes a random salt `rsalt`, a ciphertext
raises (signing.py:386-395). -/
def makeCreator (algo : Option Algo) (salt : Option Sec) (stem : List Char) (tier : Option Nat) (rsalt : Nat) : Except Err Creator :=
  match algo with
  | some .randy => .ok ⟨.randy, none, [], 0⟩
  | some .salty => match salt with
    | none => .ok ⟨.salty, some rsalt, stem, tier.getD 0⟩
    | some (.plain x) => .ok ⟨.salty, some x, stem, tier.getD 0⟩
    | some _ => .error .value
  | _ => .error .value

/-- `Creator.create` (keeping.py:446-466, 522-553): the public keys for a list of codes. Random ones are `rnd 0`, `rnd 1`, … -/
def Creator.create (env : Env) (cr : Creator) (rnd : Nat → Nat) (codes : List Nat) (pidx ridx kidx : Nat) (tr temp : Bool) : List Nat :=
  codes.mapIdx fun i code => match cr.salt with
    | none => rnd i
    | some salt => env.derive salt (path cr.stem pidx ridx (kidx + i)) code tr cr.tier temp

/-- What an encrypter makes of a secret in plain text; no encrypter leaves it. -/
def lock (enc : Option Nat) (x : Nat) : Sec :=
  match enc with
  | none => .plain x
  | some b => .sealed b x

/-- Reading a stored private key (db/subing.py:1808-1845; signing.py:914-1010): with a decrypter the stored text must be a ciphertext for it, without
one it must be plain. -/
def unlock (env : Env) (dec : Option Nat) : Sec → Except Err Nat
  | .plain x => match dec with
    | none => .ok x
    | some _ => .error .code
  | .sealed b x => match dec with
    | none => .error .value
    | some s => if b = env.boxS s then .ok x else .error .value
  | .junk => match dec with
    | none => .error .value
    | some _ => .error .value

/-- Getter `Manager.salt` (keeping.py:907-916): decrypted if there is a decrypter, else the text as stored. -/
def readSalt (env : Env) (ks : Ks) (mem : Mem) : Except Err (Option Sec) :=
  match mem.dec with
  | none => .ok ks.salt
  | some _ => match ks.salt with
    | none => .error .code
    | some s => match unlock env mem.dec s with
      | .ok x => .ok (some (.plain x))
      | .error e => .error e

/-- Setter `Manager.salt` (keeping.py:920-929): the text is encrypted if there is an encrypter, whatever it is. -/
def saltOut (enc : Option Nat) (t : Sec) : Sec :=
  match enc with
  | none => t
  | some b => match t with
    | .plain x => .sealed b x
    | _ => .junk

/-- Expansion of codes and count (keeping.py:1020-1023, 1030-1033, 1223-1226). -/
def expand (codes : List Nat) (count : Int) (code : Nat) (least : Int) : Except Err (List Nat) :=
  if codes = [] then (if count < least then .error .value else .ok (List.replicate count.toNat code)) else .ok codes

/-- Storing private keys one after the other with `pris.put(..., encrypter)` (keeping.py:1071-1073): raises at the first that cannot be
encrypted. -/
def putPris (env : Env) (enc : Option Nat) : List Nat → List Wr × Except Err Unit
  | [] => ([], .ok ())
  | k :: rest =>
    if enc.isSome && !env.ed k then ([], .error .code)
    else ((.prisPut k (lock enc k)) :: (putPris env enc rest).1, (putPris env enc rest).2)

/-- Reading the private keys of public keys (keeping.py:1201-1210, 1368-1387, 1723-1732). -/
def readPris (env : Env) (ks : Ks) (mem : Mem) : List Nat → Except Err (List Nat)
  | [] => .ok []
  | k :: rest =>
    if ks.aeid.isSome && mem.dec.isNone then .error .decrypt
    else match ks.pris.at' k with
      | none => .error .value
      | some s => match unlock env mem.dec s with
        | .error e => .error e
        | .ok x => match readPris env ks mem rest with
          | .error e => .error e
          | .ok xs => .ok (x :: xs)

/-- What `incept`, `rotate` and `replay` return: public keys (verfers) and digests of the next ones (digers). -/
structure Keys where
  verfers : List Nat
  digers : List Nat
  deriving DecidableEq, Repr

/-- Arguments of `Manager.incept` (keeping.py:951-955), with the random values it may draw. -/
structure InceptArgs where
  icodes : List Nat
  icount : Int
  icode : Nat
  ncodes : List Nat
  ncount : Int
  ncode : Nat
  algo : Option Algo
  salt : Option Nat
  stem : List Char
  tier : Option Nat
  rooted : Bool
  tr : Bool
  temp : Bool
  rsalt : Nat
  rnd : Nat → Nat

/-- The salt text an inception uses (keeping.py:1008-1009, 1556-1557). -/
def rootSalt (env : Env) (ks : Ks) (mem : Mem) (rooted : Bool) (salt : Option Nat) : Except Err (Option Sec) :=
  match salt with
  | some x => .ok (some (.plain x))
  | none => if rooted then readSalt env ks mem else .ok none

/-- Storing a new key sequence (keeping.py:1042-1084). -/
def inceptWr (env : Env) (ks : Ks) (mem : Mem) (cr : Creator) (pidx : Nat) (pubs nxts : List Nat) : List Wr × Except Err Keys :=
  match pubs with
  | [] => ([], .error .index)
  | pre :: _ =>
    let w1 := [Wr.pres pre pre]
    let w2 := w1 ++ [.prms pre ⟨pidx, cr.algo, cr.salt.map (lock mem.enc), cr.stem, cr.tier⟩, .pidx (pidx + 1)]
    let w3 := w2 ++ [.sits pre ⟨.empty, ⟨pubs, 0, 0⟩, ⟨nxts, 1, pubs.length⟩⟩]
    if (ks.pres pre).isSome then ([], .error .value)
    else if (ks.prms.at' pre).isSome then (w1, .error .value)
    else if (ks.sits pre).isSome then (w2, .error .value)
    else match putPris env mem.enc pubs with
      | (wi, .error e) => (w3 ++ wi, .error e)
      | (wi, .ok _) => match putPris env mem.enc nxts with
        | (wn, .error e) => (w3 ++ wi ++ [.pubsPut pre 0 pubs] ++ wn, .error e)
        | (wn, .ok _) => (w3 ++ wi ++ [.pubsPut pre 0 pubs] ++ wn ++ [.pubsPut pre 1 nxts], .ok ⟨pubs, nxts.map env.dig⟩)

/-- `Manager.incept` (keeping.py:951-1084). -/
def incept (env : Env) (ks : Ks) (mem : Mem) (a : InceptArgs) : List Wr × Except Err Keys :=
  match rootSalt env ks mem a.rooted a.salt with
  | .error e => ([], .error e)
  | .ok t => match ks.pidx with
    | none => ([], .error .attr)
    | some pidx =>
      match makeCreator (if a.rooted && a.algo.isNone then ks.algo else a.algo) t a.stem (if a.rooted && a.tier.isNone then ks.tier else a.tier) a.rsalt with
      | .error e => ([], .error e)
      | .ok cr => match expand a.icodes a.icount a.icode 1 with
        | .error e => ([], .error e)
        | .ok icodes => match expand a.ncodes a.ncount a.ncode 0 with
          | .error e => ([], .error e)
          | .ok ncodes =>
            inceptWr env ks mem cr pidx (cr.create env a.rnd icodes pidx 0 0 a.tr a.temp)
              (cr.create env (fun i => a.rnd (icodes.length + i)) ncodes pidx 1 icodes.length a.tr a.temp)

/-- Copying the public key sets (keeping.py:1131-1136). -/
def movePubs (ks : Ks) (old new : Nat) : Nat → Nat → List Wr × Except Err Unit
  | 0, _ => ([], .ok ())
  | n + 1, i => match ks.pubs old i with
    | none => ([], .ok ())
    | some l =>
      if (ks.pubs new i).isSome then ([], .error .value)
      else (.pubsPut new i l :: (movePubs ks old new n (i + 1)).1, (movePubs ks old new n (i + 1)).2)

/-- `Manager.move` (keeping.py:1087-1144). -/
def move (ks : Ks) (old new : Nat) : List Wr × Except Err Unit :=
  if old = new then ([], .ok ())
  else if (ks.pres old).isNone || (ks.pres new).isSome then ([], .error .value)
  else match ks.prms.at' old with
    | none => ([], .error .value)
    | some prm =>
      if (ks.prms.at' new).isSome then ([], .error .value)
      else match ks.sits old with
        | none => ([], .error .value)
        | some sit =>
          if (ks.sits new).isSome then ([], .error .value)
          else
            let w := [Wr.prms new prm, .prmsRem old, .sits new sit, .sitsRem old]
            match movePubs ks old new (ks.top old) 0 with
            | (wp, .error e) => (w ++ wp, .error e)
            | (wp, .ok _) => (w ++ wp ++ [.pres old new, .pres new new], .ok ())

/-- The salt text of a key sequence for rotation (keeping.py:1212-1219). -/
def prmSalt (env : Env) (ks : Ks) (mem : Mem) (prm : Prm) : Except Err (Option Sec) :=
  match prm.salt with
  | none => .ok none
  | some s =>
    if ks.aeid.isSome then
      if mem.dec.isNone then .error .decrypt
      else match unlock env mem.dec s with
        | .ok x => .ok (some (.plain x))
        | .error e => .error e
    else match s with
      | .plain x => .ok (some (.plain x))
      | _ => .error .value

/-- Arguments of `Manager.rotate` (keeping.py:1147-1150). -/
structure RotateArgs where
  ncodes : List Nat
  ncount : Int
  ncode : Nat
  tr : Bool
  temp : Bool
  erase : Bool
  rsalt : Nat
  rnd : Nat → Nat

/-- `Manager.rotate` (keeping.py:1147-1256). -/
def rotate (env : Env) (ks : Ks) (mem : Mem) (pre : Nat) (a : RotateArgs) : List Wr × Except Err Keys :=
  match ks.prms.at' pre with
  | none => ([], .error .value)
  | some prm => match ks.sits pre with
    | none => ([], .error .value)
    | some ps =>
      if ps.nxt.pubs = [] then ([], .error .value)
      else match readPris env ks mem ps.nxt.pubs with
        | .error e => ([], .error e)
        | .ok verfers => match prmSalt env ks mem prm with
          | .error e => ([], .error e)
          | .ok t => match makeCreator (some prm.algo) t prm.stem (some prm.tier) a.rsalt with
            | .error e => ([], .error e)
            | .ok cr => match expand a.ncodes a.ncount a.ncode 0 with
              | .error e => ([], .error e)
              | .ok ncodes =>
                let ridx := ps.nxt.ridx + 1
                let kidx := ps.nxt.kidx + ps.nxt.pubs.length
                let nxts := cr.create env a.rnd ncodes prm.pidx ridx kidx a.tr a.temp
                let w := [Wr.sits pre ⟨ps.new, ps.nxt, ⟨nxts, ridx, kidx⟩⟩]
                match putPris env mem.enc nxts with
                | (wn, .error e) => (w ++ wn, .error e)
                | (wn, .ok _) =>
                  (w ++ wn ++ [.pubsPut pre ridx nxts] ++ (if a.erase then ps.old.pubs.map .prisRem else []), .ok ⟨verfers, nxts.map env.dig⟩)

/-- `Manager.replay` (keeping.py:1665-1744). -/
def replay (env : Env) (ks : Ks) (mem : Mem) (pre : Nat) (advance erase : Bool) : List Wr × Except Err Keys :=
  match ks.prms.at' pre with
  | none => ([], .error .value)
  | some _ => match ks.sits pre with
    | none => ([], .error .value)
    | some ps =>
      if advance then
        match ks.pubs pre (ps.nxt.ridx + 1) with
        | none => ([], .error .index)
        | some pubs => match readPris env ks mem ps.nxt.pubs with
          | .error e => ([], .error e)
          | .ok verfers =>
            (.sits pre ⟨ps.new, ps.nxt, ⟨pubs, ps.nxt.ridx + 1, ps.nxt.kidx + ps.nxt.pubs.length⟩⟩ ::
              (if erase then ps.old.pubs.map .prisRem else []), .ok ⟨verfers, pubs.map env.dig⟩)
      else match readPris env ks mem ps.new.pubs with
        | .error e => ([], .error e)
        | .ok verfers => ([], .ok ⟨verfers, ps.nxt.pubs.map env.dig⟩)

/-- The loop of `Manager.ingest` over the given key sets (keeping.py:1574-1639), after the first-round part. `sit` is what `sits.get(pre)` finds. -/
def ingestLoop (env : Env) (enc : Option Nat) (iridx pre : Nat) : List (List Nat) → Nat → Nat → Option Sit → List Wr × Except Err (Nat × Nat × Option Sit)
  | [], ridx, kidx, sit => ([], .ok (ridx, kidx, sit))
  | pubs :: rest, ridx, kidx, sit =>
    match putPris env enc pubs with
    | (w, .error e) => (w, .error e)
    | (w, .ok _) =>
      let lot : Lot := ⟨pubs, ridx, kidx⟩
      let w := w ++ [.pubsPut pre ridx pubs]
      let (w, sit) := if ridx = iridx - 1 then
          let s : Sit := ⟨if iridx = 0 then .empty else lot, .empty, .empty⟩
          (w ++ [.sits pre s], some s)
        else (w, sit)
      if ridx = iridx then
        match sit with
        | none => (w, .error .value)
        | some s =>
          let s := { s with new := lot }
          let r := ingestLoop env enc iridx pre rest (ridx + 1) (kidx + pubs.length) (some s)
          (w ++ [.sits pre s] ++ r.1, r.2)
      else if ridx = iridx + 1 then
        match sit with
        | none => (w, .error .value)
        | some s =>
          let s := { s with nxt := lot }
          let r := ingestLoop env enc iridx pre rest (ridx + 1) (kidx + pubs.length) (some s)
          (w ++ [.sits pre s] ++ r.1, r.2)
      else
        let r := ingestLoop env enc iridx pre rest (ridx + 1) (kidx + pubs.length) sit
        (w ++ r.1, r.2)

/-- Arguments of `Manager.ingest` (keeping.py:1487-1490); the given secrets are represented by their public keys. -/
structure IngestArgs where
  secs : List (List Nat)
  iridx : Nat
  ncount : Nat
  ncode : Nat
  algo : Option Algo
  salt : Option Nat
  stem : List Char
  tier : Option Nat
  rooted : Bool
  tr : Bool
  temp : Bool
  rsalt : Nat
  rnd : Nat → Nat

/-- `Manager.ingest` (keeping.py:1487-1662). The keys created at the end are stored without the encrypter (keeping.py:1647-1648). -/
def ingest (env : Env) (ks : Ks) (mem : Mem) (a : IngestArgs) : List Wr × Except Err (Nat × List (List Nat)) :=
  if a.iridx > a.secs.length then ([], .error .value)
  else match rootSalt env ks mem a.rooted a.salt with
    | .error e => ([], .error e)
    | .ok t => match ks.pidx with
      | none => ([], .error .attr)
      | some pidx => match makeCreator a.algo t a.stem (if a.rooted && a.tier.isNone then ks.tier else a.tier) a.rsalt with
        | .error e => ([], .error e)
        | .ok cr => match a.secs with
          | [] => ((putPris env none (cr.create env a.rnd (List.replicate a.ncount a.ncode) pidx 0 0 a.tr a.temp)).1, .error .attr)
          | [] :: _ => ([], .error .index)
          | (pre :: _) :: _ =>
            if mem.enc.isSome && cr.salt.isNone then ([], .error .code)
            else if (ks.pres pre).isSome then ([], .error .value)
            else if (ks.prms.at' pre).isSome then ([.pres pre pre], .error .value)
            else
              let w := [Wr.pres pre pre, .prms pre ⟨pidx, cr.algo, cr.salt.map (lock mem.enc), cr.stem, cr.tier⟩, .pidx (pidx + 1)]
              match ingestLoop env mem.enc a.iridx pre a.secs 0 0 (ks.sits pre) with
              | (wl, .error e) => (w ++ wl, .error e)
              | (wl, .ok (ridx, kidx, sit)) =>
                let pubs := cr.create env a.rnd (List.replicate a.ncount a.ncode) pidx ridx kidx a.tr a.temp
                let w := w ++ wl ++ (putPris env none pubs).1 ++ [.pubsPut pre ridx pubs]
                if ridx = a.iridx + 1 then
                  match sit with
                  | none => (w, .error .value)
                  | some s => (w ++ [.sits pre { s with nxt := ⟨pubs, ridx, kidx⟩ }], .ok (pre, a.secs))
                else (w, .ok (pre, a.secs))

/-- An indexed signature: the key it is made with, its index and other index (`None`: signature of the current list only). -/
structure Sig where
  key : Nat
  index : Nat
  ondex : Option Nat
  deriving DecidableEq, Repr

/-- The loop that makes indexed signatures (keeping.py:1399-1421); j counts the signers. -/
def signLoop (indices : List Int) (ondices : List (Option Int)) : List Nat → Nat → Except Err (List Sig)
  | [], _ => .ok []
  | k :: rest, j =>
    let i : Int := if indices = [] then j else indices.getD j 0
    if i < 0 then .error .value
    else
      let o : Option Int := if ondices = [] then some i else ondices.getD j none
      if o.any (· < 0) then .error .value
      else match signLoop indices ondices rest (j + 1) with
        | .error e => .error e
        | .ok xs => .ok (⟨k, i.toNat, o.map Int.toNat⟩ :: xs)

/-- `Manager.sign` with public keys (or verfers), indexed (keeping.py:1259-1422). -/
def sign (env : Env) (ks : Ks) (mem : Mem) (pubs : List Nat) (indices : List Int) (ondices : List (Option Int)) : Except Err (List Sig) :=
  match readPris env ks mem pubs with
  | .error e => .error e
  | .ok signers =>
    if indices ≠ [] ∧ indices.length ≠ signers.length then .error .value
    else if ondices ≠ [] ∧ ondices.length ≠ signers.length then .error .value
    else signLoop indices ondices signers 0

/-- Re-encryption of the salts of key sequences (keeping.py:828-833). -/
def reencPrms (env : Env) (ks : Ks) (dec enc : Option Nat) : List Nat → List Wr × Except Err Unit
  | [] => ([], .ok ())
  | k :: rest => match ks.prms.at' k with
    | none => reencPrms env ks dec enc rest
    | some prm => match prm.salt with
      | none => reencPrms env ks dec enc rest
      | some s => match unlock env dec s with
        | .error e => ([], .error e)
        | .ok x => (.prms k { prm with salt := some (lock enc x) } :: (reencPrms env ks dec enc rest).1, (reencPrms env ks dec enc rest).2)

/-- Re-encryption of private keys (keeping.py:837-838). -/
def reencPris (env : Env) (ks : Ks) (dec enc : Option Nat) : List Nat → List Wr × Except Err Unit
  | [] => ([], .ok ())
  | k :: rest => match ks.pris.at' k with
    | none => reencPris env ks dec enc rest
    | some s => match unlock env dec s with
      | .error e => ([], .error e)
      | .ok x =>
        if enc.isSome && !env.ed x then ([], .error .code)
        else (.prisPin k (lock enc x) :: (reencPris env ks dec enc rest).1, (reencPris env ks dec enc rest).2)

/-- `encrypter.verifySeed(seed)`; no seed fails, no encrypter is an AttributeError unless there is no seed. -/
def verifySeed (env : Env) (enc seed : Option Nat) : Except Err Unit :=
  match seed with
  | none => .error .auth
  | some s => match enc with
    | none => .error .attr
    | some b => if env.boxS s = b then .ok () else .error .auth

/-- The writes of `updateAeid` once the new encrypter is there (keeping.py:821-840). -/
def reencrypt (env : Env) (ks : Ks) (mem : Mem) (enc aeid : Option Nat) : List Wr × Except Err Unit :=
  match readSalt env ks mem with
  | .error e => ([], .error e)
  | .ok t =>
    let w := match t with
      | none => []
      | some t => [Wr.salt (saltOut enc t)]
    match mem.dec with
    | none => (w ++ [.aeid aeid], .ok ())
    | some _ => match reencPrms env ks mem.dec enc ks.prms.dom with
      | (wp, .error e) => (w ++ wp, .error e)
      | (wp, .ok _) => match reencPris env ks mem.dec enc ks.pris.dom with
        | (wk, .error e) => (w ++ wp ++ wk, .error e)
        | (wk, .ok _) => (w ++ wp ++ wk ++ [.aeid aeid], .ok ())

/-- The encrypter for a new authentication identifier (keeping.py:806-814). -/
def nextEnc (env : Env) (ks : Ks) (mem : Mem) (aeid : Option Nat) : Option Nat :=
  match aeid with
  | none => none
  | some a => if aeid = ks.aeid then mem.enc else some (env.boxA a)

/-- `Manager.updateAeid` (keeping.py:786-844): the writes, what is in memory afterwards, and the outcome. The encrypter is replaced before the new
seed is checked. -/
def updateAeid (env : Env) (ks : Ks) (mem : Mem) (aeid seed : Option Nat) : List Wr × Mem × Except Err Unit :=
  match (if ks.aeid.isSome then verifySeed env mem.enc mem.seed else .ok ()) with
  | .error e => ([], mem, .error e)
  | .ok _ =>
    let enc := nextEnc env ks mem aeid
    match (if aeid.isSome ∧ aeid ≠ ks.aeid then verifySeed env enc seed else .ok ()) with
    | .error e => ([], { mem with enc := enc }, .error e)
    | .ok _ => match reencrypt env ks mem enc aeid with
      | (w, .error e) => (w, { mem with enc := enc }, .error e)
      | (w, .ok _) => (w, ⟨seed, enc, seed⟩, .ok ())

/-- `Manager(ks, seed, aeid, pidx, algo, salt, tier)` on an open key store (keeping.py:665-784). -/
def openMgr (env : Env) (ks : Ks) (seed aeid : Option Nat) (pidx : Nat) (algo : Algo) (salt tier : Nat) : List Wr × Mem × Except Err Unit :=
  let w := (if ks.pidx.isNone then [Wr.pidx pidx] else []) ++ (if ks.algo.isNone then [.algo algo] else []) ++
    (if ks.salt.isNone then [.salt (.plain salt)] else []) ++ (if ks.tier.isNone then [.tier tier] else [])
  match ks.aeid with
  | none => match updateAeid env (ks.applyAll w) ⟨seed, none, none⟩ aeid seed with
    | (wu, mem, r) => (w ++ wu, mem, r)
  | some a => match verifySeed env (some (env.boxA a)) seed with
    | .error e => (w, ⟨seed, some (env.boxA a), none⟩, .error e)
    | .ok _ => (w, ⟨seed, some (env.boxA a), seed⟩, .ok ())

/-- Calls of the interface. `openM` makes a new manager on the key store, as after a restart. -/
inductive Call where
  | openM (seed aeid : Option Nat) (pidx : Nat) (algo : Algo) (salt tier : Nat)
  | incept (a : InceptArgs)
  | rotate (pre : Nat) (a : RotateArgs)
  | replay (pre : Nat) (advance erase : Bool)
  | ingest (a : IngestArgs)
  | move (old new : Nat)
  | updateAeid (aeid seed : Option Nat)
  | sign (pubs : List Nat) (indices : List Int) (ondices : List (Option Int))

/-- Results of calls. -/
inductive Res where
  | done
  | keys (k : Keys)
  | ingested (pre : Nat) (verfers : List (List Nat))
  | sigs (l : List Sig)
  | err (e : Err)
  deriving DecidableEq

/-- Key store and manager. -/
structure Node where
  ks : Ks
  mem : Option Mem

/-- The result of a call as a value. -/
def Res.ofKeys : Except Err Keys → Res
  | .ok k => .keys k
  | .error e => .err e

/-- The result of a call that returns nothing. -/
def Res.ofUnit : Except Err Unit → Res
  | .ok _ => .done
  | .error e => .err e

/-- The result of `ingest`. -/
def Res.ofIngest : Except Err (Nat × List (List Nat)) → Res
  | .ok (p, v) => .ingested p v
  | .error e => .err e

/-- The result of `sign`. -/
def Res.ofSigs : Except Err (List Sig) → Res
  | .ok l => .sigs l
  | .error e => .err e

/-- A call of a method, which needs a manager. -/
def withMgr (n : Node) (f : Mem → List Wr × Mem × Res) : List Wr × Option Mem × Res :=
  match n.mem with
  | none => ([], none, .err .closed)
  | some mem => ((f mem).1, some (f mem).2.1, (f mem).2.2)

/-- What a call writes, leaves in memory and returns. A manager whose construction fails does not exist. -/
def exec (env : Env) (n : Node) : Call → List Wr × Option Mem × Res
  | .openM seed aeid pidx algo salt tier =>
    ((openMgr env n.ks seed aeid pidx algo salt tier).1,
      match (openMgr env n.ks seed aeid pidx algo salt tier).2.2 with
      | .ok _ => some (openMgr env n.ks seed aeid pidx algo salt tier).2.1
      | .error _ => none,
      .ofUnit (openMgr env n.ks seed aeid pidx algo salt tier).2.2)
  | .incept a => withMgr n fun mem => ((incept env n.ks mem a).1, mem, .ofKeys (incept env n.ks mem a).2)
  | .rotate pre a => withMgr n fun mem => ((rotate env n.ks mem pre a).1, mem, .ofKeys (rotate env n.ks mem pre a).2)
  | .replay pre advance erase => withMgr n fun mem =>
    ((replay env n.ks mem pre advance erase).1, mem, .ofKeys (replay env n.ks mem pre advance erase).2)
  | .ingest a => withMgr n fun mem => ((ingest env n.ks mem a).1, mem, .ofIngest (ingest env n.ks mem a).2)
  | .move old new => withMgr n fun mem => ((move n.ks old new).1, mem, .ofUnit (move n.ks old new).2)
  | .updateAeid aeid seed => withMgr n fun mem =>
    ((updateAeid env n.ks mem aeid seed).1, (updateAeid env n.ks mem aeid seed).2.1, .ofUnit (updateAeid env n.ks mem aeid seed).2.2)
  | .sign pubs indices ondices => withMgr n fun mem => ([], mem, .ofSigs (sign env n.ks mem pubs indices ondices))

/-- What happens: a call, or a call that is interrupted after a number of writes and leaves no manager. -/
inductive Inp where
  | call (c : Call)
  | crash (c : Call) (n : Nat)

/-- One input; the result of an interrupted call is not seen. -/
def Node.step (env : Env) (n : Node) (i : Inp) : Node × Option Res :=
  match i with
  | .call c => (⟨n.ks.applyAll (exec env n c).1, (exec env n c).2.1⟩, some (exec env n c).2.2)
  | .crash c k => (⟨n.ks.applyAll ((exec env n c).1.take k), none⟩, none)

/-- The inputs of a run with their results, and the node in the end. -/
def Node.run (env : Env) (n : Node) : List Inp → Node × List (Inp × Option Res)
  | [] => (n, [])
  | i :: rest =>
    ((Node.run env (n.step env i).1 rest).1, (i, (n.step env i).2) :: (Node.run env (n.step env i).1 rest).2)

/-- An empty key store without a manager. -/
def Node.start : Node := ⟨.empty, none⟩

end Verif.Mgr
