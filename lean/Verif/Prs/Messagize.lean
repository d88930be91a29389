import Verif.Prs.Write

/-!
# Building messages with attachments (`messagize`, core/eventing.py:1541-1937)

Bonds are given as primitives (the serialized form, `Structor(crew=…)`, is not modelled); the genus version is 1.0 or 2.0.
-/

namespace Verif.Prs

open Verif.Matter (Mat)
open Verif.Idr (Ixr)
open Verif.Ctr (Ver Counter)

/-- The named tuples of `AClanDom` (structing.py:378-404). -/
inductive Clan where
  | sealDigest | sealRoot | sealSource | sealEvent | sealLast | sealBack | sealKind | blindState | boundState | typeMedia | firstSeen
  deriving DecidableEq, Repr

/-- A bond: its class and its primitives. -/
structure Bond where
  clan : Clan
  mats : List Mat
  deriving DecidableEq, Repr

/-- `TransSigs`, `TransReceipts` (structing.py): prefix, number, digest and signatures. -/
structure Quad where
  i : Mat
  n : Mat
  d : Mat
  sigs : List Ixr
  deriving DecidableEq, Repr

/-- The arguments of `messagize`, and of the serder its `.raw`, effective genus version (1620) and whether `.kind` is CESR. -/
structure Args where
  raw : Bytes
  svrsn : Ver := .v2
  native : Bool := false
  sigers : List Ixr := []
  tsgs : List Quad := []
  lsgs : List (Mat × List Ixr) := []
  wigers : List (Ixr × Option Mat) := []
  cigars : List (Mat × Mat) := []
  rsgs : List Quad := []
  bonds : List Bond := []
  nests : List Bytes := []
  framed : Bool := false
  nested : Bool := false
  gvrsn : Ver := .v2
  genusify : Bool := false

/-- core/eventing.py:1541-1560 `_v1seqner` of a `Number`: the same number in 16 bytes (coring.py:1588-1597). -/
def seqner (n : Mat) : Except Err Mat :=
  if Verif.Matter.numOf n > 256 ^ 16 - 1 then .error .validation else Verif.Matter.numWithCode (Verif.Matter.numOf n) ['0', 'A']

/-- coring.py:617-630 `NonTransDex`. -/
def nonTransDex : List (List Char) := ["B", "1AAA", "1AAC", "1AAI"].map String.toList

/-- For every member of a list. -/
def each {α β : Type} (f : α → Except Err β) : List α → Except Err (List β)
  | [] => .ok []
  | a :: as => match f a with
    | .error e => .error e
    | .ok b => match each f as with
      | .error e => .error e
      | .ok bs => .ok (b :: bs)

/-- The block `if list: …` for one kind of attachment: a counter of the elements, or an enclosing counter. -/
def put (v : Ver) (code : String) (tail : Tail) (sized : Bool) (es : List Elem) : Except Err Bytes :=
  if es = [] then .ok [] else writeGroup v false code.toList ⟨.sigers, [], tail, if sized then .sized else .counted⟩ es

/-- The same if the elements have to be converted first. -/
def putE {α : Type} (v : Ver) (code : String) (tail : Tail) (sized : Bool) (f : α → Except Err Elem) (l : List α) : Except Err Bytes :=
  match each f l with
  | .error e => .error e
  | .ok es => put v code tail sized es

/-- One element of each kind. -/
def sigElem (s : Ixr) : Elem := { sigs := [s] }
def cigElem (c : Mat × Mat) : Elem := { mats := [c.1, c.2] }
def quadElem (q : Quad) : Elem := { mats := [q.i, q.n, q.d], sigs := q.sigs }
def lastElem (l : Mat × List Ixr) : Elem := { mats := [l.1], sigs := l.2 }
def bondElem (b : Bond) : Elem := { mats := b.mats }

/-- 1677-1681, 1837-1840: a witness signature with a transferable key is refused. -/
def wigElem (w : Ixr × Option Mat) : Except Err Elem :=
  match w.2 with
  | some k => if k.code ∈ nonTransDex then .ok (sigElem w.1) else .error .valueError
  | none => .ok (sigElem w.1)

/-- 1686-1691, 1847-1852. -/
def cigElemE (c : Mat × Mat) : Except Err Elem := if c.1.code ∈ nonTransDex then .ok (cigElem c) else .error .valueError

/-- 1650-1658, 1695-1704: version 1 writes the number in its 16 byte form. -/
def quadElem1 (q : Quad) : Except Err Elem :=
  match seqner q.n with
  | .error e => .error e
  | .ok n => .ok { mats := [q.i, n, q.d], sigs := q.sigs }

/-- Version 1 bonds, by class (1730-1733, 1743-1745, 1765-1767); numbers in their 16 byte form. -/
def bondElem1 (b : Bond) : Except Err Elem :=
  match b.clan, b.mats with
  | .sealEvent, [i, s, d] => match seqner s with
    | .error e => .error e
    | .ok s => .ok { mats := [i, s, d] }
  | .sealSource, [s, d] => match seqner s with
    | .error e => .error e
    | .ok s => .ok { mats := [s, d] }
  | .firstSeen, [f, dt] => match seqner f with
    | .error e => .error e
    | .ok f => .ok { mats := [f, dt] }
  | _, _ => .error .attributeError

/-- One bond more in the groups by class (1720-1723, 1890-1893). -/
def addBond (b : Bond) : List (Clan × List Bond) → List (Clan × List Bond)
  | [] => [(b.clan, [b])]
  | (c, l) :: t => if c = b.clan then (c, l ++ [b]) :: t else (c, l) :: addBond b t

/-- 1714-1723, 1880-1893: `clans`, in order of first appearance. -/
def collate (bonds : List Bond) : List (Clan × List Bond) := bonds.foldl (fun acc b => addBond b acc) []

/-- 1725-1774, a group of version 1.  `SealSourceLastSingles` is no code of version 1. -/
def putBonds1 (g : Clan × List Bond) : Except Err Bytes :=
  match g.1 with
  | .sealEvent => putE .v1 "-I" .none false bondElem1 g.2
  | .sealSource => putE .v1 "-G" .none false bondElem1 g.2
  | .sealLast => .error .invalidCode
  | .firstSeen => putE .v1 "-E" .none false bondElem1 g.2
  | _ => .error .valueError

/-- structing.py:458-469 `ClanToCodens` with counting.py:204-262. -/
def Clan.code : Clan → String
  | .sealDigest => "-Q"
  | .sealRoot => "-R"
  | .sealSource => "-S"
  | .sealEvent => "-T"
  | .sealLast => "-U"
  | .sealBack => "-V"
  | .sealKind => "-W"
  | .blindState => "-a"
  | .boundState => "-b"
  | .typeMedia => "-c"
  | .firstSeen => "-O"

/-- structing.py:604-653 `Structor.enclose`. -/
def putBonds2 (g : Clan × List Bond) : Except Err Bytes := put .v2 g.1.code .none true (g.2.map bondElem)

/-- 1640-1774: the attachments in version 1.  An unsupported bond is refused before any is written (1716-1718). -/
def aims1 (a : Args) : Except Err Bytes :=
  cat id [put .v1 "-A" .one false (a.sigers.map sigElem),
    putE .v1 "-F" .group false quadElem1 a.tsgs,
    put .v1 "-H" .group false (a.lsgs.map lastElem),
    putE .v1 "-B" .one false wigElem a.wigers,
    putE .v1 "-C" .none false cigElemE a.cigars,
    putE .v1 "-D" .group true quadElem1 a.rsgs,
    if a.bonds.all (fun b => decide (b.clan ∈ [Clan.sealEvent, .sealSource, .sealLast, .firstSeen])) then cat putBonds1 (collate a.bonds)
      else .error .valueError]

/-- 1788-1905: the attachments in version 2. -/
def aims2 (a : Args) : Except Err Bytes :=
  cat id [put .v2 "-K" .one true (a.sigers.map sigElem),
    put .v2 "-X" .group true (a.tsgs.map quadElem),
    put .v2 "-Y" .group true (a.lsgs.map lastElem),
    putE .v2 "-L" .one true wigElem a.wigers,
    putE .v2 "-M" .none true cigElemE a.cigars,
    put .v2 "-N" .group true (a.rsgs.map quadElem),
    cat putBonds2 (collate a.bonds),
    cat (fun n => if Verif.B64.reb64 (chars n) then .ok n else .error .valueError) a.nests]

/-- counting.py:709-720 `makeGVC`. -/
def gvc (v : Ver) : Except Err Bytes :=
  match Verif.Ctr.verToB64 (major v) 0 with
  | .error e => .error e
  | .ok s => match Verif.B64.b64ToInt s with
    | .error e => .error e
    | .ok n => counted v false gvcCode n

/-- 1625-1626: nested messages in a framed message make it nested too. -/
def Args.inner (a : Args) : Bool := a.nested || (!a.nests.isEmpty && a.framed)

/-- 1620-1630: the genus version used. -/
def Args.ver (a : Args) : Ver := if a.nested = true ∨ a.nests ≠ [] ∨ a.gvrsn = .v2 ∨ a.svrsn = .v2 then .v2 else .v1

/-- 1617: no authenticator at all. -/
def Args.bare (a : Args) : Prop :=
  a.sigers = [] ∧ a.tsgs = [] ∧ a.lsgs = [] ∧ a.cigars = [] ∧ a.wigers = [] ∧ a.rsgs = [] ∧ a.bonds = []

instance (a : Args) : Decidable a.bare := by unfold Args.bare; infer_instance

/-- 1917-1924: the body inside of a group; other than native ones as text. -/
def innerBody (a : Args) : Except Err Bytes :=
  if a.native then .ok a.raw
  else match Verif.Matter.make ['4', 'B'] [] a.raw none with
    | .error e => .error e
    | .ok t => match writeMat false t with
      | .error e => .error e
      | .ok b => enclose .v2 false ['-', 'H'] b

/-- 1780-1784 and 1911-1931: body and attachments.  The group of version 1 is counted by hand, `len(aims) // 4`. -/
def bundle (a : Args) (aims : Bytes) : Except Err Bytes :=
  if aims.length % 4 ≠ 0 then .error .valueError
  else match a.ver with
    | .v1 => if a.framed then .ok (a.raw ++ aims)
      else match counted .v1 false ['-', 'V'] (aims.length / 4) with
        | .error e => .error e
        | .ok c => .ok (a.raw ++ (c ++ aims))
    | .v2 =>
      if a.inner then
        match innerBody a with
        | .error e => .error e
        | .ok body => enclose .v2 false ['-', 'B'] (body ++ aims)
      else if a.framed then .ok (a.raw ++ aims)
      else match enclose .v2 false ['-', 'C'] aims with
        | .error e => .error e
        | .ok g => .ok (a.raw ++ g)

/-- core/eventing.py:1563-1937 `messagize`. -/
def messagize (a : Args) : Except Err Bytes :=
  if a.bare then .error .valueError
  else match (if a.genusify then gvc a.ver else .ok []) with
    | .error e => .error e
    | .ok pre => match (match a.ver with | .v1 => aims1 a | .v2 => aims2 a) with
      | .error e => .error e
      | .ok aims => match bundle a aims with
        | .error e => .error e
        | .ok m => .ok (pre ++ m)

end Verif.Prs
