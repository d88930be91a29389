import Verif.Prs.Stream

/-!
# The parser of message streams (`core/parsing.py`)

Attachment groups as a table of the extraction methods, messages (`msgParsator`), generic groups (`groupParsator`) and the drivers
`parse` and `parsator`.  Not modelled: `piped` (not implemented in the code), the `local` flag, dispatch of the extracted messages (its
exceptions are caught, parsing.py:868-889, and do not affect the stream), `onceParsator`.
-/

namespace Verif.Prs

open Verif.Matter (Mat)
open Verif.Idr (Ixr)
open Verif.Ctr (Ver Counter)

/-- The attachment lists of `MsgParseDom` (parsing.py:41-66). -/
inductive Slot where
  | sigers | wigers | cigars | rsgs | tsgs | lsgs | frcs | sscs | ssts | tdcs | bsqs | bsss | tmqs | ptds | essrs
  deriving DecidableEq, Repr

/-- One element of an attachment list: its primitives in order, its signatures (the last component of the tuples with signatures), or the
bytes of pathed material.  A couple of a key and a signature is one `Cigar` with its `.verfer` in Python. -/
structure Elem where
  mats : List Mat := []
  sigs : List Ixr := []
  blob : Bytes := []
  deriving DecidableEq, Repr

/-- What comes after the primitives of an element: nothing, one signature, a group of signatures. -/
inductive Tail where
  | none | one | group
  deriving DecidableEq, Repr

/-- Whether the counter of a group counts elements or quadlets/triplets, and whether these are taken as they are. -/
inductive Mode where
  | counted | sized | raw
  deriving DecidableEq, Repr

/-- An extraction method (parsing.py:1541-2548). -/
structure Meth where
  slot : Slot
  mats : List Klas
  tail : Tail
  mode : Mode
  deriving DecidableEq, Repr

/-- parsing.py:120-182 `Methods` for version 1, with the codes of counting.py:56-77. -/
def methods1 : List (List Char × Meth) := [
  ("-A", ⟨.sigers, [], .one, .counted⟩),
  ("-B", ⟨.wigers, [], .one, .counted⟩),
  ("-C", ⟨.cigars, [.verfer, .cigar], .none, .counted⟩),
  ("-D", ⟨.rsgs, [.prefixer, .number, .diger], .group, .sized⟩),
  ("-E", ⟨.frcs, [.number, .dater], .none, .counted⟩),
  ("-F", ⟨.tsgs, [.prefixer, .number, .diger], .group, .counted⟩),
  ("-G", ⟨.sscs, [.number, .diger], .none, .counted⟩),
  ("-H", ⟨.lsgs, [.prefixer], .group, .counted⟩),
  ("-I", ⟨.ssts, [.prefixer, .number, .diger], .none, .counted⟩),
  ("-L", ⟨.ptds, [], .none, .raw⟩), ("--L", ⟨.ptds, [], .none, .raw⟩),
  ("-Z", ⟨.essrs, [.texter], .none, .counted⟩), ("--Z", ⟨.essrs, [.texter], .none, .counted⟩)].map (fun p => (p.1.toList, p.2))

/-- The same for version 2 (counting.py:204-262): every method for the short and the long code. -/
def methods2 : List (List Char × Meth) := [
  ('K', Meth.mk .sigers [] .one .sized),
  ('L', ⟨.wigers, [], .one, .sized⟩),
  ('M', ⟨.cigars, [.verfer, .cigar], .none, .sized⟩),
  ('N', ⟨.rsgs, [.prefixer, .number, .diger], .group, .sized⟩),
  ('O', ⟨.frcs, [.number, .dater], .none, .sized⟩),
  ('P', ⟨.ptds, [], .none, .raw⟩),
  ('S', ⟨.sscs, [.number, .diger], .none, .sized⟩),
  ('T', ⟨.ssts, [.prefixer, .number, .diger], .none, .sized⟩),
  ('W', ⟨.tdcs, [.verser, .diger], .none, .sized⟩),
  ('X', ⟨.tsgs, [.prefixer, .number, .diger], .group, .sized⟩),
  ('Y', ⟨.lsgs, [.prefixer], .group, .sized⟩),
  ('Z', ⟨.essrs, [.texter], .none, .sized⟩),
  ('a', ⟨.bsqs, [.diger, .noncer, .noncer, .labeler], .none, .sized⟩),
  ('b', ⟨.bsss, [.diger, .noncer, .noncer, .labeler, .number, .noncer], .none, .sized⟩),
  ('c', ⟨.tmqs, [.diger, .noncer, .labeler, .texter], .none, .sized⟩)].flatMap (fun p => [(['-', p.1], p.2), (['-', '-', p.1], p.2)])

/-- `self.methods[ctr.name]` -/
def method (v : Ver) (code : List Char) : Option Meth :=
  match v with
  | .v1 => methods1.lookup code
  | .v2 => methods2.lookup code

/-- `KERIACDCGenusVersion` -/
def gvcCode : List Char := ['-', '_', 'A', 'A', 'A']

/-- A short or long code with the given letter. -/
def letter (code : List Char) (c : Char) : Bool := decide (code = ['-', c] ∨ code = ['-', '-', c])

/-- `GenericGroup`, `BigGenericGroup` (counting.py:148-149, 314-315). -/
def isGeneric (v : Ver) (code : List Char) : Bool := letter code (match v with | .v1 => 'T' | .v2 => 'A')
/-- `BodyWithAttachmentGroup`, `BigBodyWithAttachmentGroup` -/
def isBodyWith (v : Ver) (code : List Char) : Bool := letter code (match v with | .v1 => 'U' | .v2 => 'B')
/-- `AttachmentGroup`, `BigAttachmentGroup` -/
def isAttGroup (v : Ver) (code : List Char) : Bool := letter code (match v with | .v1 => 'V' | .v2 => 'C')
/-- `NonNativeBodyGroup`, `BigNonNativeBodyGroup` -/
def isNonNative (v : Ver) (code : List Char) : Bool := letter code (match v with | .v1 => 'W' | .v2 => 'H')
/-- `self.bucodes` (counting.py:187-188, 361-366). -/
def isBody (v : Ver) (code : List Char) : Bool := isNonNative v code || (v == .v2 && (letter code 'F' || letter code 'G'))
/-- `self.mucodes` without `self.bucodes` (counting.py:170-171, 336-345). -/
def isOtherMsg (v : Ver) (code : List Char) : Bool := v == .v2 && (letter code 'D' || letter code 'E')

def lift {α : Type} (r : Except Err α) : P α := fun s =>
  match r with
  | .ok a => .ok a s
  | .error e => .err e s

/-! ## Attachment groups -/

/-- The signatures of an element.  In version 1 the inner counter counts signatures and must be `-A` (e.g. parsing.py:1902-1915); in version 2
it counts quadlets or triplets and must be `-K`, the long form is refused (parsing.py:1848-1862). -/
def sigsOf (v : Ver) (cold : Cold) (abort : Bool) : Tail → P (List Ixr)
  | .none => pure []
  | .one => do
    let m ← extractor (fun _ => readSig cold) abort
    pure [m]
  | .group => do
    let c ← extractor (fun v => readCtr v cold) abort
    match v with
    | .v1 =>
      if c.code ≠ ['-', 'A'] then fail .unexpectedCountCode
      else times (extractor (fun _ => readSig cold) abort) c.count
    | .v2 =>
      if c.code ≠ ['-', 'K'] then fail .unexpectedCountCode
      else do
        fillStrict (ctrCount cold c) true
        let b ← takeBuf (ctrCount cold c)
        whole b (extractor (fun _ => readSig cold) true)

/-- Primitives of the given classes. -/
def primsOf (cold : Cold) (abort : Bool) : List Klas → P (List Mat)
  | [] => pure []
  | k :: ks => do
    let m ← extractor (fun _ => readPrim k cold) abort
    let l ← primsOf cold abort ks
    pure (m :: l)

/-- One element. -/
def elemOf (v : Ver) (m : Meth) (cold : Cold) (abort : Bool) : P Elem := do
  let ms ← primsOf cold abort m.mats
  let ss ← sigsOf v cold abort m.tail
  pure ⟨ms, ss, []⟩

/-- parsing.py:1541-2548: the elements of a group whose counter was already removed. -/
def elems (v : Ver) (m : Meth) (c : Counter) (cold : Cold) (abort : Bool) : P (List Elem) :=
  match m.mode with
  | .counted => times (elemOf v m cold abort) c.count
  | .sized => do
    fillStrict (ctrCount cold c) abort
    let b ← takeBuf (ctrCount cold c)
    whole b (elemOf v m cold true)
  | .raw => do
    fillStrict (ctrCount cold c) abort
    let b ← takeBuf (ctrCount cold c)
    pure [⟨[], [], b⟩]

/-- parsing.py:1269-1276: `getattr(self, None)` for codes without a method is a TypeError. -/
def attach (v : Ver) (c : Counter) (cold : Cold) (abort : Bool) : P (List (Slot × Elem)) :=
  match method v c.code with
  | none => fail .typeError
  | some m => do
    let es ← elems v m c cold abort
    pure (es.map (fun e => (m.slot, e)))

/-! ## Bodies -/

/-- Deserialization of bodies (`SerderKERI`, `SerderACDC`), which is not modelled: of the exact bytes of a message with a version string, and
of a native fixed field group in text. -/
structure Loader (β : Type) where
  load : Smellage → Bytes → Except Err β
  native : Ver → Bytes → Except Err β

def major : Ver → Nat
  | .v1 => 1
  | .v2 => 2

/-- serdering.py:195-219: is the version of the message compatible with that of the stream? -/
def compatible (v : Ver) (m : Smellage) : Except Err Unit :=
  if m.pvrsn.1 > major v then .error .deserialize
  else match m.gvrsn with
    | none => .ok ()
    | some g => if g.1 > major v then .error .deserialize else if g.2 > 0 then .error .deserialize else .ok ()

/-- serdering.py:143-227 `reap` and 1165-1172 for a body with a version string. -/
def reap {β : Type} (L : Loader β) (v : Ver) (b : Bytes) : Got β :=
  match smell b with
  | .error e => ⟨.error e, 0⟩
  | .ok m => match compatible v m with
    | .error e => ⟨.error e, 0⟩
    | .ok () => if b.length < m.size then ⟨.error .shortage, 0⟩ else ⟨L.load m (b.take m.size), m.size⟩

/-- parsing.py:1093-1095: native bodies are always read as text. -/
def toText (cold : Cold) (b : Bytes) : Bytes := if cold = .bny then asc (Verif.Matter.encodeB64 b) else b

/-- parsing.py:1069-1137: the body announced by a counter.  `self.mucodes.FixBodyGroup` does not exist in version 1 (AttributeError);
`labeler.fullsize` (serdering.py:186) does not exist, so that a field map never gets further. -/
def bodyOf {β : Type} (L : Loader β) (c : Counter) (cold : Cold) (framed : Bool) : P β := do
  let v ← getVer
  if isNonNative v c.code then do
    delCtr cold c
    let t ← extractor (fun _ => readPrim .texter cold) framed
    lift (reap L v t.raw).val
  else if v = .v1 then fail .attributeError
  else if letter c.code 'F' then do
    let n := ctrSize v cold c + ctrCount cold c
    fill n framed
    let b ← takeBuf n
    lift (L.native v (toText cold b))
  else if letter c.code 'G' then do
    let n := ctrSize v cold c + ctrCount cold c
    fill n framed
    del n
    fail .attributeError
  else if isGeneric v c.code then fail .topLevelStream
  else fail .coldStart

/-! ## Messages -/

/-- What `msgParsator` returns: the body, the attachments in order of arrival with the list they belong to, and nested messages. -/
inductive Exts (β : Type) where
  | mk (body : β) (atts : List (Slot × Elem)) (nests : List (Exts β))

def Exts.body {β : Type} : Exts β → β
  | .mk b _ _ => b

def Exts.atts {β : Type} : Exts β → List (Slot × Elem)
  | .mk _ a _ => a

def Exts.nests {β : Type} : Exts β → List (Exts β)
  | .mk _ _ n => n

/-- One of the attachment lists. -/
def Exts.get {β : Type} (e : Exts β) (slot : Slot) : List Elem := (e.atts.filter (fun p => p.1 = slot)).map (·.2)

/-- Attachments so far. -/
structure Atts (β : Type) where
  atts : List (Slot × Elem)
  nests : List (Exts β)

/-- What the loop over attachments does at a counter (parsing.py:1219-1266). -/
inductive Cls where
  | stop | skip | nest | att
  deriving DecidableEq, Repr

def classify (v : Ver) (code : List Char) : Cls :=
  if code = gvcCode ∨ isGeneric v code = true ∨ isOtherMsg v code = true then .stop
  else if isAttGroup v code then .skip
  else if isBodyWith v code || isBody v code then .nest
  else .att

/-- parsing.py:1202-1299.  `sub` extracts a nested message. -/
def loop {β : Type} (sub : P (Exts β)) (framed enclosed : Bool) : Nat → Cold → Atts β → P (Atts β)
  | 0, _, _ => fail .recursion
  | n + 1, cold, acc =>
    let next (acc : Atts β) : P (Atts β) := do
      let b ← getBuf
      if b = [] then pure acc
      else if enclosed then loop sub framed enclosed n cold acc
      else do
        let cold ← sniffP
        if cold = .msg then pure acc else loop sub framed enclosed n cold acc
    do
    let c ← peek cold (framed || enclosed)
    let v ← getVer
    match classify v c.code with
    | .stop => if enclosed then fail .sizedGroup else pure acc
    | .skip => do
      let n := ctrSize v cold c + ctrCount cold c
      fill n framed
      del n
      next acc
    | .nest => if enclosed = false then pure acc else do
      let e ← sub
      next ⟨acc.atts, acc.nests ++ [e]⟩
    | .att => do
      delCtr cold c
      let es ← attach v c cold (framed || enclosed)
      next ⟨acc.atts ++ es, acc.nests⟩

/-- The bytes there are and will be. -/
def total (s : St) : Nat := s.buf.length + s.fut.flatten.length

/-- The loop with enough fuel: every round removes at least one byte. -/
def loopAll {β : Type} (sub : P (Exts β)) (framed enclosed : Bool) (cold : Cold) : P (Atts β) := fun s =>
  loop sub framed enclosed (total s + 1) cold ⟨[], []⟩ s

/-- parsing.py:1190-1299 inside an attachment group. -/
def inAttGroup {β : Type} (sub : P (Exts β)) (framed : Bool) (cold : Cold) : P (Atts β) := do
  let c ← peek cold true
  if c.code = gvcCode then do
    delCtr cold c
    let v ← getVer
    restoring v (do
      setVer c
      loopAll sub framed true cold)
  else loopAll sub framed true cold

/-- parsing.py:1161-1309: the attachments. -/
def attsOf {β : Type} (sub : P (Exts β)) (framed enclosed : Bool) : P (Atts β) := sizedWhen enclosed (do
  fill 1 framed
  let cold ← sniffP
  if cold = .msg then pure ⟨[], []⟩
  else do
    let c ← peek cold framed
    let v ← getVer
    if isAttGroup v c.code then do
      delCtr cold c
      fill (ctrCount cold c) framed
      let b ← takeBuf (ctrCount cold c)
      onCopy b (sizedWhen true (inAttGroup sub framed cold))
    else loopAll sub framed enclosed cold)

/-- parsing.py:1051-1137 inside a body with attachment group: the body and the version to restore. -/
def groupBody {β : Type} (L : Loader β) (cold : Cold) : P (β × Option Ver) := sizedWhen true (do
  let c ← peek cold true
  if c.code = gvcCode then do
    delCtr cold c
    let v ← getVer
    setVer c
    let c ← peek cold true
    let b ← bodyOf L c cold true
    pure (b, some v)
  else do
    let b ← bodyOf L c cold true
    pure (b, none))

/-- parsing.py:1051-1312 inside a body with attachment group.  The version is only restored if the body was read. -/
def inBodyWith {β : Type} (L : Loader β) (sub : P (Exts β)) (cold : Cold) : P (Exts β) := do
  let (b, v) ← groupBody L cold
  let a ← match v with
    | some v => restoring v (attsOf sub true true)
    | none => attsOf sub true true
  pure (.mk b a.atts a.nests)

/-- parsing.py:1008-1018: a version counter at the front of a message changes the version for good. -/
def frontVersion (framed : Bool) : P Unit := do
  let cold ← sniffP
  if cold = .msg then pure ()
  else do
    let c ← peek cold framed
    if c.code = gvcCode then do
      delCtr cold c
      setVer c
    else pure ()

/-- parsing.py:914-1312 `msgParsator`; the first argument bounds the depth of nesting. -/
def msg {β : Type} (L : Loader β) : Nat → Bool → P (Exts β)
  | 0, _ => fail .recursion
  | d + 1, framed => do
    fill 1 framed
    frontVersion framed
    let cold ← sniffP
    if cold = .msg then do
      let b ← extractor (reap L) framed
      let a ← attsOf (msg L d framed) framed false
      pure (.mk b a.atts a.nests)
    else do
      let c ← peek cold framed
      let v ← getVer
      if isBodyWith v c.code then do
        delCtr cold c
        fill (ctrCount cold c) framed
        let b ← takeBuf (ctrCount cold c)
        onCopy b (inBodyWith L (msg L d true) cold)
      else do
        let b ← bodyOf L c cold framed
        let a ← attsOf (msg L d framed) framed false
        pure (.mk b a.atts a.nests)

/-! ## Generic groups -/

/-- The variables of `groupParsator` (parsing.py:788-795): the current stream, the flag `framed`, whether `eggs` was set, `svrsn`, the stack of
enclosing streams (innermost first) and the messages handed to `msgProcess`. -/
structure GSt (β : Type) where
  cur : St
  framed : Bool
  eggs : Bool := false
  svrsn : Option Ver := none
  stack : List (Ver × Bytes) := []
  out : List (Exts β) := []

/-- How `groupParsator` ends: returns, waits for bytes that do not come, or raises SizedGroupError, another ExtractionError or any other
exception. -/
inductive Exit where
  | done | wait | sized | extraction | other
  deriving DecidableEq, Repr

/-- Messages extracted, how it ended, and the state of the outermost stream. -/
structure GOut (β : Type) where
  out : List (Exts β)
  exit : Exit
  st : St

/-- parsing.py:797-799: leave exhausted groups. -/
def ascend {β : Type} (g : GSt β) : List (Ver × Bytes) → GSt β
  | [] => { g with stack := [] }
  | (v, b) :: tl => if g.cur.buf = [] then ascend { g with cur := ⟨b, g.cur.fut, v⟩, svrsn := some v } tl else { g with stack := (v, b) :: tl }

/-- parsing.py:894-910: an exception; the version becomes that of the outermost stream. -/
def raised {β : Type} (g : GSt β) (e : Err) (s : St) : GOut β :=
  let st := match g.stack.getLast? with
    | none => s
    | some (v, b) => ⟨b, s.fut, v⟩
  ⟨g.out, if extraction e then if g.eggs then .sized else .extraction else .other, st⟩

/-- parsing.py:815-842: enter a generic group, or the way it fails.  Nothing arrives in the copy.  `svrsn == None` (836) has no effect. -/
def enter {β : Type} (g : GSt β) (c : Counter) (cold : Cold) (s : St) : Sum (GOut β) (GSt β) :=
  match (do
      delCtr cold c
      fill (ctrCount cold c) g.framed
      takeBuf (ctrCount cold c) : P Bytes) s with
  | .wait => .inl ⟨g.out, .wait, s⟩
  | .err e s => .inl (raised g e s)
  | .ok b s =>
    let g := { g with eggs := true }
    match peek cold g.framed ⟨b, [], s.ver⟩ with
    | .wait => .inl ⟨g.out, .wait, s⟩
    | .err e _ => .inl (raised g e s)
    | .ok c' _ =>
      let stack := (s.ver, s.buf) :: g.stack
      if c'.code = gvcCode then
        match setVer c' ⟨b.drop (ctrSize s.ver cold c'), s.fut, s.ver⟩ with
        | .ok _ s' => .inr { g with cur := s', framed := true, svrsn := some s'.ver, stack := stack }
        | .err e s' => .inl (raised { g with stack := stack } e s')
        | .wait => .inl ⟨g.out, .wait, s⟩
      else .inr { g with cur := ⟨b, s.fut, g.svrsn.getD s.ver⟩, framed := true, stack := stack }

/-- parsing.py:796-891, with as many rounds as there are bytes.  Every exception of `msgParsator` but TopLevelStreamError becomes an
ExtractionError (864-865), here a shortage. -/
def group {β : Type} (L : Loader β) (d : Nat) : Nat → GSt β → GOut β
  | 0, g => raised g .recursion g.cur
  | n + 1, g =>
    let g := ascend g g.stack
    let message (s : St) : GOut β :=
      match msg L d g.framed s with
      | .wait => ⟨g.out, .wait, s⟩
      | .err .topLevelStream s => group L d n { g with cur := s }
      | .err _ s => raised g .shortage s
      | .ok e s => group L d n { g with cur := s, out := g.out ++ [e] }
    if g.cur.buf = [] then ⟨g.out, .done, g.cur⟩
    else match sniff g.cur.buf with
      | .error e => raised g e g.cur
      | .ok .msg => message g.cur
      | .ok cold => match peek cold g.framed g.cur with
        | .wait => ⟨g.out, .wait, g.cur⟩
        | .err e s => raised g e s
        | .ok c s => if isGeneric s.ver c.code then
            match enter g c cold s with
            | .inl o => o
            | .inr g => group L d n g
          else message s

/-! ## Drivers -/

/-- One call of `groupParsator`, with enough fuel. -/
def groupAll {β : Type} (L : Loader β) (framed : Bool) (s : St) : GOut β := group L (total s + 1) (total s + 1) { cur := s, framed := framed }

/-- parsing.py:536-556: only an ExtractionError that is not a SizedGroupError flushes the stream. -/
def after {β : Type} (o : GOut β) : St := if o.exit = .extraction then { o.st with buf := [] } else o.st

/-- parsing.py:356-411 `parse` and 486-559 `allParsator` on bytes that are all there: the messages and whether it ends within the given number
of rounds. -/
def parse {β : Type} (L : Loader β) (framed : Bool) : Nat → St → List (Exts β) × Bool
  | 0, s => ([], decide (s.buf = []))
  | n + 1, s =>
    if s.buf = [] then ([], true)
    else
      let o := groupAll L framed s
      if o.exit = .wait then (o.out, false)
      else
        let r := parse L framed n (after o)
        (o.out ++ r.1, r.2)

/-- parsing.py:659-750 `parsator`: continuous parsing of a stream that arrives in pieces, one more at each `yield`; the messages extracted
until no piece is left. -/
def parsator {β : Type} (L : Loader β) (framed : Bool) : Nat → St → List (Exts β)
  | 0, _ => []
  | n + 1, s =>
    let o := groupAll L framed s
    if o.exit = .wait then o.out
    else match (after o).fut with
      | [] => o.out
      | p :: fut => o.out ++ parsator L framed n ⟨(after o).buf ++ p, fut, (after o).ver⟩

end Verif.Prs
