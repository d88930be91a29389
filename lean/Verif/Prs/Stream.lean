import Verif.Prs.Version
import Verif.Codec.Counter
import Verif.Codec.Indexer
import Verif.Codec.Texts

/-!
# Streams: cold start, extraction of single primitives, waiting for bytes

The parser of `core/parsing.py` is a generator.  It works on a `bytearray` to which the caller appends between two `next()` calls.  Here the
state holds the bytes now in the buffer, the pieces that arrive at the coming `yield`s (one each, maybe empty) and the stream version
`Parser.version`.  A `yield` without pieces left is the result `wait`.
-/

namespace Verif.Prs

open Verif.Matter (Mat)
open Verif.Idr (Ixr)
open Verif.Ctr (Ver Counter)

/-- kering.py:283-284 `Colds`. -/
inductive Cold where
  | msg | txt | bny | ano
  deriving DecidableEq, Repr

/-- kering.py:287-328 `sniff`; the values of the tritets are those of `ColdDex` (kering.py:268-275). -/
def sniff : Bytes → Except Err Cold
  | [] => .error .shortage
  | b :: _ =>
    let tritet := b / 32
    if tritet = 3 ∨ tritet = 4 ∨ tritet = 5 ∨ tritet = 6 then .ok .msg
    else if tritet = 1 ∨ tritet = 2 then .ok .txt
    else if tritet = 7 then .ok .bny
    else if tritet = 0 then .ok .ano
    else .error .coldStart

/-- The subclasses of `ExtractionError` (kering.py:815-960) among the modelled exceptions. -/
def extraction : Err → Bool
  | .shortage | .coldStart | .sizedGroup | .topLevelStream | .versionError | .protocolError | .kindError | .conversion | .deserialize
  | .unexpectedCode | .unexpectedCountCode | .unexpectedOpCode => true
  | _ => false

/-- What a constructor with `strip=True` gives and how many bytes it has removed from the front of its argument. -/
structure Got (α : Type) where
  val : Except Err α
  used : Nat

/-- The classes of primitives the parser extracts. -/
inductive Klas where
  | verfer | cigar | prefixer | number | diger | dater | texter | noncer | labeler | verser
  deriving DecidableEq, Repr

/-- coring.py `DigDex`. -/
def digCodes : List (List Char) := ["E", "F", "G", "H", "I", "0D", "0E", "0F", "0G"].map String.toList

/-- The codes a class accepts, none for every code: coring.py `Verfer`, `Cigar`, `Prefixer` (`PreDex`), `Number` (`NumDex`), `Diger` (`DigDex`),
`Dater`, `Texter` (`TexDex`), `Noncer` (`NonceDex`), `Labeler` (`LabelDex`), `Verser`. -/
def Klas.codes : Klas → Option (List (List Char))
  | .verfer => some (["B", "D", "1AAA", "1AAB", "1AAI", "1AAJ"].map String.toList)
  | .cigar => none
  | .prefixer => some (digCodes ++ ["B", "D", "1AAA", "1AAB", "1AAC", "1AAD", "1AAE", "1AAI", "1AAJ"].map String.toList)
  | .number => some Verif.Matter.numDex
  | .diger => some digCodes
  | .dater => some ["1AAG".toList]
  | .texter => some (["4B", "5B", "6B", "7AAB", "8AAB", "9AAB"].map String.toList)
  | .noncer => some (digCodes ++ ["1AAP", "0A", "a"].map String.toList)
  | .labeler => some (["1AAP", "0J", "0K", "X", "1AAF", "0L", "0M", "Y", "1AAN", "0N", "0O", "Z", "4A", "5A", "6A", "7AAA", "8AAA", "9AAA", "V", "W",
      "4B", "5B", "6B", "7AAB", "8AAB", "9AAB"].map String.toList)
  | .verser => some (["Y", "0O"].map String.toList)

/-- The exception for a code the class does not accept. -/
def Klas.err : Klas → Err
  | .verfer => .valueError
  | .number | .dater | .texter => .validation
  | _ => .invalidCode

/-- The check of the code at the end of the constructors. -/
def Klas.allows (k : Klas) (code : List Char) : Bool :=
  match k.codes with
  | none => true
  | some l => decide (code ∈ l)

/-- coring.py:1059-1070, `Matter(qb64b=…, strip=True)` and `Matter(qb2=…, strip=True)`; bytes above 127 in text are characters outside of every
alphabet (Python raises UnicodeDecodeError, a ValueError; neither is a shortage). -/
def readMat (cold : Cold) (b : Bytes) : Got Mat :=
  let r := match cold with
    | .txt => Verif.Matter.exfil (chars b)
    | .bny => Verif.Matter.bexfil b
    | _ => .error .coldStart
  match r with
  | .error e => ⟨.error e, 0⟩
  | .ok m => match Verif.Matter.fullSize m with
    | .error e => ⟨.error e, 0⟩
    | .ok n => ⟨.ok m, if cold = .bny then n * 3 / 4 else n⟩

/-- parsing.py:306-320 `extract` for a class of primitives: the code is checked after the bytes were stripped. -/
def readPrim (k : Klas) (cold : Cold) (b : Bytes) : Got Mat :=
  match readMat cold b with
  | ⟨.error e, n⟩ => ⟨.error e, n⟩
  | ⟨.ok m, n⟩ => if k.allows m.code then ⟨.ok m, n⟩ else ⟨.error k.err, n⟩

/-- indexing.py:315-330 and `Siger` (indexing.py:775-778): the length of the form itself is stripped, then the code is checked. -/
def readSig (cold : Cold) (b : Bytes) : Got Ixr :=
  let r := match cold with
    | .txt => Verif.Idr.exfil (chars b)
    | .bny => Verif.Idr.bexfil b
    | _ => .error .coldStart
  match r with
  | .error e => ⟨.error e, 0⟩
  | .ok m =>
    let l := if cold = .bny then (Verif.Idr.binfil m).map List.length else (Verif.Idr.infil m).map List.length
    match l with
    | .error e => ⟨.error e, 0⟩
    | .ok n => match Verif.Idr.siger (.ok m) with
      | .error e => ⟨.error e, n⟩
      | .ok m => ⟨.ok m, n⟩

/-- counting.py:868-882 and 1177-1218, `Counter(qb64b=…)`: a byte above 127 in the code is a UnicodeDecodeError, which is a ValueError. -/
def ctrText (v : Ver) (b : Bytes) : Except Err Counter :=
  match Verif.Ctr.exfil v (chars b) with
  | .error .unexpectedCode =>
    if (b.take ((Verif.Ctr.hards (chars (b.take 2))).getD 2)).any (fun c => decide (128 ≤ c)) then .error .valueError else .error .unexpectedCode
  | r => r

/-- counting.py:1041-1059 `byteSize`, text or binary. -/
def ctrSize (v : Ver) (cold : Cold) (c : Counter) : Nat :=
  match Verif.Ctr.fullSize v c with
  | .error _ => 0
  | .ok n => if cold = .bny then n / 4 * 3 else n

/-- counting.py:1022-1036 `byteCount`. -/
def ctrCount (cold : Cold) (c : Counter) : Nat := if cold = .bny then Verif.Ctr.byteCountBinary c else Verif.Ctr.byteCountText c

/-- A counter with `strip=False` (parsing.py:342-353). -/
def peekCtr (v : Ver) (cold : Cold) (b : Bytes) : Got Counter :=
  match cold with
  | .txt => ⟨ctrText v b, 0⟩
  | .bny => ⟨Verif.Ctr.bexfil v b, 0⟩
  | _ => ⟨.error .coldStart, 0⟩

/-- A counter with `strip=True`. -/
def readCtr (v : Ver) (cold : Cold) (b : Bytes) : Got Counter :=
  match peekCtr v cold b with
  | ⟨.error e, n⟩ => ⟨.error e, n⟩
  | ⟨.ok c, _⟩ => ⟨.ok c, ctrSize v cold c⟩

/-! ## Generators -/

/-- Bytes in the buffer, pieces to come, and `Parser.version` (only 1.0 and 2.0 are supported, parsing.py:237-258). -/
structure St where
  buf : Bytes
  fut : List Bytes
  ver : Ver
  deriving DecidableEq, Repr

inductive Res (α : Type) where
  | ok (a : α) (s : St)
  | err (e : Err) (s : St)
  | wait
  deriving DecidableEq, Repr

/-- A generator over the stream. -/
def P (α : Type) : Type := St → Res α

def P.pure {α : Type} (a : α) : P α := fun s => .ok a s

def P.bind {α β : Type} (m : P α) (f : α → P β) : P β := fun s =>
  match m s with
  | .ok a s => f a s
  | .err e s => .err e s
  | .wait => .wait

instance : Monad P where
  pure := P.pure
  bind := P.bind

def fail {α : Type} (e : Err) : P α := fun s => .err e s

/-- Repeat `rd` on shortage, one piece later each time, unless `abort`. -/
def extractGo {α : Type} (rd : Bytes → Got α) (abort : Bool) (v : Ver) : List Bytes → Bytes → Res α
  | fut, buf =>
    let g := rd buf
    match g.val with
    | .ok a => .ok a ⟨buf.drop g.used, fut, v⟩
    | .error e =>
      if e = .shortage ∧ abort = false then
        match fut with
        | [] => .wait
        | p :: fut => extractGo rd abort v fut (buf.drop g.used ++ p)
      else .err e ⟨buf.drop g.used, fut, v⟩

/-- parsing.py:323-353 `_extractor`. -/
def extractor {α : Type} (rd : Ver → Bytes → Got α) (abort : Bool) : P α := fun s => extractGo (rd s.ver) abort s.ver s.fut s.buf

/-- Peek at a counter. -/
def peek (cold : Cold) (abort : Bool) : P Counter := extractor (fun v => peekCtr v cold) abort

/-- `while len(ims) < n: yield` -/
def waitGo (n : Nat) (v : Ver) : List Bytes → Bytes → Res Unit
  | fut, buf =>
    if n ≤ buf.length then .ok () ⟨buf, fut, v⟩
    else match fut with
      | [] => .wait
      | p :: fut => waitGo n v fut (buf ++ p)

/-- `while len(ims) < n and not framed: yield` -/
def fill (n : Nat) (framed : Bool) : P Unit := fun s => if framed then .ok () s else waitGo n s.ver s.fut s.buf

/-- `while len(ims) < n: if abort: raise ShortageError(…); yield` -/
def fillStrict (n : Nat) (abort : Bool) : P Unit := fun s =>
  if abort then if n ≤ s.buf.length then .ok () s else .err .shortage s else waitGo n s.ver s.fut s.buf

/-- `x = ims[:n]; del ims[:n]` -/
def takeBuf (n : Nat) : P Bytes := fun s => .ok (s.buf.take n) { s with buf := s.buf.drop n }

/-- `del ims[:n]` -/
def del (n : Nat) : P Unit := fun s => .ok () { s with buf := s.buf.drop n }

def getVer : P Ver := fun s => .ok s.ver s

def getBuf : P Bytes := fun s => .ok s.buf s

def sniffP : P Cold := fun s =>
  match sniff s.buf with
  | .error e => .err e s
  | .ok c => .ok c s

/-- `del ims[:ctr.byteSize(cold)]` -/
def delCtr (cold : Cold) (c : Counter) : P Unit := fun s => del (ctrSize s.ver cold c) s

/-- parsing.py:237-258, the setter of `version`, from a version counter (`Counter.b64ToVer(ctr.countToB64(l=3))`). -/
def setVer (c : Counter) : P Unit := fun s =>
  match Verif.Ctr.b64ToVer (Verif.B64.intToB64 c.count 3) with
  | .error e => .err e s
  | .ok (major, minor) => match Verif.Ctr.tables major minor with
    | .error e => .err e s
    | .ok v => .ok () { s with ver := v }

/-- Run on a copy of some bytes (`ims = eims`); nothing arrives in a copy.  The own stream keeps its bytes. -/
def onCopy {α : Type} (b : Bytes) (act : P α) : P α := fun s =>
  match act ⟨b, [], s.ver⟩ with
  | .ok a s' => .ok a { s with ver := s'.ver }
  | .err e s' => .err e { s with ver := s'.ver }
  | .wait => .wait

/-- `finally: while verstack: self.version = verstack.pop()` (parsing.py:1307-1309) for a pushed version. -/
def restoring {α : Type} (v : Ver) (act : P α) : P α := fun s =>
  match act s with
  | .ok a s => .ok a { s with ver := v }
  | .err e s => .err e { s with ver := v }
  | .wait => .wait

/-- `except ExtractionError: if c: raise SizedGroupError; raise` (parsing.py:1153-1157, 1301-1305). -/
def sizedWhen {α : Type} (c : Bool) (act : P α) : P α := fun s =>
  match act s with
  | .err e s => if c && extraction e then .err .sizedGroup s else .err e s
  | r => r

/-- A fixed number of times. -/
def times {α : Type} (m : P α) : Nat → P (List α)
  | 0 => pure []
  | n + 1 => do
    let a ← m
    let l ← times m n
    pure (a :: l)

/-- `while gims: …`.  The fuel is the number of bytes: every round strips at least one. -/
def whileBuf {α : Type} (m : P α) : Nat → P (List α)
  | 0 => fun s => if s.buf = [] then .ok [] s else .err .recursion s
  | n + 1 => fun s => if s.buf = [] then .ok [] s else (do
    let a ← m
    let l ← whileBuf m n
    pure (a :: l)) s

/-- All of a copy. -/
def whole {α : Type} (b : Bytes) (m : P α) : P (List α) := onCopy b (whileBuf m b.length)

end Verif.Prs
