import Verif.Prs.Messagize
import Verif.Prs.Run

/-!
# What a message carries

The vocabulary of the properties about `messagize` and the parser: which primitives fit into the attachments of a message, and what the
receiver is to get.
-/

namespace Verif.Prs

open Verif.Matter (Mat)
open Verif.Idr (Ixr)
open Verif.Ctr (Ver Counter)
open Verif.B64

/-- Where the receiver finds the bonds of a class; for some classes the parser has no place. -/
def Clan.slot : Clan → Option Slot
  | .sealSource => some .sscs
  | .sealEvent => some .ssts
  | .sealKind => some .tdcs
  | .blindState => some .bsqs
  | .boundState => some .bsss
  | .typeMedia => some .tmqs
  | .firstSeen => some .frcs
  | .sealDigest | .sealRoot | .sealLast | .sealBack => none

/-- The primitives of a bond. -/
def Clan.klas : Clan → List Klas
  | .sealDigest => [.diger]
  | .sealRoot => [.diger]
  | .sealSource => [.number, .diger]
  | .sealEvent => [.prefixer, .number, .diger]
  | .sealLast => [.prefixer]
  | .sealBack => [.prefixer, .diger]
  | .sealKind => [.verser, .diger]
  | .blindState => [.diger, .noncer, .noncer, .labeler]
  | .boundState => [.diger, .noncer, .noncer, .labeler, .number, .noncer]
  | .typeMedia => [.diger, .noncer, .labeler, .texter]
  | .firstSeen => [.number, .dater]

/-- A group of signatures: version 2 only reads those with a short counter (4095 quadlets). -/
def FitSigs (v : Ver) (ss : List Ixr) : Prop := (∀ s ∈ ss, GoodSig s) ∧ (v = .v2 → ShortSigs false ss)

def FitQuad (v : Ver) (q : Quad) : Prop := GoodPrim .prefixer q.i ∧ GoodPrim .number q.n ∧ GoodPrim .diger q.d ∧ FitSigs v q.sigs

/-- The attachments are made of primitives of the right classes. -/
structure Fit (a : Args) : Prop where
  sigers : ∀ s ∈ a.sigers, GoodSig s
  tsgs : ∀ q ∈ a.tsgs, FitQuad a.ver q
  lsgs : ∀ l ∈ a.lsgs, GoodPrim .prefixer l.1 ∧ FitSigs a.ver l.2
  wigers : ∀ w ∈ a.wigers, GoodSig w.1
  cigars : ∀ c ∈ a.cigars, GoodPrim .verfer c.1 ∧ GoodMat c.2
  rsgs : ∀ q ∈ a.rsgs, FitQuad a.ver q
  bonds : ∀ b ∈ a.bonds, b.clan.slot ≠ none ∧ GoodPrims b.clan.klas b.mats

/-- The body can be read in a stream of the version used: by its version string, or, if native, by its counter. -/
def FitBody {β : Type} (L : Loader β) (a : Args) (x : β) : Prop :=
  if a.native then a.svrsn = .v2 ∧ ∃ c t r, Front .v2 false c t ∧ letter c.code 'F' = true ∧ a.raw = t ++ r ∧ ctrCount .txt c = r.length ∧ AllLt 256 r ∧
    L.native .v2 a.raw = .ok x
  else GoodBody L a.ver a.raw x

/-- A number in 16 bytes, as version 1 has it. -/
def as16 (n : Mat) : Mat := ⟨['0', 'A'], [], Verif.toDigits 256 16 (Verif.Matter.numOf n)⟩

/-- Version 1 messages carry numbers in 16 bytes. -/
def sentMat (v : Ver) (m : Mat) : Mat := if v = .v1 ∧ m.code ∈ Verif.Matter.numDex then as16 m else m

def Elem.sent (v : Ver) (e : Elem) : Elem := { e with mats := e.mats.map (sentMat v) }

/-- The bonds for one of the lists. -/
def Args.bondsIn (a : Args) (s : Slot) : List Elem := ((a.bonds.filter (fun b => b.clan.slot = some s)).map bondElem).map (Elem.sent a.ver)

/-- What the receiver is to find in each of its lists. -/
def Args.expected (a : Args) : Slot → List Elem
  | .sigers => a.sigers.map sigElem
  | .tsgs => (a.tsgs.map quadElem).map (Elem.sent a.ver)
  | .lsgs => a.lsgs.map lastElem
  | .wigers => a.wigers.map (fun w => sigElem w.1)
  | .cigars => a.cigars.map cigElem
  | .rsgs => (a.rsgs.map quadElem).map (Elem.sent a.ver)
  | .ptds => []
  | .essrs => []
  | s => a.bondsIn s

/-- What was received is what was sent. -/
structure Carries {β : Type} (a : Args) (x : β) (ns : List (Exts β)) (e : Exts β) : Prop where
  body : e.body = x
  nests : e.nests = ns
  lists : ∀ s, e.get s = a.expected s

/-- One for each, in order. -/
inductive All2 {α β : Type} (R : α → β → Prop) : List α → List β → Prop where
  | nil : All2 R [] []
  | cons {a : α} {b : β} {as : List α} {bs : List β} : R a b → All2 R as bs → All2 R (a :: as) (b :: bs)

/-- The same message as far as the receiver can tell: the same body, the same attachments in every list, the same nested messages. -/
inductive Same {β : Type} : Exts β → Exts β → Prop where
  | mk {e e' : Exts β} : e.body = e'.body → (∀ s, e.get s = e'.get s) → All2 Same e.nests e'.nests → Same e e'

/-- Built by `messagize` to be nested in another message, with up to so many levels of nested messages, and what it carries. -/
def Made {β : Type} (L : Loader β) : Nat → Bytes → Exts β → Prop
  | 0, _, _ => False
  | k + 1, b, e => ∃ a x ns, messagize a = .ok b ∧ a.nested = true ∧ a.genusify = false ∧ Fit a ∧ FitBody L a x ∧ All2 (Made L k) a.nests ns ∧ Carries a x ns e

/-- The message tells where it ends: its attachments are in a group, alone or with the body. -/
def Args.enclosed (a : Args) : Bool := a.inner || !a.framed

/-- Built by `messagize`, and what it carries. -/
structure Built {β : Type} (L : Loader β) (a : Args) (b : Bytes) (e : Exts β) : Prop where
  made : messagize a = .ok b
  fit : Fit a
  carries : ∃ k x ns, FitBody L a x ∧ All2 (Made L k) a.nests ns ∧ Carries a x ns e

/-- The receiver's version is that of the message, or the message begins with it. -/
def Args.readable (a : Args) (u : Ver) : Prop := a.genusify = true ∨ u = a.ver

end Verif.Prs
