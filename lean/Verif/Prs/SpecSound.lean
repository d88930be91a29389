import Verif.Prs.Model
import Verif.Codec.PropsIndexer

/-!
# What a well-formed message is
-/

namespace Verif.Prs

open Verif.Matter (Mat)
open Verif.Idr (Ixr)
open Verif.Ctr (Ver Counter)
open Verif.B64

/-- A primitive of the class: its code is one the class accepts, and its raw bytes are as many as the code says. -/
def Proper (k : Klas) (m : Mat) : Prop :=
  k.allows m.code = true ∧ AllLt 256 m.raw ∧
    ∃ sz n, Verif.Matter.sizes? m.code = some sz ∧ Verif.Matter.framedSize sz m.soft = .ok n ∧ m.soft.length = sz.ss - sz.xs ∧
      m.raw.length + sz.ls = (n - sz.cs) * 3 / 4

/-- A signature: its code is one for indexed signatures, its raw bytes are as many as the code says, its indices fit. -/
def ProperSig (m : Ixr) : Prop :=
  m.code ∈ Verif.Idr.sigCodes ∧ AllLt 256 m.raw ∧ m.raw.length = Verif.Idr.sigBytes m.code ∧ m.index ≤ Verif.Idr.room m.code

/-- The primitives in order are of these classes. -/
inductive Line : List Klas → List Mat → Prop where
  | nil : Line [] []
  | cons {k : Klas} {m : Mat} {ks : List Klas} {ms : List Mat} : Proper k m → Line ks ms → Line (k :: ks) (m :: ms)

/-- What the elements of each of the lists of attachments consist of (parsing.py:41-66, the comments of `MsgParseDom`). -/
inductive FitsSlot : Slot → Elem → Prop where
  | sigers {s : Ixr} : ProperSig s → FitsSlot .sigers ⟨[], [s], []⟩
  | wigers {s : Ixr} : ProperSig s → FitsSlot .wigers ⟨[], [s], []⟩
  | cigars {ms : List Mat} : Line [.verfer, .cigar] ms → FitsSlot .cigars ⟨ms, [], []⟩
  | rsgs {ms : List Mat} {ss : List Ixr} : Line [.prefixer, .number, .diger] ms → (∀ s ∈ ss, ProperSig s) → FitsSlot .rsgs ⟨ms, ss, []⟩
  | tsgs {ms : List Mat} {ss : List Ixr} : Line [.prefixer, .number, .diger] ms → (∀ s ∈ ss, ProperSig s) → FitsSlot .tsgs ⟨ms, ss, []⟩
  | lsgs {ms : List Mat} {ss : List Ixr} : Line [.prefixer] ms → (∀ s ∈ ss, ProperSig s) → FitsSlot .lsgs ⟨ms, ss, []⟩
  | frcs {ms : List Mat} : Line [.number, .dater] ms → FitsSlot .frcs ⟨ms, [], []⟩
  | sscs {ms : List Mat} : Line [.number, .diger] ms → FitsSlot .sscs ⟨ms, [], []⟩
  | ssts {ms : List Mat} : Line [.prefixer, .number, .diger] ms → FitsSlot .ssts ⟨ms, [], []⟩
  | tdcs {ms : List Mat} : Line [.verser, .diger] ms → FitsSlot .tdcs ⟨ms, [], []⟩
  | bsqs {ms : List Mat} : Line [.diger, .noncer, .noncer, .labeler] ms → FitsSlot .bsqs ⟨ms, [], []⟩
  | bsss {ms : List Mat} : Line [.diger, .noncer, .noncer, .labeler, .number, .noncer] ms → FitsSlot .bsss ⟨ms, [], []⟩
  | tmqs {ms : List Mat} : Line [.diger, .noncer, .labeler, .texter] ms → FitsSlot .tmqs ⟨ms, [], []⟩
  | ptds {b : Bytes} : AllLt 256 b → FitsSlot .ptds ⟨[], [], b⟩
  | essrs {ms : List Mat} : Line [.texter] ms → FitsSlot .essrs ⟨ms, [], []⟩

/-- The body was deserialized: from exactly the bytes its version string announces, or from a native group. -/
inductive Loaded {β : Type} (L : Loader β) (x : β) : Prop where
  | plain {v : Ver} {b : Bytes} {m : Smellage} : smell b = .ok m → compatible v m = .ok () → m.size ≤ b.length → L.load m (b.take m.size) = .ok x →
      Loaded L x
  | native {v : Ver} {b : Bytes} : L.native v b = .ok x → Loaded L x

/-- A message with its attachments and nested messages. -/
inductive WellFormed {β : Type} (L : Loader β) : Exts β → Prop where
  | mk {x : β} {as : List (Slot × Elem)} {ns : List (Exts β)} : Loaded L x → (∀ p ∈ as, FitsSlot p.1 p.2) → (∀ e ∈ ns, WellFormed L e) →
      WellFormed L (.mk x as ns)

end Verif.Prs
