import Verif.Hand.Model

/-!
# What may and must be handed over

Vocabulary of the properties about the hand-over: which calls fit a message, stated per call and without the order of the dispatch.
-/

namespace Verif.Hand

open Verif.Prs

/-- The last of the attachments in a list. -/
def Dict.last {β : Type} (d : Dict β) (s : Slot) : Option Elem := (d.get s).getLast?

/-- The signatures of the last signature group of a query are those handed over, and its identifier is the requester. -/
def ByGroup {β : Type} (d : Dict β) (src : Source) (sigs : List Elem) : Prop :=
  ∃ g, d.last .lsgs = some g ∧ src = .group g.mats.head? ∧ sigs = g.sigs.map (fun s => ⟨[], [s], []⟩)

/-- The plain signatures of the message are handed over with its field `i` as requester. -/
def ByField {β : Type} (h : Head) (d : Dict β) (src : Source) (sigs : List Elem) : Prop :=
  d.get .lsgs = [] ∧ d.get .sigers ≠ [] ∧ sigs = d.get .sigers ∧ ∃ i, h.sender = some i ∧ src = .field i

/-- Only couples vouch for the query. -/
def ByCouples {β : Type} (d : Dict β) (src : Source) (sigs : List Elem) : Prop :=
  d.get .lsgs = [] ∧ d.get .sigers = [] ∧ d.get .cigars ≠ [] ∧ src = .nobody ∧ sigs = []

/-- Somebody vouches for the query. -/
def Vouched {β : Type} (h : Head) (d : Dict β) (src : Source) (sigs : List Elem) : Prop :=
  ByGroup d src sigs ∨ (h.major ≥ 2 ∧ (ByField h d src sigs ∨ ByCouples d src sigs))

/-- The call fits the message `d` with the head `h`: the method is that of its type, it is given this message and no other, and the
signatures its type needs are there. -/
inductive Fits {β : Type} (h : Head) (d : Dict β) : Call β → Prop where
  | event {i : Ilk} : h.cls = .keri → h.ilk = some i → i ∈ [.icp, .rot, .ixn, .dip, .drt] → d.get .sigers ≠ [] →
      Fits h d (.event d (d.last .frcs) (d.last .sscs))
  | couples {i : Ilk} : h.cls = .keri → h.ilk = some i → i ∈ [.icp, .rot, .ixn, .dip, .drt] → d.get .sigers ≠ [] → d.get .cigars ≠ [] →
      Fits h d (.couples d (d.last .frcs))
  | groups {i : Ilk} : h.cls = .keri → h.ilk = some i → i ∈ [.icp, .rot, .ixn, .dip, .drt] → d.get .sigers ≠ [] → d.get .rsgs ≠ [] →
      Fits h d (.groups d (d.last .frcs))
  | receipt : h.cls = .keri → h.ilk = some .rct → d.get .cigars ≠ [] ∨ d.get .wigers ≠ [] ∨ d.get .tsgs ≠ [] ∨ d.get .rsgs ≠ [] →
      Fits h d (.receipt d)
  | reply : h.cls = .keri → h.ilk = some .rpy → d.get .cigars ≠ [] ∨ d.get .tsgs ≠ [] → Fits h d (.reply d)
  | exchange : h.cls = .keri → h.ilk = some .exn → d.get .cigars ≠ [] ∨ d.get .tsgs ≠ [] → Fits h d (.exchange d)
  | queryKel {src : Source} {sigs : List Elem} : h.cls = .keri → h.ilk = some .qry → h.route ∈ [.logs, .ksn, .mbx] → Vouched h d src sigs →
      Fits h d (.queryKel d src sigs)
  | queryTel {src : Source} {sigs : List Elem} : h.cls = .keri → h.ilk = some .qry → h.route ∈ [.tels, .tsn] → Vouched h d src sigs →
      Fits h d (.queryTel d src sigs)
  | tel {i : Ilk} : h.cls = .keri → h.ilk = some i → i ∈ [.vcp, .vrt, .iss, .rev, .bis, .brv] → Fits h d (.tel d (d.last .sscs))
  | acdc : h.cls = .acdc → h.ilk = none → Fits h d (.acdc d (d.last .ssts))

/-- The node has everything messages are handed to. -/
structure Equipped {σ β : Type} (P : Procs σ β) : Prop where
  kvy : P.kvy = true
  tvy : P.tvy = true
  exc : P.exc = true
  rvy : P.rvy = true
  vry : P.vry = true

/-- No list of senders and no replay protection. -/
structure Open {σ β : Type} (P : Procs σ β) : Prop where
  deny : P.deny = []
  allow : P.allow = []
  kram : ∀ d s, P.kram d s = (s, true)

/-- The calls up to the first that raises an exception, and the state they lead to. -/
def upTo {σ β : Type} (P : Procs σ β) : σ → List (Call β) → List (Call β) × σ
  | s, [] => ([], s)
  | s, c :: cs => if (P.call c s).2 = .ok then (c :: (upTo P (P.call c s).1 cs).1, (upTo P (P.call c s).1 cs).2) else ([c], (P.call c s).1)

/-- The message of a call. -/
def Call.dict {β : Type} : Call β → Dict β
  | .event d _ _ => d
  | .couples d _ => d
  | .groups d _ => d
  | .receipt d => d
  | .reply d => d
  | .queryKel d _ _ => d
  | .queryTel d _ _ => d
  | .exchange d => d
  | .tel d _ => d
  | .acdc d _ => d

end Verif.Hand
