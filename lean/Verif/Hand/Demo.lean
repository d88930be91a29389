import Verif.Hand.Kevery
import Verif.Prs.DemoStream
import Verif.Rct.Demo

/-!
# Examples and counterexamples for the hand-over
-/

namespace Verif.Hand.Demo

open Verif.Prs
open Verif.Rct
open Verif.Kel (Event Sig Node)
open Verif.Prs.DemoStream (sig0 sig3 key0 cig0 dig0 num0 quad0 bond1)

/-- Bodies named by a number: what the dispatch reads of them. -/
def head : Nat → Head
  | 0 => ⟨.keri, 1, some .icp, .other, some 1⟩
  | 1 => ⟨.keri, 1, some .ixn, .other, some 1⟩
  | 2 => ⟨.keri, 1, some .qry, .logs, some 1⟩
  | 3 => ⟨.keri, 2, some .qry, .tsn, some 1⟩
  | 4 => ⟨.keri, 1, some .exn, .other, some 1⟩
  | 5 => ⟨.keri, 2, some .exn, .other, some 1⟩
  | 6 => ⟨.keri, 1, some .rct, .other, some 1⟩
  | _ => ⟨.acdc, 1, none, .other, none⟩

def events : Nat → Event
  | 0 => Verif.Kel.Demo.icp
  | _ => Verif.Kel.Demo.ixn1

/-- Signatures by index: number of the event signed. -/
def dec : Dec Nat where
  event := events
  rct := fun _ => ⟨1, 1, 11⟩
  sig := fun e => Verif.Kel.Demo.sig (events ((e.sigs.head?.map (·.index)).getD 0)) 101 0
  cigar := fun _ => DemoRct.couple Verif.Kel.Demo.ixn1 905
  group := fun _ => ⟨2, 0, 50, []⟩
  couple := fun _ => (0, 0)
  num := fun _ => 0

def sigElem (i : Nat) : Elem := ⟨[], [⟨['A'], i, some i, []⟩], []⟩
def couple0 : Elem := ⟨[key0, cig0], [], []⟩
def group0 : Elem := ⟨[dig0], [sig3], []⟩

def dict (b : Nat) (atts : List (Slot × Elem)) : Dict Nat := asdict (.mk b atts [])

/-- All processors; the other calls succeed. -/
def base : Procs RNode Nat where
  head := head
  kvy := true
  tvy := true
  exc := true
  rvy := true
  vry := true
  kram := fun _ r => (r, true)
  call := fun _ r => (r, .ok)

theorem base_equipped : Equipped base := ⟨rfl, rfl, rfl, rfl, rfl⟩
theorem base_open : Open base := ⟨rfl, rfl, fun _ _ => rfl⟩

def node : Procs RNode Nat := base.onKevery Verif.Kel.Demo.env false false dec

theorem node_equipped : Equipped node := ⟨rfl, rfl, rfl, rfl, rfl⟩
theorem node_open : Open node := ⟨rfl, rfl, fun _ _ => rfl⟩

def r0 : RNode := DemoRct.r0

/-- The inception, and the interaction with a receipt of the watcher 905 attached. -/
def icp : Dict Nat := dict 0 [(.sigers, sigElem 0)]
def ixn : Dict Nat := dict 1 [(.sigers, sigElem 1), (.cigars, couple0)]

/-- `c147_handed` applies to both; an event with a receipt leads to two calls. -/
example : Signed (node.head ixn.body) ixn ∧ (due (node.head ixn.body) ixn).length = 2 := by
  refine ⟨⟨fun _ => by decide, fun h => absurd h (by decide), fun h => absurd h (by decide)⟩, by decide⟩

/-- In order: the event is accepted and the receipt stored (`c151_receipts_partial`). -/
theorem in_order : (feed node r0 [icp, ixn]).node.db.fels 1 = [10, 11] ∧
    (feed node r0 [icp, ixn]).store.rcts 1 11 = [DemoRct.couple Verif.Kel.Demo.ixn1 905] := by decide +kernel

/-- **C151 fails, a case.** The same messages in the other order, and a pass over the escrow of events out of order: both events are accepted, the receipt is
neither stored nor waiting. -/
theorem c151_early :
    let r := (feed node r0 [ixn, icp]).step Verif.Kel.Demo.env (.kel (.pass .outOfOrder (fun _ => false)))
    r.node.db.fels 1 = [10, 11] ∧ r.store.rcts 1 11 = [] ∧ r.store.ures = [] ∧ r.store.uwes = [] ∧ r.store.vres = [] := by decide +kernel

/-- The same receipt sent by itself does wait for the event. -/
example : (feed node r0 [ixn, dict 6 [(.cigars, couple0)]]).store.ures = [⟨1, 1, 11, DemoRct.couple Verif.Kel.Demo.ixn1 905⟩] := by decide +kernel

/-- A query of version 1 with a signature group is handed over (`c150_group`), one with a couple is not (`c150_couples_lost`), in version 2 it is
(`c150_couples_partial`). -/
example : (msgProcess node (dict 2 [(.lsgs, group0)]) r0).calls.length = 1 ∧ (msgProcess node (dict 2 [(.cigars, couple0)]) r0).calls.length = 0 ∧
    (msgProcess node (dict 3 [(.cigars, couple0)]) r0).calls.length = 1 := by decide +kernel

/-- **C149 fails in version 1, a case.** The exchange message of a denied sender is refused in version 2 (`c149_refused_partial`) and handed over in version 1. -/
theorem c149_denied_v1 :
    (msgProcess { node with deny := [1] } (dict 5 [(.cigars, couple0)]) r0).calls.length = 0 ∧
    (msgProcess { node with deny := [1] } (dict 4 [(.cigars, couple0)]) r0).calls.length = 1 := by decide +kernel

/-- Without couples or groups of signatures it is not handed over. -/
example : (msgProcess node (dict 4 [(.sigers, sigElem 0)]) r0).calls.length = 0 := by decide +kernel

/-! ## Bytes -/

open Verif.Prs.DemoStream (L bytes1 bytes2 args1 args2 built1 built2 body1)

/-- Every body of the stream is the inception. -/
def dec1 : Dec Bytes where
  event := fun _ => Verif.Kel.Demo.icp
  rct := fun _ => ⟨1, 1, 11⟩
  sig := fun _ => Verif.Kel.Demo.sig Verif.Kel.Demo.icp 101 0
  cigar := fun _ => DemoRct.couple Verif.Kel.Demo.icp 905
  group := fun _ => ⟨2, 0, 50, []⟩
  couple := fun _ => (0, 0)
  num := fun _ => 0

def base1 : Procs RNode Bytes where
  head := fun _ => ⟨.keri, 1, some .icp, .other, some 1⟩
  kvy := true
  tvy := true
  exc := true
  rvy := true
  vry := true
  kram := fun _ r => (r, true)
  call := fun _ r => (r, .ok)

/-- A message with all kinds of attachments, cut in pieces, and the beginning of another: the inception is accepted, so `c152_signed` says something about
this node. -/
example : ∃ e1 e2, (feed (base1.onKevery Verif.Kel.Demo.env false false dec1) r0
      ((parsator L false 5 ⟨bytes1.take 10, [bytes1.drop 10 ++ bytes2, bytes2.take 100], .v1⟩).map asdict)) =
    feed (base1.onKevery Verif.Kel.Demo.env false false dec1) r0 [asdict e1, asdict e2] ∧ (asdict e1).get .sigers = [Verif.Prs.sigElem sig0, Verif.Prs.sigElem sig3] := by
  obtain ⟨e1, h1⟩ := built1
  obtain ⟨e2, h2⟩ := built2
  have hs : Series L .v1 [args1, args2] (bytes1 ++ (bytes2 ++ [])) [e1, e2] := .cons h1 (Or.inr (by decide)) (.cons h2 (Or.inl rfl) .nil)
  have := c147_delivered (base1.onKevery Verif.Kel.Demo.env false false dec1) L .v1 _ _ (bytes2.take 100) (bytes1.take 10)
    [bytes1.drop 10 ++ bytes2, bytes2.take 100] _ 5 r0 hs (by intro a ha; simp at ha; rcases ha with rfl | rfl <;> decide)
    (.part h2 (Or.inl rfl) (by decide) (List.take_prefix _ _) (by decide +kernel)) (by simp [← List.append_assoc]) (by decide)
  exact ⟨e1, e2, this.1, c147_contents L args1 bytes1 e1 h1 .sigers⟩

/-- The inception read from the bytes of a whole stream is in the log. -/
example : (feed (base1.onKevery Verif.Kel.Demo.env false false dec1) r0 ((parsator L false 3 ⟨bytes1, [], .v1⟩).map asdict)).node.db.fels 1 = [10] := by
  decide +kernel

end Verif.Hand.Demo
