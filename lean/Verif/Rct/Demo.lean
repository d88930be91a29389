import Verif.Rct.PropsStored
import Verif.Kel.Demo

/-! # Concrete receipts: hypotheses met, and what the code lets through (C34, C53, C54) -/

namespace Verif.Rct.DemoRct

open Verif.Kel Verif.Rct

/-- Inception of identifier 1 with witnesses 901 and 902, one receipt needed. -/
def wicp : Event := { Demo.icp with wits := [901, 902], toad := 1 }
/-- Rotation that drops witness 901. -/
def wrot : Event := { Demo.rot1 with cuts := [901], toad := 1 }
/-- Inception of the receiptor 2 with key 201. -/
def icp2 : Event := { Demo.icp with pre := 2, said := 50, keys := [201], ndigs := [702] }

/-- A receipt couple by `k`. -/
def couple (e : Event) (k : Nat) : Cigar := ⟨k, k * 1000 + e.said⟩

/-- A node without own identifiers. -/
def r0 : RNode := RNode.start [] [] (fun _ => none)

/-- Delivery of an event with one witness signature. -/
def recvW (e : Event) (k w i : Nat) : RInp := .kel (.event e [Demo.sig e k 0] [Demo.sig e w i] none false false)

/-- A log with a recovery, the receiptor's inception, then a receipt of the recovered-from interaction. -/
def misfile : List RInp :=
  [.kel (Demo.recv Demo.icp 101), .kel (Demo.recv Demo.ixn1 101), .kel (Demo.recv Demo.rot1 102), .kel (Demo.recv icp2 201),
   .receipt false false ⟨1, 1, 11⟩ [couple Demo.ixn1 905] [] [⟨2, 0, 50, [Demo.sig Demo.ixn1 201 0]⟩] []]

/-- **C34 fails for groups of receipt messages.** A receipt that names a superseded event is filed under the event that took its place,
over which its signature does not verify. -/
theorem c34_misfiled :
    Demo.sig Demo.ixn1 201 0 ∈ (r0.run Demo.env misfile).store.vrcs ⟨1, 21, 2, 0, 50⟩ ∧
    (r0.run Demo.env misfile).node.db.evts 1 21 = some Demo.rot1 ∧
    Demo.env.verify 201 (Demo.sig Demo.ixn1 201 0).raw Demo.rot1 = false := by decide +kernel

/-- **C34, superseded events.** The couple of the same receipt is stored for the superseded event, although it is no longer the last one
at its number. -/
theorem c34_superseded :
    couple Demo.ixn1 905 ∈ (r0.run Demo.env misfile).store.rcts 1 11 ∧
    ((r0.run Demo.env misfile).node.db.kels 1 1).getLast? = some 21 := by decide +kernel

/-- A different interaction at an occupied number. -/
def dup1 : Event := { Demo.ixn1 with said := 31 }

/-- **C34, events never accepted.** A receipt of a duplicitous event is stored, although the event is in no log. -/
theorem c34_duplicitous :
    couple dup1 905 ∈ (r0.run Demo.env [.kel (Demo.recv Demo.icp 101), .kel (Demo.recv Demo.ixn1 101), .kel (Demo.recv dup1 101),
      .receipt false false ⟨1, 1, 31⟩ [couple dup1 905] [] [] []]).store.rcts 1 31 ∧
    (r0.run Demo.env [.kel (Demo.recv Demo.icp 101), .kel (Demo.recv Demo.ixn1 101), .kel (Demo.recv dup1 101),
      .receipt false false ⟨1, 1, 31⟩ [couple dup1 905] [] [] []]).node.db.fels 1 = [10, 11] := by decide +kernel

/-- **C34, unknown digests.** A receipt naming a digest nobody has seen, at an occupied number, ends in AttributeError. -/
theorem c34_unknown_raises :
    ((r0.run Demo.env [.kel (Demo.recv Demo.icp 101)]).receipt Demo.env false false ⟨1, 0, 99⟩ [couple Demo.icp 905] [] [] []).2 =
      .error .attribute := by decide +kernel

/-- **C34, indices of the wrong list.** A receipt of witness 902 for the inception, taken out of escrow after a rotation has dropped
witness 901, is stored with index 0 for the inception, whose witness list has 901 there. -/
theorem c34_index_shifted :
    let h : List RInp := [.receipt false false ⟨1, 0, 10⟩ [couple wicp 902] [] [] [], recvW wicp 101 901 0, recvW wrot 102 902 0,
      .stepU false ⟨1, 0, 10, couple wicp 902⟩]
    Demo.sig wicp 902 0 ∈ (r0.run Demo.env h).node.db.wigs 1 10 ∧ (r0.run Demo.env h).node.db.wits 1 10 = [901, 902] ∧
    (r0.run Demo.env h).node.db.evts 1 10 = some wicp ∧ Demo.env.verify 901 (Demo.sig wicp 902 0).raw wicp = false := by decide +kernel

/-- **C34, attached witness couples.** A couple of a witness attached to an event is stored as an ordinary receipt and not as a witness
signature. -/
theorem c34_attached_witness :
    let h : List RInp := [recvW wicp 101 901 0, .couples false false wicp none [couple wicp 902]]
    couple wicp 902 ∈ (r0.run Demo.env h).store.rcts 1 10 ∧ (r0.run Demo.env h).node.db.wigs 1 10 = [Demo.sig wicp 901 0] := by
  decide +kernel

/-- The same couple in a receipt message is stored as a witness signature. -/
example :
    let h : List RInp := [recvW wicp 101 901 0, .receipt false false ⟨1, 0, 10⟩ [couple wicp 902] [] [] []]
    (r0.run Demo.env h).store.rcts 1 10 = [] ∧
    (r0.run Demo.env h).node.db.wigs 1 10 = [Demo.sig wicp 901 0, Demo.sig wicp 902 1] := by decide +kernel

/-- The witness list of `c34_good_stored` and `c34_good_attached_stored` in that case. -/
example : (r0.run Demo.env [recvW wicp 101 901 0]).wits 1 0 = .ok [901, 902] ∧
    ldigOf (r0.run Demo.env [recvW wicp 101 901 0]) wicp none = some 10 := ⟨rfl, by decide +kernel⟩

/-- **C53 fails through escrow.** A receipt in the name of the own identifier 905, from a remote source, refused when the event is there, is
stored when it arrives before the event. -/
theorem c53_through_escrow :
    let own := RNode.start [905] [] (fun _ => none)
    let rct : RInp := .receipt false false ⟨1, 0, 10⟩ [couple Demo.icp 905] [] [] []
    (own.run Demo.env [.kel (Demo.recv Demo.icp 101), rct]).store.rcts 1 10 = [] ∧
    (own.run Demo.env [rct, .kel (Demo.recv Demo.icp 101), .stepU false ⟨1, 0, 10, couple Demo.icp 905⟩]).store.rcts 1 10 =
      [couple Demo.icp 905] := by decide +kernel

/-- **C54, a witness receipt lost.** The indexed receipt of witness 902 arrives before the inception, which is then accepted at once; the
receipt stays in escrow and is never counted. -/
theorem c54_witness_receipt_lost :
    let h : List RInp := [.receipt false false ⟨1, 0, 10⟩ [] [Demo.sig wicp 902 1] [] [], recvW wicp 101 901 0,
      .stepW false ⟨1, 0, 10, Demo.sig wicp 902 1⟩]
    (r0.run Demo.env h).node.db.wigs 1 10 = [Demo.sig wicp 901 0] ∧ (r0.run Demo.env h).node.db.fels 1 = [10] ∧
    (r0.run Demo.env h).store.uwes = [⟨1, 0, 10, Demo.sig wicp 902 1⟩] := by decide +kernel

/-- Events of the histories below. -/
def U : Event → Prop := fun e => e ∈ [Demo.icp, Demo.ixn1, Demo.rot1, icp2]

theorem noColl : NoColl U := by
  have h : ∀ x ∈ [Demo.icp, Demo.ixn1, Demo.rot1, icp2], ∀ y ∈ [Demo.icp, Demo.ixn1, Demo.rot1, icp2], x.said = y.said → x = y := by
    decide +kernel
  exact fun x y hx hy => h x hx y hy

/-- Receipts in the three forms: two wait for their event, the others arrive after it. -/
def good : List RInp :=
  [.receipt false false ⟨1, 0, 10⟩ [couple Demo.icp 905] [] [⟨2, 0, 50, [Demo.sig Demo.icp 201 0]⟩] [],
   .kel (Demo.recv Demo.icp 101), .kel (Demo.recv icp2 201), .stepU false ⟨1, 0, 10, couple Demo.icp 905⟩,
   .stepV false ⟨1, 0, 10, ⟨2, 0, 50, Demo.sig Demo.icp 201 0⟩⟩, .kel (Demo.recv Demo.ixn1 101),
   .receipt false false ⟨1, 1, 11⟩ [couple Demo.ixn1 906] [] [] [⟨2, 0, 50, [Demo.sig Demo.ixn1 201 0]⟩],
   .couples false false Demo.icp none [couple Demo.icp 907], .groups false false Demo.ixn1 none [⟨2, 0, 50, [Demo.sig Demo.ixn1 201 0]⟩]]

theorem good_delivers : RDelivers U good := by
  intro i hi e he
  simp only [good, Demo.recv, List.mem_cons, List.not_mem_nil, or_false] at hi
  rcases hi with rfl | rfl | rfl | rfl | rfl | rfl | rfl | rfl | rfl <;> simp [RInp.delivers, Inp.delivers] at he <;> subst he <;> simp [U]

/-- What that history stores. -/
example : (r0.run Demo.env good).store.rcts 1 10 = [couple Demo.icp 905, couple Demo.icp 907] ∧
    (r0.run Demo.env good).store.rcts 1 11 = [couple Demo.ixn1 906] ∧
    (r0.run Demo.env good).store.vrcs ⟨1, 10, 2, 0, 50⟩ = [Demo.sig Demo.icp 201 0] ∧
    (r0.run Demo.env good).store.vrcs ⟨1, 11, 2, 0, 50⟩ = [Demo.sig Demo.ixn1 201 0] ∧
    (r0.run Demo.env good).store.ures = [] ∧ (r0.run Demo.env good).store.vres = [] := by decide +kernel

/-- Its state is a reached one, so `c34_couples`, `c34_groups_some`, `c34_witness_signatures` and `c34_kept` apply. -/
example : RReached Demo.env U (r0.run Demo.env good) := ⟨[], [], fun _ => none, good, good_delivers, rfl⟩

/-- Its receipt messages name last events, so `c34_groups_partial` applies. -/
example : Current Demo.env r0 good := by
  have q : ∀ (r : RNode) (i : RInp) (h : List RInp), (∀ lax l x cs ws ts gs, i ≠ .receipt lax l x cs ws ts gs) →
      Current Demo.env (r.step Demo.env i) h → Current Demo.env r (i :: h) :=
    fun r i h h1 h2 => ⟨fun _ _ _ _ _ _ _ e => absurd e (h1 _ _ _ _ _ _ _), h2⟩
  have q' : ∀ (r : RNode) (lax l : Bool) (x : Rct) (cs : List Cigar) (ws : List Sig) (ts gs : List Group) (h : List RInp),
      (∀ d, (r.node.db.kels x.pre x.sn).getLast? = some d → d = x.said) →
      Current Demo.env (r.step Demo.env (.receipt lax l x cs ws ts gs)) h → Current Demo.env r (.receipt lax l x cs ws ts gs :: h) := by
    intro r lax l x cs ws ts gs h h1 h2
    refine ⟨?_, h2⟩
    intro lax' l' x' cs' ws' ts' gs' e
    injection e with _ _ e; subst e; exact h1
  have f : ∀ {o : Option Dig} {a : Dig}, o = some a → ∀ d, o = some d → d = a := by
    intro o a h d hd; rw [h] at hd; injection hd with hd; exact hd.symm
  refine q' _ _ _ _ _ _ _ _ _ (by decide +kernel) (q _ _ _ (by simp) (q _ _ _ (by simp) (q _ _ _ (by simp) (q _ _ _ (by simp)
    (q _ _ _ (by simp) (q' _ _ _ _ _ _ _ _ _ (f (by decide +kernel)) (q _ _ _ (by simp) (q _ _ _ (by simp) trivial))))))))

/-- Case of `c53_own_receipts_partial`: the own identifier 905 receipts an event of somebody else locally. -/
example : (((RNode.start [905] [] (fun _ => none)).run Demo.env [.kel (Demo.recv Demo.icp 101)]).step Demo.env
    (.receipt false true ⟨1, 0, 10⟩ [couple Demo.icp 905] [] [] [])).store.rcts 1 10 = [couple Demo.icp 905] := by decide +kernel

/-- A state as in `c54_couple_stored` (and `c54_group_stored`): the event is there, the couple waits. -/
example :
    let r := r0.run Demo.env (good.take 3)
    (⟨1, 0, 10, couple Demo.icp 905⟩ : Entry Cigar) ∈ r.store.ures ∧ ((1, 0, 10) : Id × Nat × Dig) ∉ r.node.db.pwes ∧
    (r.node.db.kels 1 0).getLast? = some 10 ∧ r.node.db.evts 1 10 = some Demo.icp ∧ (r.node.kevers 1).isSome ∧
    (⟨1, 0, 10, ⟨2, 0, 50, Demo.sig Demo.icp 201 0⟩⟩ : Entry Chit) ∈ r.store.vres ∧
    (r.node.db.kels 2 0).getLast? = some 50 ∧ r.node.db.evts 2 50 = some icp2 := by decide +kernel

/-- A state as in `c54_waits` and `c54_patient`. -/
example : r0.node.db.kels 1 0 = [] ∧ ((1, 0, 10) : Id × Nat × Dig) ∉ r0.node.db.pwes := by decide +kernel

/-- A state as in `c54_witness_stored_partial`: the inception waits for witness signatures, one arrived before it. -/
example :
    let r := r0.run Demo.env [.receipt false false ⟨1, 0, 10⟩ [] [Demo.sig wicp 902 1] [] [],
      .kel (.event wicp [Demo.sig wicp 101 0] [] none false false)]
    (⟨1, 0, 10, Demo.sig wicp 902 1⟩ : Entry Sig) ∈ r.store.uwes ∧ ((1, 0, 10) : Id × Nat × Dig) ∈ r.node.db.pwes ∧
    r.node.db.evts 1 10 = some wicp ∧ wicp.wits[1]? = some 902 ∧
    (r.step Demo.env (.stepW false ⟨1, 0, 10, Demo.sig wicp 902 1⟩)).node.db.wigs 1 10 = [Demo.sig wicp 902 1] := by decide +kernel

end Verif.Rct.DemoRct
