import Verif.Mad.Said
import Verif.Mad.Spec

/-! # What the theorems about SAIDs of field maps say -/

namespace Verif.Mad

/-- The digest functions give bytes, 32 of them for the codes of one character and 64 for the others. -/
def HashOk (w : World) : Prop :=
  ∀ code ser, (∀ b ∈ w.hash code ser, b < 256) ∧ (w.hash code ser).length = if code.length = 1 then 32 else 64

/-- What the SAIDs of a map are digests of: its serialization with the said fields filled with `#`. -/
def Digested (w : World) (kind : Kind) (strict : Bool) (saids : Saids) (mad : Flds) (ser : List Char) : Prop :=
  ∃ m s, exhaleDummy w kind strict saids mad = .ok (ser, m, s)

/-- The two maps are a collision of a digest function: what is digested of the one differs from what is digested of the other, and the digest is the same. -/
def Collision (w : World) (kind : Kind) (strict : Bool) (saids : Saids) (mad1 mad2 : Flds) : Prop :=
  ∃ code s1 s2, Digested w kind strict saids mad1 s1 ∧ Digested w kind strict saids mad2 s2 ∧ s1 ≠ s2 ∧ w.hash code s1 = w.hash code s2

/-- The labels of a dict are distinct. -/
def Dict {α : Type} (d : List (List Char × α)) : Prop := (d.map (·.1)).Nodup

/-- The map without the values of the fields with the given labels. -/
def masked (ls : List (List Char)) (mad : Flds) : List (List Char × Option Val) :=
  mad.map fun (p : List Char × Val) => (p.1, if p.1 ∈ ls then none else some p.2)

end Verif.Mad
