import Verif.Mad.Aggor
import Verif.Mad.SaidSpec

/-! # What the theorems about aggregates say -/

namespace Verif.Mad

/-- Every map among the elements has each label once. -/
def DictElems (vs : List Val) : Prop := ∀ fs, Val.map fs ∈ vs → Dict fs

/-- Every text among the elements is exactly a digest. -/
def WholeElems (vs : List Val) : Prop := ∀ t, Val.text t ∈ vs → digElem t = .ok t

/-- Every map among the elements has the first of the said fields. -/
def HasFirst (saids : Saids) (vs : List Val) : Prop := ∀ fs, Val.map fs ∈ vs → ∃ p s v, saids = p :: s ∧ (p.1, v) ∈ fs

/-- The second list has the elements of the first with the given indices, the texts as they are, and of the other maps the value of the first said field. -/
def Discloses (saids : Saids) (indices : List Int) (a d : List Val) : Prop :=
  d.length = a.length ∧ ∀ k : Nat, ((k : Int) ∈ indices → d[k]? = a[k]?) ∧
    (∀ t, a[k]? = some (.text t) → d[k]? = some (.text t)) ∧
    ((k : Int) ∉ indices → ∀ fs, a[k]? = some (.map fs) → ∃ p s t, saids = p :: s ∧ (p.1, Val.text t) ∈ fs ∧ d[k]? = some (.text t))

/-- What two elements at the same place of lists with the same aggregate have in common: two maps have the same labels in the same order and the same values
but for SAIDs, or are a collision of a digest function; a map and a digest: the digest is the first SAID of the map; two digests are the same. -/
def SameElem (w : AWorld) (kind : Kind) (strict : Bool) (saids : Saids) : Val → Val → Prop
  | .map f, .map g => masked (saids.map (·.1)) f = masked (saids.map (·.1)) g ∨ Collision w.toWorld kind strict saids f g
  | .map f, .text u => ∃ p s q, saids = p :: s ∧ (p.1, Val.text q) ∈ f ∧ digElem u = .ok q
  | .text t, .map g => ∃ p s q, saids = p :: s ∧ (p.1, Val.text q) ∈ g ∧ digElem t = .ok q
  | .text t, .text u => ∃ q, digElem t = .ok q ∧ digElem u = .ok q
  | _, _ => False

/-- The two lists of elements are a collision of the digest function: what is digested of them differs, and the digest is the same. -/
def AggCollision (w : AWorld) (kind : Kind) (strict : Bool) (saids : Saids) (code : List Char) (r1 r2 : List Val) : Prop :=
  ∃ s1 s2, aggSer w kind strict saids code r1 = .ok s1 ∧ aggSer w kind strict saids code r2 = .ok s2 ∧ s1 ≠ s2 ∧ w.hash code s1 = w.hash code s2

end Verif.Mad
