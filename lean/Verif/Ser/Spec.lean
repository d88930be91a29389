import Verif.Ser.Model
import Verif.Ser.JsonLemmas
import Verif.Mad.SaidSpec
import Verif.Prs.PropsVersion

/-! # What the theorems about messages say -/

namespace Verif.Ser

open Verif.B64 Verif.Matter
open Verif.Mad hiding Kind verify makify Digested Collision
open Verif.Prs (Proto Kind Smellage asc chars versify deversify smell sniff)

/-- The fields of a message type, by the table of the code. -/
def domain (proto : Proto) (pvrsn : Nat × Nat) (ilk : Option (List Char)) : Option FieldDom := (domains proto pvrsn).bind fun doms => domOf doms ilk

/-- The labels of a message type in order. -/
def FieldDom.labels (fd : FieldDom) : List (List Char) := fd.alls.map (·.1)

/-- The labels of a message have the form of its type: first those of the type, in its order, none of the required ones missing, and no two alternates;
then others, if the type allows any. -/
def Shape (fd : FieldDom) (keys : List (List Char)) : Prop :=
  ∃ own ext, keys = own ++ ext ∧ own.Sublist fd.labels ∧ (∀ l ∈ fd.labels, l ∉ fd.opts → l ∈ own) ∧ (∀ l ∈ ext, l ∉ fd.labels) ∧
    (fd.strict = true → ext = []) ∧ (∀ p ∈ fd.alts, ¬ (p.1 ∈ own ∧ p.2 ∈ own))

/-- The digest functions give bytes, 32 of them for the codes of one character and 64 for the others. -/
def DigestsOk (lib : Lib) : Prop := HashOk lib.world

/-- A text that JSON shows as it is. -/
def Bare (t : List Char) : Prop := ∀ c ∈ t, esc c = [c]

/-- The values are the same, or texts of the same length. -/
def SameLen (v w : Val) : Prop := v = w ∨ ∃ t u, v = .text t ∧ w = .text u ∧ t.length = u.length ∧ Bare t ∧ Bare u

/-- The maps have the same labels, and values that are the same or texts of the same length. -/
inductive Similar : Flds → Flds → Prop
  | nil : Similar [] []
  | cons {v w : Val} {a b : Flds} (l : List Char) : SameLen v w → Similar a b → Similar ((l, v) :: a) ((l, w) :: b)

/-- The length of a serialization does not depend on which texts of a given length are in it.  This is so of JSON (`json_steady`), and of MessagePack and
CBOR. -/
def Steady (D : Flds → Except Err (List Char)) : Prop :=
  ∀ a b x y, Similar a b → D a = .ok x → D b = .ok y → x.length = y.length

/-- Native serialization shows the version by the attributes of the message, not by the field `v`. -/
def Unversioned (D : Flds → Except Err (List Char)) : Prop := ∀ sad v w, D (setField sad ['v'] v) = D (setField sad ['v'] w)

/-- The serialization of a kind, with what is asked of the libraries. -/
def KindOk (lib : Lib) (a : Attrs) : Prop := if a.kind = .cesr then Unversioned (dumps lib a) else Steady (dumps lib a)

/-- The labels of the said fields of a message, by its type. -/
def saidLabels (s : Serder) : List (List Char) :=
  match ilkOf s.sad with
  | .error _ => []
  | .ok ilk => match domain s.attrs.proto s.attrs.pvrsn ilk with
    | none => []
    | some fd => fd.saids.map (·.1)

/-- A digest as dummy of its length, another value as it is. -/
def dummyVal (v : Val) : Val :=
  match codeAt (some v) with
  | some (c, t) => if c ∈ digDex then .text (List.replicate t.length '#') else v
  | none => v

/-- The fields with dummies in place of the digests in the fields with the given labels. -/
def dummied (ls : List (List Char)) (sad : Flds) : Flds := sad.map fun (p : List Char × Val) => (p.1, if p.1 ∈ ls then dummyVal p.2 else p.2)

/-- What the SAIDs of a message are digests of. -/
def Digested (lib : Lib) (s : Serder) (ser : List Char) : Prop := dumps lib s.attrs (dummied (saidLabels s) s.sad) = .ok ser

/-- The two messages are a collision of a digest function: what is digested of the one differs from what is digested of the other, and the digest is the
same. -/
def Collision (lib : Lib) (s1 s2 : Serder) : Prop :=
  ∃ code x1 x2, Digested lib s1 x1 ∧ Digested lib s2 x2 ∧ x1 ≠ x2 ∧ lib.hash code x1 = lib.hash code x2

/-- A message as it should be: its fields are those of its type, its bytes are the serialization of its fields, its size is their number, its version string
says so, and its SAIDs are digests of its serialization with dummies in their place. -/
structure Right (lib : Lib) (s : Serder) : Prop where
  dict : Dict s.sad
  shape : ∃ ilk fd, ilkOf s.sad = .ok ilk ∧ domain s.attrs.proto s.attrs.pvrsn ilk = some fd ∧ Shape fd (s.sad.map (·.1))
  dumped : dumps lib s.attrs s.sad = .ok s.raw
  sized : s.size = s.raw.length
  version : ∃ v, getKey s.sad ['v'] = some v ∧ deversifyVal v = .ok ⟨s.attrs.proto, s.attrs.pvrsn, s.attrs.kind, s.size, s.attrs.gvrsn⟩
  digests : ∀ l ∈ saidLabels s, ∃ c t, codeAt (getKey s.sad l) = some (c, t) ∧
    (c ∈ digDex → ∃ ser, Digested lib s ser ∧ digestOf lib.world c ser = .ok t)

/-- Printable ASCII. -/
def Plain (t : List Char) : Prop := ∀ c ∈ t, 33 ≤ c.toNat ∧ c.toNat < 127

/-- What is asked of a reader of the serialization of some attributes: of some class of dicts, closed under setting fields to plain texts, it reads what is
written (in native CESR the version string, which is not written, is made up from the size), and it gives nothing else.  -/
structure Reader (lib : Lib) (a : Attrs) (Held : Flds → Prop) : Prop where
  dict : ∀ m, Held m → Dict m
  set : ∀ m l t, Held m → l ∈ m.map (·.1) → Plain t → Held (setField m l (.text t))
  back : ∀ m x n, Held m → dumps lib a m = .ok x → (a.kind = .cesr → ∃ v, versifyText a n = .ok v ∧ getKey m ['v'] = some v) →
    lib.loads ⟨a.proto, a.pvrsn, a.kind, n, a.gvrsn⟩ x = .ok m
  held : ∀ x m n, lib.loads ⟨a.proto, a.pvrsn, a.kind, n, a.gvrsn⟩ x = .ok m → Held m

end Verif.Ser
