import Verif.Mad.Compact
import Verif.Mad.SaidSpec

/-! # What the theorems about compaction say -/

namespace Verif.Mad

mutual
/-- The most compact form of a value: every map with a said field is replaced by its said, computed when the maps in it have been. -/
def rolledV (w : World) (kind : Kind) (saids : Saids) : Val → Except Err Val
  | .map fs => match rolledF w kind saids fs with
    | .error e => .error e
    | .ok fs1 =>
      if anySaid saids fs then match makify w kind true saids fs1 with
        | .error e => .error e
        | .ok (_, fs2, _) => .ok (saidVal saids fs2)
      else .ok (.map fs1)
  | v => .ok v

/-- The most compact form of each field; the said field itself is not a map. -/
def rolledF (w : World) (kind : Kind) (saids : Saids) : List (List Char × Val) → Except Err Flds
  | [] => .ok []
  | (l, v) :: r =>
    if isMap v && saidLabel saids l then .error .invalidValue
    else match rolledV w kind saids v with
      | .error e => .error e
      | .ok v1 => match rolledF w kind saids r with
        | .error e => .error e
        | .ok r1 => .ok ((l, v1) :: r1)
end

/-- The most compact form of a map: that of each field, and its own said computed from it. -/
def rolledTop (w : World) (kind : Kind) (saids : Saids) (mad : Flds) : Except Err Flds :=
  match rolledF w kind saids mad with
  | .error e => .error e
  | .ok fs1 =>
    if anySaid saids mad then match makify w kind true saids fs1 with
      | .error e => .error e
      | .ok (_, fs2, _) => .ok fs2
    else .ok fs1

mutual
/-- In every map within, through maps, the labels are distinct and have no dot. -/
def Tidy : Val → Prop
  | .map fs => (fs.map (·.1)).Nodup ∧ TidyF fs
  | _ => True

def TidyF : List (List Char × Val) → Prop
  | [] => True
  | (l, v) :: r => '.' ∉ l ∧ Tidy v ∧ TidyF r
end

mutual
/-- The number of maps within, through maps. -/
def mapsV : Val → Nat
  | .map fs => 1 + mapsF fs
  | _ => 0

def mapsF : List (List Char × Val) → Nat
  | [] => 0
  | (_, v) :: r => mapsV v + mapsF r
end

/-- If the map has any said field it has the first one. -/
def Primary (saids : Saids) (mad : Flds) : Prop := anySaid saids mad = true → ∃ p s v, saids = p :: s ∧ getKey mad p.1 = some v

/-- What `compact` leaves, the number of times around the loop bounded by the number of maps. -/
def compacted (w : World) (kind : Kind) (saids : Saids) (mad : Flds) : Except Err Flds :=
  match compactLoop w kind saids (mapsF mad + 1) mad [] with
  | .error e => .error e
  | .ok (r, _) => .ok r

/-- A map within a value, through maps, or the value itself. -/
inductive Block : Val → Flds → Prop
  | self (fs : Flds) : Block (.map fs) fs
  | inner {l : List Char} {v : Val} {fs b : Flds} : (l, v) ∈ fs → Block v b → Block (.map fs) b

section
variable (w : World) (kind : Kind) (saids : Saids)

mutual
/-- The second is a variant of the first: some maps with SAIDs are hidden behind their SAID, and the values of said fields differ while their codes do not. -/
inductive Variant : Val → Val → Prop
  | same (v : Val) : Variant v v
  | hidden (fs : Flds) (x : Val) : anySaid saids fs = true → rolledV w kind saids (.map fs) = .ok x → Variant (.map fs) x
  | map {fs gs : Flds} : VariantF fs gs → Variant (.map fs) (.map gs)

inductive VariantF : Flds → Flds → Prop
  | nil : VariantF [] []
  | field {l : List Char} {v u : Val} {r s : Flds} : saidLabel saids l = false → Variant v u → VariantF r s → VariantF ((l, v) :: r) ((l, u) :: s)
  | said {l : List Char} {v u : Val} {r s : Flds} : saidLabel saids l = true → isMap v = false → isMap u = false →
      (∀ d, getKey saids l = some d → codeOf d u = codeOf d v) → VariantF r s → VariantF ((l, v) :: r) ((l, u) :: s)
end

mutual
/-- The two agree in all that both show: where one has a map with SAIDs the other may have its SAID instead.  Said fields are not compared. -/
inductive Agree : Val → Val → Prop
  | same (v : Val) : Agree v v
  | left (fs : Flds) (x : Val) : anySaid saids fs = true → rolledV w kind saids (.map fs) = .ok x → Agree (.map fs) x
  | right (fs : Flds) (x : Val) : anySaid saids fs = true → rolledV w kind saids (.map fs) = .ok x → Agree x (.map fs)
  | maps {fs gs : Flds} : AgreeF fs gs → Agree (.map fs) (.map gs)

inductive AgreeF : Flds → Flds → Prop
  | nil : AgreeF [] []
  | said {l : List Char} {v u : Val} {r s : Flds} : saidLabel saids l = true → AgreeF r s → AgreeF ((l, v) :: r) ((l, u) :: s)
  | field {l : List Char} {v u : Val} {r s : Flds} : Agree v u → AgreeF r s → AgreeF ((l, v) :: r) ((l, u) :: s)
end

/-- A map in the one and a map in the other are a collision of a digest function in their most compact forms. -/
def CollisionIn (v u : Val) : Prop :=
  ∃ b1 b2 r1 r2, Block v b1 ∧ Block u b2 ∧ rolledTop w kind saids b1 = .ok r1 ∧ rolledTop w kind saids b2 = .ok r2 ∧ Collision w kind true saids r1 r2
end

end Verif.Mad
