import Verif.Mad.Said

/-!
# Model of `Compactor` (src/keri/core/mapping.py 711-1108): the most compact form

A path is the text `.a.b` as in the code.  `expand` and `trace` are not modelled.
-/

namespace Verif.Mad

open Verif.B64 Verif.Matter

/-- `l in saids`. -/
def saidLabel (saids : Saids) (l : List Char) : Bool := (getKey saids l).isSome

/-- mapping.py:973-977: the map has a said field. -/
def anySaid (saids : Saids) (fs : Flds) : Bool := saids.any fun (p : List Char × List Char) => (getKey fs p.1).isSome

/-- `isinstance(v, Mapping)`. -/
def isMap : Val → Bool
  | .map _ => true
  | _ => false

mutual
/-- mapping.py:1007-1030 `_hassaid` of a value that is a map. -/
def hasSaidV (saids : Saids) : Val → Bool
  | .map fs => hasSaidF saids fs
  | _ => false

def hasSaidF (saids : Saids) : List (List Char × Val) → Bool
  | [] => false
  | (l, v) :: r => if saidLabel saids l then true else if hasSaidV saids v then true else hasSaidF saids r
end

/-- mapping.py:875-878 and 375-378: the primary said of a map, `None` for none. -/
def saidVal (saids : Saids) (mad : Flds) : Val :=
  match saids with
  | [] => .null
  | (l, _) :: _ => match getKey mad l with
    | some v => v
    | none => .null

mutual
/-- mapping.py:955-1004 `_trace` with `saidify`: the map with the saids of its leaves filled in, and the leaves with their paths.  The `Mapper` made for
a leaf is strict whatever the `Compactor` is, and differs from the leaf in nothing but the said fields, which are copied back. -/
def traceV (w : World) (kind : Kind) (saids : Saids) (path : List Char) : Val → Except Err (Val × List (List Char × Flds))
  | .map fs => match traceF w kind saids path fs with
    | .error e => .error e
    | .ok (fs1, nested, ls) =>
      if anySaid saids fs && !nested then
        match makify w kind true saids fs1 with
        | .error e => .error e
        | .ok (_, fs2, _) => .ok (.map fs2, ls ++ [(path, fs2)])
      else .ok (.map fs1, ls)
  | v => .ok (v, [])

/-- mapping.py:979-987: the fields, whether one of them is traced further, and the leaves. -/
def traceF (w : World) (kind : Kind) (saids : Saids) (path : List Char) : List (List Char × Val) → Except Err (Flds × Bool × List (List Char × Flds))
  | [] => .ok ([], false, [])
  | (l, v) :: r =>
    if isMap v && saidLabel saids l then .error .invalidValue
    else if hasSaidV saids v then
      match traceV w kind saids (path ++ '.' :: l) v with
      | .error e => .error e
      | .ok (v1, ls) => match traceF w kind saids path r with
        | .error e => .error e
        | .ok (r1, _, ls') => .ok ((l, v1) :: r1, true, ls ++ ls')
    else match traceF w kind saids path r with
      | .error e => .error e
      | .ok (r1, n, ls') => .ok ((l, v) :: r1, n, ls')
end

/-- `path.split(".")`. -/
def splitDot : List Char → List (List Char)
  | [] => [[]]
  | c :: r => if c = '.' then [] :: splitDot r
    else match splitDot r with
      | [] => [[c]]
      | p :: ps => (c :: p) :: ps

/-- `q in t` for texts. -/
def substr (q : List Char) : List Char → Bool
  | [] => q.isEmpty
  | c :: r => q.isPrefixOf (c :: r) || substr q r

/-- `q in v` for a value that is not a map: raises TypeError, or is false. -/
def inOther (q : List Char) (v : Val) : Bool :=
  match v with
  | .text t => substr q t
  | .list vs => vs.any fun u => match u with
    | .text t => t = q
    | _ => false
  | _ => true

/-- mapping.py:1055-1086 `getMad` and 1104-1105: assign at the end of the path.  A part of the path that is not there ends the search; a value that is not
a map is asked whether it contains the next part, and if so indexing it raises TypeError. -/
def assign (new : Val) : List (List Char) → Flds → Except Err Flds
  | [], mad => .ok mad
  | [l], mad => .ok (match getKey mad l with | none => mad | some _ => setField mad l new)
  | l :: q :: ps, mad => match getKey mad l with
    | none => .ok mad
    | some (.map g) => match assign new (q :: ps) g with
      | .error e => .error e
      | .ok g' => .ok (setField mad l (.map g'))
    | some v => if inOther q v then .error .typeError else .ok mad

/-- The leaves, a dict by path. -/
abbrev Leaves := List (List Char × Flds)

/-- `self.leaves[path] = leafer`. -/
def setLeaf (ls : Leaves) (path : List Char) (f : Flds) : Leaves :=
  match ls with
  | [] => [(path, f)]
  | (k, g) :: r => if k = path then (k, f) :: r else (k, g) :: setLeaf r path f

/-- mapping.py:1101-1105. -/
def assignAll (saids : Saids) (leaves : Leaves) : List (List Char) → Flds → Except Err Flds
  | [], mad => .ok mad
  | path :: r, mad => match getKey leaves path with
    | none => .error .keyError
    | some f => match assign (saidVal saids f) (splitDot path).tail mad with
      | .error e => .error e
      | .ok mad' => assignAll saids leaves r mad'

/-- Truth of a value.  Numbers do not occur where it is used. -/
def truthy : Val → Bool
  | .null => false
  | .bool b => b
  | .num _ => true
  | .text t => !t.isEmpty
  | .list vs => !vs.isEmpty
  | .map fs => !fs.isEmpty

/-- mapping.py:904-924 `iscompact`, whether it is true. -/
def isCompact (saids : Saids) (leaves : Leaves) (mad : Flds) : Bool := truthy (saidVal saids mad) && (getKey leaves []).isSome

/-- mapping.py:1099-1108, once around the loop: the map, the leaves, and whether to stop. -/
def compactOnce (w : World) (kind : Kind) (saids : Saids) (mad : Flds) (leaves : Leaves) : Except Err (Flds × Leaves × Bool) :=
  match traceV w kind saids [] (.map mad) with
  | .ok (.map mad1, ls) =>
    let leaves1 := ls.foldl (fun acc (p : List Char × Flds) => setLeaf acc p.1 p.2) leaves
    match assignAll saids leaves1 (ls.map (·.1)) mad1 with
    | .error e => .error e
    | .ok mad2 => .ok (mad2, leaves1, ls.isEmpty || isCompact saids leaves1 mad2)
  | .ok _ => .error .typeError
  | .error e => .error e

/-- mapping.py:1089-1108 `compact`, at most the given number of times around the loop; `recursion` stands for not having ended by then. -/
def compactLoop (w : World) (kind : Kind) (saids : Saids) : Nat → Flds → Leaves → Except Err (Flds × Leaves)
  | 0, _, _ => .error .recursion
  | n + 1, mad, leaves => match compactOnce w kind saids mad leaves with
    | .error e => .error e
    | .ok (mad', leaves', stop) => if stop then .ok (mad', leaves') else compactLoop w kind saids n mad' leaves'

end Verif.Mad
