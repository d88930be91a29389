import Verif.Sub.Model

/-! # Vocabulary of the statements about typed sub-databases -/

namespace Verif.Sub

open Verif.Db

/-- Parts of a key that can be told apart again: there are some, none contains the separator, and the joined key is not empty. -/
def KeyOk (sep : Nat) (ks : List Bytes) : Prop := ks ≠ [] ∧ (∀ p, p ∈ ks → sep ∉ p) ∧ ks ≠ [[]]

/-- The codec writes the value and reads it back. -/
def Good {V : Type} (c : Codec V) (v : V) : Prop := ∃ b, c.ser v = .ok b ∧ c.des b = .ok v

/-! ## Maps from key tuples to values -/

inductive Op (V : Type) where
  | put (ks : List Bytes) (v : V)
  | pin (ks : List Bytes) (v : V)
  | get (ks : List Bytes)
  | rem (ks : List Bytes)

inductive Out (V : Type) where
  | bool (b : Bool)
  | val (o : Option V)
  deriving DecidableEq

def Op.keys {V : Type} : Op V → List Bytes
  | .put ks _ | .pin ks _ | .get ks | .rem ks => ks

/-- The value an operation writes. -/
def Op.value {V : Type} : Op V → Option V
  | .put _ v | .pin _ v => some v
  | _ => none

/-- The specification: a partial map. -/
def Op.spec {V : Type} (m : List Bytes → Option V) : Op V → (List Bytes → Option V) × Out V
  | .put ks v => match m ks with
    | some _ => (m, .bool false)
    | none => (fun x => if x = ks then some v else m x, .bool true)
  | .pin ks v => (fun x => if x = ks then some v else m x, .bool true)
  | .get ks => (m, .val (m ks))
  | .rem ks => (fun x => if x = ks then none else m x, .bool (m ks).isSome)

def spec {V : Type} (m : List Bytes → Option V) : List (Op V) → List (Out V)
  | [] => []
  | o :: os => (o.spec m).2 :: spec (o.spec m).1 os

/-- The calls. -/
def Op.impl {V : Type} (sep : Nat) (c : Codec V) (t : Tbl) : Op V → Tbl × Except Err (Out V)
  | .put ks v => let (t', r) := sPut sep c t (.parts ks) v; (t', r.map .bool)
  | .pin ks v => let (t', r) := sPin sep c t (.parts ks) v; (t', r.map .bool)
  | .get ks => (t, (sGet sep c t (.parts ks)).map .val)
  | .rem ks => let (t', r) := sRem sep t (.parts ks); (t', r.map .bool)

def impl {V : Type} (sep : Nat) (c : Codec V) (t : Tbl) : List (Op V) → List (Except Err (Out V))
  | [] => []
  | o :: os => (o.impl sep c t).2 :: impl sep c (o.impl sep c t).1 os

/-- The table after the calls. -/
def after {V : Type} (sep : Nat) (c : Codec V) (t : Tbl) : List (Op V) → Tbl
  | [] => t
  | o :: os => after sep c (o.impl sep c t).1 os

/-- The map after the operations. -/
def final {V : Type} (m : List Bytes → Option V) : List (Op V) → List Bytes → Option V
  | [] => m
  | o :: os => final (o.spec m).1 os

/-! ## Ordered sets at key tuples -/

inductive IoOp (V : Type) where
  | put (ks : List Bytes) (vs : List V)
  | add (ks : List Bytes) (v : V)
  | pin (ks : List Bytes) (vs : List V)
  | rem (ks : List Bytes)
  | remVal (ks : List Bytes) (v : V)
  | get (ks : List Bytes)
  | last (ks : List Bytes)
  | cnt (ks : List Bytes)

inductive IoOut (V : Type) where
  | bool (b : Bool)
  | vals (l : List V)
  | val (o : Option V)
  | num (n : Nat)
  deriving DecidableEq

def IoOp.keys {V : Type} : IoOp V → List Bytes
  | .put ks _ | .add ks _ | .pin ks _ | .rem ks | .remVal ks _ | .get ks | .last ks | .cnt ks => ks

/-- The values an operation names. -/
def IoOp.values {V : Type} : IoOp V → List V
  | .put _ vs | .pin _ vs => vs
  | .add _ v | .remVal _ v => [v]
  | _ => []

/-- Number of values written. -/
def IoOp.size {V : Type} : IoOp V → Nat
  | .put _ vs | .pin _ vs => vs.length
  | .add _ _ => 1
  | _ => 0

/-- `getLast` looks with the separator `.` whatever the one of the sub-database is. -/
def IoOp.sepOk {V : Type} (sep : Nat) : IoOp V → Prop
  | .last _ => sep = 46
  | _ => True

/-- Add at the end unless present. -/
def addTo {V : Type} [DecidableEq V] (l : List V) (v : V) : List V := if v ∈ l then l else l ++ [v]

def upd {V : Type} (T : List Bytes → List V) (ks : List Bytes) (l : List V) : List Bytes → List V := fun x => if x = ks then l else T x

/-- The specification: a list of values without repetitions at every key tuple. -/
def IoOp.spec {V : Type} [DecidableEq V] (T : List Bytes → List V) : IoOp V → (List Bytes → List V) × IoOut V
  | .put ks vs => (upd T ks (vs.foldl addTo (T ks)), .bool (vs.any fun v => decide (v ∉ T ks)))
  | .add ks v => (upd T ks (addTo (T ks) v), .bool (decide (v ∉ T ks)))
  | .pin ks vs => if vs.isEmpty then (T, .bool false) else (upd T ks (vs.foldl addTo []), .bool true)
  | .rem ks => (upd T ks [], .bool (!(T ks).isEmpty))
  | .remVal ks v => (upd T ks ((T ks).filter fun w => decide (w ≠ v)), .bool (decide (v ∈ T ks)))
  | .get ks => (T, .vals (T ks))
  | .last ks => (T, .val (T ks).getLast?)
  | .cnt ks => (T, .num (T ks).length)

def ioSpec {V : Type} [DecidableEq V] (T : List Bytes → List V) : List (IoOp V) → List (IoOut V)
  | [] => []
  | o :: os => (o.spec T).2 :: ioSpec (o.spec T).1 os

/-- The calls. -/
def IoOp.impl {V : Type} (sep : Nat) (c : Codec V) (t : Tbl) : IoOp V → Tbl × Except Err (IoOut V)
  | .put ks vs => let (t', r) := ioPut sep c t (.parts ks) vs; (t', r.map .bool)
  | .add ks v => let (t', r) := ioAdd sep c t (.parts ks) v; (t', r.map .bool)
  | .pin ks vs => let (t', r) := ioPin sep c t (.parts ks) vs; (t', r.map .bool)
  | .rem ks => let (t', r) := ioRem sep c t (.parts ks) none; (t', r.map .bool)
  | .remVal ks v => let (t', r) := ioRem sep c t (.parts ks) (some v); (t', r.map .bool)
  | .get ks => (t, (ioGet sep c t (.parts ks)).map .vals)
  | .last ks => (t, (ioLast sep c t (.parts ks)).map .val)
  | .cnt ks => (t, (ioCnt sep t (.parts ks)).map .num)

def ioImpl {V : Type} (sep : Nat) (c : Codec V) (t : Tbl) : List (IoOp V) → List (Except Err (IoOut V))
  | [] => []
  | o :: os => (o.impl sep c t).2 :: ioImpl sep c (o.impl sep c t).1 os

end Verif.Sub
