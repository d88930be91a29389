import Verif.Base.Err
import Verif.Krm.Tab

/-!
# Adjudication of what watchers say (src/keri/app/watching.py)

Identifiers and digests are numbers. What is not modelled: who signed the key state notices (they are accepted elsewhere), logging, and that
`getTopItemIter` with the identifier of the habitat also gives observations of identifiers that continue it.
-/

namespace Verif.Watch

open Verif.Krm

abbrev Id := Nat
abbrev Dig := Nat

/-- `KeyStateRecord`: `i`, `s`, `d`. -/
structure Ksr where
  i : Id
  s : Nat
  d : Dig
  deriving DecidableEq

inductive State where
  | even | ahead | behind | duplicitous
  deriving DecidableEq

/-- watching.py:21-32 `DiffState`. -/
structure Diff where
  pre : Id
  wit : Id
  state : State
  sn : Nat
  dig : Dig
  deriving DecidableEq

/-- watching.py:180-218 `diffState`. -/
def diffState (wit : Id) (my ksn : Ksr) : Except Err Diff :=
  if ksn.i ≠ my.i then .error .valueError
  else
    let state := if my.s = ksn.s then (if my.d = ksn.d then .even else .duplicitous) else if my.s > ksn.s then .behind else .ahead
    .ok ⟨ksn.i, wit, state, ksn.s, ksn.d⟩

/-- `msg["toad"]`: absent or None, a number, or text, that may not be one. -/
inductive Toad where
  | absent
  | num (i : Int)
  | text (i : Option Int)
  deriving DecidableEq

/-- The habitat: its identifier, `obvs` by `(cid, aid, oid)` with `enabled`, `knas` by `(oid, aid)`, `ksns`, `kevers`. -/
structure World where
  pre : Id
  obvs : List ((Id × Id × Id) × Bool)
  knas : Tab (Id × Id) Dig
  ksns : Tab Dig Ksr
  kevers : Tab Id Ksr

/-- watching.py:116-158, the cues. -/
inductive Cue where
  | duplicitous (oid : Id) (wids : List Id) (dups : List Diff)
  | update (oid : Id) (wids : List Id) (sn : Nat) (aheads : List Diff)
  | lagging (oid : Id) (wids : List Id) (behind : List Diff)
  | consistent (oid : Id) (wids : List Id) (states : List Diff)
  deriving DecidableEq

/-- watching.py:92-95. -/
def isWatcher (w : World) (oid aid : Id) : Bool := w.obvs.any fun o => decide (o.1 = (w.pre, aid, oid)) && o.2

/-- watching.py:97, `int(toad) if toad else len(watchers)`. -/
def toadOf (t : Toad) (n : Nat) : Except Err Int := match t with
  | .absent => .ok n
  | .num i => if i = 0 then .ok n else .ok i
  | .text none => .error .valueError
  | .text (some i) => .ok i

/-- watching.py:101-110: those that have not answered are passed over. A notice that is not found is None, which has no `i`. -/
def statesOf (w : World) (oid : Id) (my : Ksr) : List Id → Except Err (List Diff)
  | [] => .ok []
  | a :: r => match Tab.get w.knas (oid, a) with
    | none => statesOf w oid my r
    | some said => match Tab.get w.ksns said with
      | none => .error .attributeError
      | some k => match diffState a my k with
        | .error e => .error e
        | .ok d => match statesOf w oid my r with
          | .error e => .error e
          | .ok l => .ok (d :: l)

def inState (s : State) (l : List Diff) : List Diff := l.filter fun x => decide (x.state = s)

/-- watching.py:112-160. `pick`: `random.choice`. -/
def judge (oid : Id) (watchers : List Id) (toad : Int) (pick : Nat) (states : List Diff) : List Cue :=
  let dups := inState .duplicitous states
  let ahds := inState .ahead states
  let bhds := inState .behind states
  if dups.length > 0 then [.duplicitous oid watchers dups]
  else match ahds with
    | a :: r =>
      if r.any fun x => decide (x.dig ≠ a.dig) then [.duplicitous oid watchers ahds]
      else if (ahds.length : Int) ≥ toad then [.update oid watchers ((ahds[pick % ahds.length]?).getD a).sn ahds]
      else []
    | [] => if bhds.length > 0 then [.lagging oid watchers bhds] else [.consistent oid watchers states]

/-- watching.py:80-160 `adjudicate`. `watchers`: the set of watchers, in the order in which Python has it. -/
def adjudicate (w : World) (oid : Id) (toad : Toad) (watchers : List Id) (pick : Nat) : Except Err (List Cue) := match toadOf toad watchers.length with
  | .error e => .error e
  | .ok t =>
    if t > (watchers.length : Int) then .error .valueError
    else match Tab.get w.kevers oid with
      | none => .error .keyError
      | some my => match statesOf w oid my watchers with
        | .error e => .error e
        | .ok l => .ok (judge oid watchers t pick l)

/-- watching.py:70-78 `performAdjudications`: a message that raises is gone, those after it stay. `order`, `pick`: for each message. -/
def perform (w : World) (order : Id → List Id) (pick : Nat) : List (Id × Toad) → List Cue × List (Id × Toad) × Option Err
  | [] => ([], [], none)
  | (oid, t) :: r => match adjudicate w oid t (order oid) pick with
    | .error e => ([], r, some e)
    | .ok c => let (cs, q, e) := perform w order pick r; (c ++ cs, q, e)

end Verif.Watch
