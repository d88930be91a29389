import Verif.Base.Err
import Verif.Krm.Tab

/-!
# Notifications and signals (src/keri/app/notifying.py, src/keri/app/signaling.py)

Identifiers of notices (random salts, coring.py:4792-4802) and date-times (texts of one width, helping.py:210-220) are numbers in the order of their
texts. A notice is stored as its JSON, here as itself; the signature of the signator, whose key does not change, is the notice that it signs, or
`none` for one that signs nothing. What a method does is a list of writes, each a transaction of its own.
-/

namespace Verif.Note

open Verif.Krm


/-- notifying.py:32-36, 41-90 `Notice`. -/
structure Notice where
  rid : Nat
  dt : Nat
  read : Bool
  attrs : Nat
  deriving DecidableEq

abbrev Key := Nat × Nat

/-- Order of keys `dt/rid` (notifying.py:218). -/
def keyLt (a b : Key) : Bool := decide (a.1 < b.1) || (decide (a.1 = b.1) && decide (a.2 < b.2))

/-- `notes.pin`, entries in the order of keys. -/
def pinNote (k : Key) (n : Notice) : List (Key × Notice) → List (Key × Notice)
  | [] => [(k, n)]
  | e :: r => if e.1 = k then (k, n) :: r else if keyLt k e.1 then (k, n) :: e :: r else e :: pinNote k n r

def getNote (l : List (Key × Notice)) (k : Key) : Option Notice := (l.find? (fun e => e.1 = k)).map (·.2)

def remNote (l : List (Key × Notice)) (k : Key) : List (Key × Notice) := l.filter (fun e => e.1 ≠ k)

/-- notifying.py:218-220 `notes`, `nidx`, `ncigs`. -/
structure World where
  notes : List (Key × Notice) := []
  nidx : Tab Nat Nat := []
  ncigs : Tab Nat (Option Notice) := []
  deriving DecidableEq

inductive Write where
  | pinIdx (r : Nat) (t : Nat)
  | pinCig (r : Nat) (c : Notice)
  | pinNote (k : Key) (n : Notice)
  | remIdx (r : Nat)
  | remCig (r : Nat)
  | remNote (k : Key)
  deriving DecidableEq

def write (w : World) : Write → World
  | .pinIdx r t => { w with nidx := Tab.pin w.nidx r t }
  | .pinCig r c => { w with ncigs := Tab.pin w.ncigs r (some c) }
  | .pinNote k n => { w with notes := pinNote k n w.notes }
  | .remIdx r => { w with nidx := Tab.rem w.nidx r }
  | .remCig r => { w with ncigs := Tab.rem w.ncigs r }
  | .remNote k => { w with notes := remNote w.notes k }

def exec (w : World) (ws : List Write) : World := ws.foldl write w

/-- notifying.py:239-241, 258-260; the signature is over the notice (366, 432). -/
def pins (n : Notice) : List Write := [.pinIdx n.rid n.dt, .pinCig n.rid n, .pinNote (n.dt, n.rid) n]

/-- notifying.py:224-241 `Noter.add`. -/
def nAdd (w : World) (n : Notice) : List Write × Bool := if (Tab.get w.nidx n.rid).isSome then ([], false) else (pins n, true)

/-- notifying.py:243-260 `Noter.update`. -/
def nUpdate (w : World) (n : Notice) : List Write × Bool := if (Tab.get w.nidx n.rid).isNone then ([], false) else (pins n, true)

/-- notifying.py:262-278 `Noter.get`: the notice and the signature are `None` when missing. -/
def nGet (w : World) (r : Nat) : Option (Option Notice × Option (Option Notice)) := match Tab.get w.nidx r with
  | none => none
  | some dt => some (getNote w.notes (dt, r), Tab.get w.ncigs r)

/-- notifying.py:280-298 `Noter.rem`: `None` has no `datetime`. The last value is whether the notice was there. -/
def nRem (w : World) (r : Nat) : List Write × Except Err Bool := match nGet w r with
  | none => ([], .ok false)
  | some (none, _) => ([], .error .attributeError)
  | some (some n, _) => ([.remIdx n.rid, .remCig n.rid, .remNote (n.dt, n.rid)], .ok (getNote w.notes (n.dt, n.rid)).isSome)

/-- habbing.py:924-937 `Signator.verify`: a missing signature is None, which has no `raw`. -/
def verify (n : Notice) : Option (Option Notice) → Except Err Bool
  | none => .error .attributeError
  | some c => .ok (decide (c = some n))

inductive Action where
  | add | rem | mar
  deriving DecidableEq

/-- notifying.py:356-376 `Notifier.add`: what is written, the signal, the result. The identifier is drawn at random. -/
def add (w : World) (now : Nat) (r : Nat) (attrs : Nat) : List Write × Option (Action × Notice) × Except Err Bool :=
  let n : Notice := ⟨r, now, false, attrs⟩
  match nAdd w n with
  | (ws, true) => (ws, some (.add, n), .ok true)
  | (ws, false) => (ws, none, .ok false)

/-- notifying.py:378-404 `Notifier.rem`. -/
def rem (w : World) (r : Nat) : List Write × Option (Action × Notice) × Except Err Bool := match nGet w r with
  | none => ([], none, .ok false)
  | some (o, c) => match nRem w r with
    | (ws, .error e) => (ws, none, .error e)
    | (ws, .ok false) => (ws, none, .ok true)
    | (ws, .ok true) => match o with
      | none => (ws, none, .error .attributeError)
      | some n => match verify n c with
        | .error e => (ws, none, .error e)
        | .ok true => (ws, some (.rem, n), .ok true)
        | .ok false => (ws, none, .ok true)

/-- notifying.py:406-443 `Notifier.mar`. -/
def mar (w : World) (r : Nat) : List Write × Option (Action × Notice) × Except Err Bool := match nGet w r with
  | none => ([], none, .ok false)
  | some (none, _) => ([], none, .error .attributeError)
  | some (some n, c) => match verify n c with
    | .error e => ([], none, .error e)
    | .ok false => ([], none, .ok false)
    | .ok true =>
      if n.read then ([], none, .ok false)
      else match nUpdate w { n with read := true } with
        | (ws, true) => (ws, some (.mar, { n with read := true }), .ok true)
        | (ws, false) => (ws, none, .ok false)

/-- notifying.py:331-335: the loop; `m` is `(end - start) + 1`, none when `end` is -1. -/
def page (w : World) (m : Option Int) : List (Key × Notice) → List (Notice × Option (Option Notice)) → List (Notice × Option (Option Notice))
  | [], acc => acc
  | (_, n) :: r, acc =>
    let acc := acc ++ [(n, Tab.get w.ncigs n.rid)]
    if m = some (acc.length : Int) then acc else page w m r acc

/-- notifying.py:308-337 `Noter.getNotes`. -/
def nGetNotes (w : World) (start : Nat) (e : Int) : List (Notice × Option (Option Notice)) :=
  page w (if e = -1 then none else some (e - start + 1)) (w.notes.drop start) []

def checked : List (Notice × Option (Option Notice)) → Except Err (List Notice)
  | [] => .ok []
  | (n, c) :: r => match verify n c with
    | .error e => .error e
    | .ok false => .error .validation
    | .ok true => match checked r with
      | .error e => .error e
      | .ok l => .ok (n :: l)

/-- notifying.py:453-471 `Notifier.getNotes`. -/
def getNotes (w : World) (start : Nat) (e : Int) : Except Err (List Notice) := checked (nGetNotes w start e)

/-- notifying.py:445-451. -/
def count (w : World) : Nat := w.notes.length

inductive Op where
  | add (now : Nat) (r : Nat) (attrs : Nat)
  | rem (r : Nat)
  | mar (r : Nat)
  deriving DecidableEq

def effect (w : World) : Op → List Write × Option (Action × Notice) × Except Err Bool
  | .add t r a => add w t r a
  | .rem r => rem w r
  | .mar r => mar w r

def step (w : World) (o : Op) : World := exec w (effect w o).1

def run (w : World) (os : List Op) : World := os.foldl step w

/-! ## Signals -/

/-- signaling.py:44-87 `Signal`, with an identity (`remove` looks for the object). -/
structure Signal where
  uid : Nat
  ckey : Option Nat
  topic : Option Nat
  dt : Nat
  data : Nat
  deriving DecidableEq

/-- signaling.py:122-125: the first with the collapse key is replaced. -/
def collapse (s : Signal) : List Signal → Option (List Signal)
  | [] => none
  | x :: r => if x.ckey = s.ckey then some (s :: r) else (collapse s r).map (x :: ·)

/-- signaling.py:109-127 `push`: the new queue, and whether it was changed in length. -/
def push (q : List Signal) (s : Signal) : List Signal × Bool :=
  if s.ckey = none then (q ++ [s], true)
  else match collapse s q with
    | some q' => (q', false)
    | none => (q ++ [s], true)

/-- signaling.py:278-291: all signals are taken and sent. One without a topic asks for `sig.id`, which no class has: what was taken before it is lost
with it. -/
def drain : List Signal → List Signal → List Signal × Except Err (List Signal)
  | [], out => ([], .ok out)
  | s :: r, out => match s.topic with
    | none => (r, .error .attributeError)
    | some _ => drain r (out ++ [s])

/-- Where the loop of `expireDo` (signaling.py:146-157) stands at its `yield`: between loops (144, 157), or in the iteration (152) with the number of
signals it has seen, those to remove, and the count of changes of the queue at its start (a deque's iterator raises RuntimeError once the
queue has been changed in length). `dead` after an exception. -/
inductive Phase where
  | idle
  | scan (pos : Nat) (ver : Nat) (now : Nat) (out : List Signal)
  | dead (e : Err)
  deriving DecidableEq

structure Sigs where
  queue : List Signal := []
  ver : Nat := 0
  phase : Phase := .idle
  deriving DecidableEq

/-- `SignalTimeout`. -/
def expired (timeout : Nat) (now : Nat) (s : Signal) : Bool := decide (timeout < now - s.dt)

/-- signaling.py:154-155: `remove` raises ValueError for one that is not there. -/
def removeAll (q : List Signal) : List Signal → Except Err (List Signal)
  | [] => .ok q
  | s :: r => if s ∈ q then removeAll (q.erase s) r else .error .valueError

/-- signaling.py:149-157: the iteration goes on, to the next `yield`. -/
def advance (timeout : Nat) (g : Sigs) (pos : Nat) (ver : Nat) (now : Nat) (out : List Signal) : Sigs :=
  if g.ver ≠ ver then { g with phase := .dead .recursion }
  else match g.queue[pos]? with
    | some s => { g with phase := .scan (pos + 1) ver now (if expired timeout now s then out ++ [s] else out) }
    | none => match removeAll g.queue out with
      | .error e => { g with phase := .dead e }
      | .ok q => { queue := q, ver := g.ver + out.length, phase := .idle }

inductive SigOp where
  | push (s : Signal)
  | drain
  | tick (now : Nat)

/-- RuntimeError of the iteration stands as `.recursion`, whose class is a subclass of it. -/
def sigStep (timeout : Nat) (g : Sigs) : SigOp → Sigs
  | .push s => { g with queue := (push g.queue s).1, ver := if (push g.queue s).2 then g.ver + 1 else g.ver }
  | .drain => { g with queue := (drain g.queue []).1, ver := g.ver + (g.queue.length - (drain g.queue []).1.length) }
  | .tick now => match g.phase with
    | .idle => advance timeout g 0 g.ver now []
    | .scan pos ver t out => advance timeout g pos ver t out
    | .dead _ => g

def sigRun (timeout : Nat) (g : Sigs) (os : List SigOp) : Sigs := os.foldl (sigStep timeout) g

end Verif.Note
