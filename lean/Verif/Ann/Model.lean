import Verif.Cesr.Model

/-!
# Model of annotated messages (src/keri/core/annotating.py 17-303; kering.py 287-328)

A stream is a list of characters that stand for its bytes; a text is a list of characters.  What is said after the `#` of a line, names of classes and of
codes with a value, is taken as given.  Where a primitive is not of the class that is asked for, the exception may be of another class than here.
-/

namespace Verif.Ann

open Verif.B64 Verif.Matter Verif.Mad
open Verif.Thold (ofLimen limen)
open Verif.Cesr (Cast kindOfCode verDex traitDex)

/-- A line: how far it is indented, the primitive or counter if any, whether the `#` follows it without a blank (annotating.py:258, 261), and for what it is. -/
structure Line where
  indent : Nat
  tok : List Char
  tight : Bool
  role : List Char
  deriving DecidableEq

/-- What is said of a primitive or counter after the `#`: by role and primitive. -/
abbrev Words := List Char → List Char → List Char

/-- annotating.py:40-271, the f-strings, without the final line feed. -/
def lineText (w : Words) (l : Line) : List Char :=
  List.replicate (l.indent * 2) ' ' ++ l.tok ++ (if l.tight then ['#', ' '] else [' ', '#', ' ']) ++ w l.role l.tok

/-- annotating.py:283 `oms.decode()`. -/
def render (w : Words) (ls : List Line) : List Char := ls.flatMap fun l => lineText w l ++ ['\n']

/-! ## Reading primitives -/

/-- coring.py:3359-3366, the codes of a `Verfer`. -/
def keyDex : List (List Char) := [['B'], ['D'], ['1', 'A', 'A', 'I'], ['1', 'A', 'A', 'J'], ['1', 'A', 'A', 'A'], ['1', 'A', 'A', 'B']]

/-- `kls(qb64b=ims, strip=True)` with its `.qb64`, the test being that of the class. -/
def takeTok (ok : Mat → Bool) (s : List Char) : Except Err (List Char × List Char) :=
  match takeMat s with
  | .error e => .error e
  | .ok (m, r) => if ok m then (match infil m with | .error e => .error e | .ok q => .ok (q, r)) else .error .invalidCode

/-- `Counter(qb64b=ims, strip=True)` with its `.qb64`. -/
def takeCount (s : List Char) : Except Err (Ctr.Counter × List Char × List Char) :=
  match takeCtr s with
  | .error e => .error e
  | .ok (c, r) => match Ctr.infil .v2 c with
    | .error e => .error e
    | .ok q => .ok (c, q, r)

/-- coring.py:4345-4346 and 4435-4467 `Tholder(limen=ims, strip=True)` with its `.limen`, which is made anew from the threshold (4373-4376). -/
def takeThold (s : List Char) : Except Err (List Char × List Char) :=
  match takeMat s with
  | .error e => .error e
  | .ok (_, r) => match ofLimen s with
    | .error e => .error e
    | .ok th => match limen th with
      | .error e => .error e
      | .ok q => .ok (q, r)

/-- A `Verser` whose `.versage` is asked for (annotating.py:48-49; coring.py:2542-2555). -/
def isVer (m : Mat) : Bool :=
  decide (m.code ∈ verDex) && (match Ctr.b64ToVer ((m.soft.drop 4).take 3) with | .ok _ => true | .error _ => false) &&
    (m.soft.length != 10 || (match Ctr.b64ToVer (m.soft.drop 7) with | .ok _ => true | .error _ => false))

/-- A `Traitor` (coring.py:2422-2432). -/
def isTrait (m : Mat) : Bool := decide (m.code ∈ tagDex) && decide (m.soft ∈ traitDex)

/-- A primitive with one of the codes. -/
def hasCode (codes : List (List Char)) (m : Mat) : Bool := decide (m.code ∈ codes)

/-- `while frame:` over the primitives of a list (annotating.py:91-94 and alike); the number bounds the work. -/
def frameLines (ok : Mat → Bool) (role : List Char) (ind : Nat) : Nat → List Char → Except Err (List Line)
  | 0, _ => .error .recursion
  | _ + 1, [] => .ok []
  | n + 1, c :: r => match takeTok ok (c :: r) with
    | .error e => .error e
    | .ok (q, r) => match frameLines ok role ind n r with
      | .error e => .error e
      | .ok ls => .ok (⟨ind, q, false, role⟩ :: ls)

/-- structing.py:223-240, the codes of the classes of the values of seals. -/
def castDex : Cast → List (List Char)
  | .dig => digDex
  | .pre => Ser.preDex
  | .num => numDex
  | .ver => verDex

/-- structing.py:878-893, 1076-1082 `Sealer(clan=clan, qb64=subframe, strip=True)` with its `.qb64`. -/
def takeSeal : List Cast → List Char → Except Err (List Char × List Char)
  | [], s => .ok ([], s)
  | c :: cs, s => match takeTok (hasCode (castDex c)) s with
    | .error e => .error e
    | .ok (q, r) => match takeSeal cs r with
      | .error e => .error e
      | .ok (t, r) => .ok (q ++ t, r)

/-- annotating.py:256-263, with a line for every field of the seal. -/
def sealLines (labels : List (List Char)) (cs : List Cast) (ind : Nat) : Nat → List Char → Except Err (List Line)
  | 0, _ => .error .recursion
  | _ + 1, [] => .ok []
  | n + 1, c :: r => match takeSeal cs (c :: r) with
    | .error e => .error e
    | .ok (q, r) => match sealLines labels cs ind n r with
      | .error e => .error e
      | .ok ls => .ok (⟨ind, q, true, ['s', 'e', 'a', 'l']⟩ :: labels.map (fun l => ⟨ind + 1, [], true, l⟩) ++ ls)

/-- annotating.py:248-264, the groups of seals.  The code of a group that is not of a known kind is not in `CodeClans`. -/
def groupLines (ind : Nat) : Nat → List Char → Except Err (List Line)
  | 0, _ => .error .recursion
  | _ + 1, [] => .ok []
  | n + 1, c :: r => match takeCount (c :: r) with
    | .error e => .error e
    | .ok (ctr, q, r) => match kindOfCode ctr.code with
      | none => .error .keyError
      | some k => match sealLines k.2.1 k.2.2 (ind + 1) (r.length + 1) (r.take (ctr.count * 4)) with
        | .error e => .error e
        | .ok ls => match groupLines ind n (r.drop (ctr.count * 4)) with
          | .error e => .error e
          | .ok ws => .ok (⟨ind, q, false, ['g', 'r', 'o', 'u', 'p']⟩ :: ls ++ ws)

/-! ## A message -/

/-- What is done for a field. -/
inductive Step where
  | prim (codes : List (List Char))
  | thold
  | list (codes : List (List Char))
  | traits
  | seals
  deriving DecidableEq

/-- A list: the counter, of any code, and the frame, which is cut short by the end without notice (annotating.py:85-95 and alike). -/
def listLines (role : List Char) (ind : Nat) (f : Nat → List Char → Except Err (List Line)) (s : List Char) : Except Err (List Line × List Char) :=
  match takeCount s with
  | .error e => .error e
  | .ok (c, q, r) => match f ((r.take (c.count * 4)).length + 1) (r.take (c.count * 4)) with
    | .error e => .error e
    | .ok ls => .ok (⟨ind, q, false, role⟩ :: ls, r.drop (c.count * 4))

/-- The lines of a field and what follows it. -/
def stepLines (ind : Nat) (role : List Char) (st : Step) (s : List Char) : Except Err (List Line × List Char) :=
  match st with
  | .prim codes => match takeTok (hasCode codes) s with
    | .error e => .error e
    | .ok (q, r) => .ok ([⟨ind, q, false, role⟩], r)
  | .thold => match takeThold s with
    | .error e => .error e
    | .ok (q, r) => .ok ([⟨ind, q, false, role⟩], r)
  | .list codes => listLines role ind (frameLines (hasCode codes) role (ind + 1)) s
  | .traits => listLines role ind (frameLines isTrait role (ind + 1)) s
  | .seals => listLines role ind (groupLines (ind + 1)) s

def stepsLines (ind : Nat) : List (List Char × Step) → List Char → Except Err (List Line × List Char)
  | [], s => .ok ([], s)
  | (role, st) :: sts, s => match stepLines ind role st s with
    | .error e => .error e
    | .ok (ls, r) => match stepsLines ind sts r with
      | .error e => .error e
      | .ok (ws, r) => .ok (ls ++ ws, r)

/-- annotating.py:61-75. -/
def frontSteps : List (List Char × Step) := [(['d'], .prim digDex), (['i'], .prim Ser.preDex), (['s'], .prim numDex)]

/-- annotating.py:80-112 and 159-191. -/
def keySteps : List (List Char × Step) := [(['k', 't'], .thold), (['k'], .list keyDex), (['n', 't'], .thold), (['n'], .list digDex), (['b', 't'], .thold)]

/-- annotating.py:61-271: what is read, by message type; `none` for the IlkError (238). -/
def steps (ilk : List Char) : Option (List (List Char × Step)) :=
  if ilk = ['i', 'c', 'p'] then some (frontSteps ++ keySteps ++ [(['b'], .list Ser.preDex), (['c'], .traits), (['a'], .seals)])
  else if ilk = ['d', 'i', 'p'] then
    some (frontSteps ++ keySteps ++ [(['b'], .list Ser.preDex), (['c'], .traits), (['a'], .seals), (['d', 'i'], .prim Ser.preDex)])
  else if ilk = ['i', 'x', 'n'] then some (frontSteps ++ [(['p'], .prim digDex), (['a'], .seals)])
  else if ilk = ['r', 'o', 't'] ∨ ilk = ['d', 'r', 't'] then
    some (frontSteps ++ [(['p'], .prim digDex)] ++ keySteps ++
      [(['b', 'r'], .list Ser.preDex), (['b', 'a'], .list Ser.preDex), (['c'], .traits), (['a'], .seals)])
  else none

/-- How the annotation ends otherwise than with a text. -/
inductive Fail where
  | err (e : Err)
  | ilk
  | extraction
  | coldStart
  deriving DecidableEq

/-- annotating.py:39-274, a message in the text domain.  Simplification: a type that is not of `Ilks` (coring.py:2333-2334) is refused as any that is not
annotated. -/
def message (s : List Char) : Except Fail (List Line) :=
  match takeCount s with
  | .error e => .error (.err e)
  | .ok (_, cq, r) => match takeTok isVer r with
    | .error e => .error (.err e)
    | .ok (vq, r) => match takeMat r with
      | .error e => .error (.err e)
      | .ok (m, r) =>
        if m.code ≠ ['X'] then .error (.err .invalidCode)
        else match infil m with
          | .error e => .error (.err e)
          | .ok tq => match steps m.soft with
            | none => .error .ilk
            | some sts => match stepsLines 1 sts r with
              | .error e => .error (.err e)
              | .ok (ls, rest) =>
                if rest ≠ [] then .error .extraction
                else .ok (⟨0, cq, false, ['-', '-']⟩ :: ⟨1, vq, false, ['v']⟩ :: ⟨1, tq, false, ['t']⟩ :: ls)

/-- One turn of `while ims` (annotating.py:35-281): the end, or the stream and the lines for the next one. -/
inductive Turn where
  | ends (r : Except Fail (List Line))
  | again (s : List Char) (out : List Line)

/-- kering.py:317 `ims[0] >> 5`. -/
def tritet (c : Char) : Nat := c.toNat / 32

/-- annotating.py:35-281 with kering.py:317-328.  In the text domain nothing is left after a message (273-274); in the binary domain nothing is done (276-277). -/
def turn (s : List Char) (out : List Line) : Turn :=
  match s with
  | [] => .ends (.ok out)
  | c :: r =>
    if tritet c = 1 ∨ tritet c = 2 then match message (c :: r) with
      | .error e => .ends (.error e)
      | .ok ls => .again [] (out ++ ls)
    else if tritet c = 7 then .again (c :: r) out
    else .ends (.error .coldStart)

/-- annotating.py:35: as many turns as the number says; `none` if it has not ended by then. -/
def turns : Nat → List Char → List Line → Option (Except Fail (List Line))
  | 0, _, _ => none
  | n + 1, s, out => match turn s out with
    | .ends r => some r
    | .again s out => turns n s out

/-- annotating.py:17-283 `annot(ims)`, given up after so many turns. -/
def annot (w : Words) (n : Nat) (s : List Char) : Option (Except Fail (List Char)) :=
  match turns n s [] with
  | none => none
  | some (.error e) => some (.error e)
  | some (.ok ls) => some (.ok (render w ls))

/-! ## Back -/

/-- Where `str.splitlines` breaks.  That it takes a carriage return with a line feed as one break makes no difference: a line of nothing adds nothing. -/
def isBreak (c : Char) : Bool := c.toNat ∈ [10, 11, 12, 13, 28, 29, 30, 133, 8232, 8233]

/-- What `str.strip` removes. -/
def isBlank (c : Char) : Bool :=
  c.toNat ∈ [9, 10, 11, 12, 13, 28, 29, 30, 31, 32, 133, 160, 5760, 8192, 8193, 8194, 8195, 8196, 8197, 8198, 8199, 8200, 8201, 8202, 8232, 8233, 8239, 8287, 12288]

/-- `s.splitlines()`, with an empty line at the end where there is a break. -/
def splitLines : List Char → List (List Char)
  | [] => [[]]
  | c :: s => if isBreak c then [] :: splitLines s else match splitLines s with
    | [] => [[c]]
    | l :: ls => (c :: l) :: ls

/-- `s.rstrip()` -/
def rstrip (s : List Char) : List Char := (s.reverse.dropWhile isBlank).reverse

/-- `s.strip()` -/
def strip (s : List Char) : List Char := rstrip (s.dropWhile isBlank)

/-- annotating.py:297-301, what a line adds. -/
def frontOf (line : List Char) : List Char := strip ((strip line).takeWhile (· ≠ '#'))

/-- annotating.py:285-303 `denot(ams)`. -/
def denot (ams : List Char) : List Char := (splitLines ams).flatMap frontOf

end Verif.Ann
