import Verif.Hab.PropsCrash
import Verif.Hab.PropsMade

/-!
# Cases that meet the hypotheses of C130 to C136, and cases the code gets wrong
-/

namespace Verif.Hab.DemoHab

open Verif.Kel
open Verif.Thold (Thold Sith)

def env : Env where
  kel := { verify := fun k s e => decide (s = k * 100000 + e.said), commits := fun k d => decide (d = k + 500), transferable := fun _ => true,
           okPre := fun _ => true, okKey := fun _ => true }
  mgr := { derive := fun s p _ _ _ _ => p.foldl (fun n c => n * 256 + c.toNat) (s + 1), dig := fun k => k + 500, ed := fun _ => true, boxA := id, boxS := id }
  said e := 1000 * (e.sn + 1) + 10 * e.keys.headD 0 + (2 - Thold.size e.kt)
  sig k e := k * 100000 + e.said
  seed := 0

theorem laws : Laws env := ⟨by simp [env], by simp [env]⟩

def opened : Mgr.Node := (Mgr.Node.step env.mgr .start (.call (.openM none none 0 .randy 7 0))).1

/-- A new host. -/
def w0 : World := ⟨opened.ks, opened.mem.getD ⟨none, none, none⟩, Node.start [] [] (fun _ => none), []⟩

theorem start : Start env w0 := ⟨⟨[], _, rfl⟩, none, none, 0, .randy, 7, 0, fun _ => rfl, by rfl⟩

/-- A habitat with keys `k`, `k + 1`, … and next keys after them, thresholds of all. -/
def mk (name : List Char) (k i j : Nat) (s : Option Sith) : Call :=
  .make ⟨name, .digest, 0, true, s, i, none, some j, ⟨none, [], false, false, [], false, .digest, none⟩, none, none, none, false, 0, fun x => k + x⟩

/-- Rotation with new next keys `k`, `k + 1`, …. -/
def rotArgs (k : Nat) (s ns : Option Sith) (n : Option Int) : RotateArgs := ⟨s, ns, n, ⟨none, [], [], [], false⟩, false, 0, fun x => k + x⟩

def isOk (r : Except Fail Event) : Bool := match r with | .ok _ => true | .error _ => false
def notCode (r : Except Fail Event) : Bool := match r with | .error (.mgr .code) => false | _ => true

theorem notCode_ne {r : Except Fail Event} (h : notCode r = true) : r ≠ .error (.mgr .code) := by
  rintro rfl; simp [notCode] at h
theorem ok_ex {r : Except Fail Event} (h : isOk r = true) : ∃ e, r = .ok e := by
  cases r with
  | ok e => exact ⟨e, rfl⟩
  | error x => simp [isOk] at h
theorem err_ex {r : Except Fail Event} (h : isOk r = false) : ∃ x, r = .error x := by
  cases r with
  | ok e => simp [isOk] at h
  | error x => exact ⟨x, rfl⟩

/-- Two keys and two next keys, threshold two; a rotation, an interaction, a rotation. -/
def c1 := mk ['a'] 10 2 2 (some (.int 2))
def c2 : Call := .rotate 1100 (rotArgs 20 none none none)
def c3 : Call := .interact 1100 [] false
def c4 : Call := .rotate 1100 (rotArgs 30 none none none)
/-- One next key is asked for, the threshold stays two. -/
def c5 : Call := .rotate 1100 (rotArgs 40 none none (some 1))
/-- No arguments. -/
def c6 : Call := .rotate 1100 (rotArgs 50 none none none)
/-- Two keys, one weight. -/
def cs : Call := .rotate 1100 (rotArgs 60 (some (.seq [.bare (.str ['1'])])) (some (.int 2)) none)

def w1 := (exec env w0 c1).1
def w2 := (exec env w1 c2).1
def w3 := (exec env w2 c3).1
def w4 := (exec env w3 c4).1
def w5 := (exec env w4 c5).1

/-- The events of these calls. -/
def events : List Event :=
  [eventOf env w0 c1, eventOf env w1 c2, eventOf env w2 c3, eventOf env w3 c4, eventOf env w4 c6, eventOf env w4 cs].filterMap id

def U (e : Event) : Prop := e ∈ events

theorem noColl : NoColl U := by
  have key : ∀ l : List Event, (l.map (·.said)).Nodup → ∀ x ∈ l, ∀ y ∈ l, x.said = y.said → x = y := by
    intro l
    induction l with
    | nil => simp
    | cons a l ih =>
      intro hn x hx y hy he
      rw [List.map_cons, List.nodup_cons] at hn
      rcases List.mem_cons.1 hx with rfl | hx <;> rcases List.mem_cons.1 hy with rfl | hy
      · rfl
      · exact absurd (List.mem_map.2 ⟨y, hy, he.symm⟩) hn.1
      · exact absurd (List.mem_map.2 ⟨x, by assumption, he⟩) hn.1
      · exact ih hn.2 x hx y hy he
  exact fun x y hx hy => key events (by decide +kernel) x hx y hy

example : events.length = 6 := by decide +kernel

/-- What can be computed of `Fit`, but for the weights. -/
def fits (w : World) (c : Call) : Bool :=
  (match c.on with | some p => decide (p ∈ w.node.prefixes) | none => true) &&
  (match eventOf env w c with
    | none => true
    | some e => decide (e ∈ events) && (match c with | .make _ => (w.node.kevers e.pre).isNone && !decide (e.pre ∈ w.node.groups) | _ => true)) &&
  notCode (exec env w c).2

def weighs (w : World) (c : Call) : Bool :=
  match eventOf env w c with
  | none => true
  | some e => match e.kt with | .wtd _ => decide (Thold.size e.kt = e.keys.length) | .num _ => true

theorem fit_of {w : World} {c : Call} (h : fits w c = true) (h' : weighs w c = true) : Fit env U w c := by
  unfold fits at h
  simp only [Bool.and_eq_true] at h
  obtain ⟨⟨h1, h2⟩, h3⟩ := h
  refine ⟨fun p hp => ?_, fun e he => ?_, fun e cs he hk => ?_, fun a e hc he => ?_, notCode_ne h3⟩
  · rw [hp] at h1; simpa using h1
  · rw [he] at h2; simp only [Bool.and_eq_true, decide_eq_true_eq] at h2; exact h2.1
  · rw [weighs, he] at h'; simp only [hk] at h' ⊢; simpa using h'
  · subst hc; rw [he] at h2; simp at h2; exact h2.2

theorem made {M M' : List Nat} {w : World} (c : Call) (h : Hist env U w0 M w) (hf : fits w c = true) (hw : weighs w c = true) (hm : M ++ madeBy env w c = M') :
    Hist env U w0 M' (exec env w c).1 := hm ▸ .call c h (fit_of hf hw)

theorem h1 : Hist env U w0 [10, 11, 12, 13] w1 := made (w := w0) c1 .nil (by decide +kernel) (by decide +kernel) (by decide +kernel)
theorem h2 : Hist env U w0 [10, 11, 12, 13, 20, 21] w2 := made c2 h1 (by decide +kernel) (by decide +kernel) (by decide +kernel)
theorem h3 : Hist env U w0 [10, 11, 12, 13, 20, 21] w3 := made c3 h2 (by decide +kernel) (by decide +kernel) (by decide +kernel)
theorem h4 : Hist env U w0 [10, 11, 12, 13, 20, 21, 30, 31] w4 := made c4 h3 (by decide +kernel) (by decide +kernel) (by decide +kernel)
theorem h5 : Hist env U w0 [10, 11, 12, 13, 20, 21, 30, 31, 40] w5 := made c5 h4 (by decide +kernel) (by decide +kernel) (by decide +kernel)

/-! ## The hypotheses are met -/

/-- C132: events of new identifiers, one that is not transferable. -/
example : (eventOf env w0 c1).isSome = true ∧
    (eventOf env w0 (.make ⟨['n'], .none, 0, false, none, 1, none, some 3, ⟨none, [], false, false, [], false, .key, none⟩, none, none, none, false, 0, fun x => 10 + x⟩)).isSome = true := by
  decide +kernel

/-- C130 to C132: a host with an identifier that was rotated twice. -/
example : (1100 : Id) ∈ w4.node.prefixes ∧ (w4.node.kevers 1100).map (fun k => (k.keys, k.ndigs, k.sn)) = some ([20, 21], [530, 531], 3) := by decide +kernel
example : ∃ e, (exec env w4 c6).2 = .ok e := ok_ex (by decide +kernel)
example : Fit env U w4 c6 ∧ ([10, 11, 12, 13, 20, 21, 30, 31] ++ madeBy env w4 c6).Nodup := ⟨fit_of (by decide +kernel) (by decide +kernel), by decide +kernel⟩
example : Fit env U w4 c5 ∧ ([10, 11, 12, 13, 20, 21, 30, 31] ++ madeBy env w4 c5).Nodup ∧ ∃ x, (exec env w4 c5).2 = .error x :=
  ⟨fit_of (by decide +kernel) (by decide +kernel), by decide +kernel, err_ex (by decide +kernel)⟩
example : GoodKeys env [10, 11, 12, 13, 20, 21, 30, 31] := fun _ _ => rfl
example : Apart env [10, 11, 12, 13, 20, 21, 30, 31, 40] := by
  intro x _ y _ h; simp [env] at h; omega
/-- C133. -/
example : Default (rotArgs 50 none none none) := ⟨rfl, rfl, rfl, rfl, rfl, rfl⟩
example : Clear w4 1100 := by
  have : ((w4.ks.sits 1100).map fun s => w4.ks.pubs 1100 (s.nxt.ridx + 1)) = some none := by decide +kernel
  intro s hs; rw [hs] at this; simpa using this
/-- C134: the keys after the next ones, stored by the refused rotation. -/
example : ((w5.ks.sits 1100).map fun s => w5.ks.pubs 1100 (s.nxt.ridx + 1)) = some (some [40]) := by decide +kernel
/-- C135: there are keys to erase. -/
example : ((w4.ks.sits 1100).map fun s => s.old.pubs) = some [12, 13] ∧ w4.ks.pris.at' 12 ≠ none ∧ (exec env w4 c6).1.ks.pris.at' 12 = none := by decide +kernel
/-- C136: the key store writes before the event is logged. -/
example : (advance env w4 1100 2 (rotArgs 50 none none none)).1.length = 4 := by decide +kernel
example : Hist env U (crashRotate env w4 1100 (rotArgs 50 none none none) 1) [] (crashRotate env w4 1100 (rotArgs 50 none none none) 1) := .nil

/-! ## What goes wrong -/

def short : Event := (eventOf env w4 cs).get (by decide +kernel)
def now : Kever := (w4.node.kevers 1100).get (by decide +kernel)

theorem short_ok : (exec env w4 cs).2 = .ok short := by
  have h : (match (exec env w4 cs).2 with | .ok e => some e | .error _ => none) = some short := by decide +kernel
  cases hr : (exec env w4 cs).2 with
  | ok e => rw [hr] at h; exact congrArg Except.ok (Option.some.inj h)
  | error x => rw [hr] at h; exact absurd h (by simp)

/-- A rotation to two keys with a threshold of one weight is built and reported as done. The key store goes on to the new keys and the log does not; the identifier cannot be
rotated any more. -/
theorem c130_short_weights : ∃ (env : Env) (U : Event → Prop) (w0 w : World) (M : List Nat) (p : Id) (a b : RotateArgs) (e : Event) (k : Kever),
    Laws env ∧ NoColl U ∧ Start env w0 ∧ Hist env U w0 M w ∧ p ∈ w.node.prefixes ∧ w.node.kevers p = some k ∧ (M ++ madeBy env w (.rotate p a)).Nodup ∧
    eventOf env w (.rotate p a) = some e ∧ U e ∧ (exec env w (.rotate p a)).2 = .ok e ∧
    (exec env w (.rotate p a)).1.node.kevers p = some k ∧ ¬ InSync env (exec env w (.rotate p a)).1 p k ∧
    Default b ∧ ∃ x, (exec env (exec env w (.rotate p a)).1 (.rotate p b)).2 = .error x := by
  refine ⟨env, U, w0, w4, _, 1100, rotArgs 60 (some (.seq [.bare (.str ['1'])])) (some (.int 2)) none, rotArgs 70 none none none, short, now,
    laws, noColl, start, h4, by decide +kernel, by decide +kernel, by decide +kernel, by decide +kernel, ?_, short_ok, by decide +kernel, ?_,
    ⟨rfl, rfl, rfl, rfl, rfl, rfl⟩, err_ex (by decide +kernel)⟩
  · have : short ∈ events := by decide +kernel
    exact this
  · intro h
    obtain ⟨s, hs, hk, _⟩ := h.keys
    have : ((exec env w4 cs).1.ks.sits 1100).map (fun s => decide (s.new.pubs = now.keys)) = some false := by decide +kernel
    rw [show (exec env w4 cs).1.ks.sits 1100 = some s from hs] at this
    simp [hk] at this

/-- The event it returns is not in the log. -/
theorem c131_short_weights : ∃ (env : Env) (U : Event → Prop) (w0 w : World) (M : List Nat) (p : Id) (a : RotateArgs) (e : Event),
    Laws env ∧ NoColl U ∧ Start env w0 ∧ Hist env U w0 M w ∧ p ∈ w.node.prefixes ∧ (M ++ madeBy env w (.rotate p a)).Nodup ∧
    eventOf env w (.rotate p a) = some e ∧ U e ∧ (exec env w (.rotate p a)).2 = .ok e ∧ ¬ InLog w (exec env w (.rotate p a)).1 e := by
  refine ⟨env, U, w0, w4, _, 1100, rotArgs 60 (some (.seq [.bare (.str ['1'])])) (some (.int 2)) none, short,
    laws, noColl, start, h4, by decide +kernel, by decide +kernel, by decide +kernel, ?_, short_ok, fun h => ?_⟩
  · have : short ∈ events := by decide +kernel
    exact this
  · have h1 := h.fels 1100
    have h2 : (exec env w4 cs).1.node.db.fels 1100 ≠ if 1100 = short.pre then w4.node.db.fels short.pre ++ [short.said] else w4.node.db.fels 1100 := by decide +kernel
    exact h2 h1

/-- A rotation without arguments succeeds; after one that asks for too few next keys, and is refused, it is refused as well. -/
theorem c134_stash_default : ∃ (env : Env) (U : Event → Prop) (w0 w : World) (M : List Nat) (p : Id) (a b : RotateArgs),
    Laws env ∧ NoColl U ∧ Start env w0 ∧ Hist env U w0 M w ∧ Fit env U w (.rotate p a) ∧ Default b ∧
    (∃ e, (exec env w (.rotate p b)).2 = .ok e) ∧ (∃ x, (exec env w (.rotate p a)).2 = .error x) ∧
    ∃ x, (exec env (exec env w (.rotate p a)).1 (.rotate p b)).2 = .error x :=
  ⟨env, U, w0, w4, _, 1100, rotArgs 40 none none (some 1), rotArgs 50 none none none, laws, noColl, start, h4, fit_of (by decide +kernel) (by decide +kernel),
    ⟨rfl, rfl, rfl, rfl, rfl, rfl⟩, ok_ex (by decide +kernel), err_ex (by decide +kernel), err_ex (by decide +kernel)⟩

end Verif.Hab.DemoHab
