import Verif.Krm.PropsReplay
import Verif.Krm.PropsPrune
import Verif.Krm.PropsSettings
import Verif.Krm.PropsGather

/-!
# Examples of histories, and histories in which messages are handed on twice
-/

namespace Verif.Krm.Demo

open Verif.Thold (Thold)
open Verif.Kel (Id Dig Sig)

instance instDecidableAlong (P : Krm → Prop) [DecidablePred P] : ∀ (l : List Step) (k : Krm), Decidable (Along P k l)
  | [], k => inferInstanceAs (Decidable (P k))
  | a :: l, k => @instDecidableAnd _ _ (inferInstanceAs (Decidable (P k))) (instDecidableAlong P l (step k a))

instance (ct : Tab Ctype Rec) : DecidablePred (Settings ct) := fun k => by unfold Settings; infer_instance
instance (m : Msg) : DecidablePred (Guards m) := fun k => by unfold Guards; infer_instance
instance (m : Msg) : DecidablePred (NotWaiting m) := fun k => by unfold NotWaiting; infer_instance
instance instDecidableClock : ∀ (l : List Step) (t : Int), Decidable (Clock t l)
  | [], _ => inferInstanceAs (Decidable True)
  | a :: l, t => @instDecidableAnd _ _ (inferInstanceAs (Decidable (t ≤ a.now))) (instDecidableClock l a.now)
instance (m : Msg) (l : List Step) : Decidable (Binds m l) := by unfold Binds; infer_instance
instance (l : List Step) : Decidable (BindsAll l) := by unfold BindsAll; infer_instance
instance (m : Msg) (t : Int) (l : List Step) : Decidable (Arrived m t l) := by unfold Arrived; infer_instance
instance (s : Id) (x : Dig) (t : Int) (l : List Step) : Decidable (Begins s x t l) := by unfold Begins; infer_instance

/-- Identifier 1 has one key, identifier 2 has two and needs both.  A signature is the number of the key with the digest of the message. -/
def env : Env where
  verify key raw m := decide (raw = 1000 * key + m.said)
  transferable _ := true
  kevers i := if i = 1 then some ⟨0, 100, [11], .num 1⟩ else if i = 2 then some ⟨3, 203, [21, 22], .num 2⟩ else none
  kels i n := if i = 2 ∧ n = 4 then some 204 else none
  seals i d := if i = 2 ∧ d = 204 then some [8] else none

/-- The settings used in tests/app/test_grouping.py. -/
def std : Rec := ⟨1000, 5000, 60000, 300000, 5000, 60000, 300000⟩
def conf : Tab Ctype Rec := [(.any, std)]
def k0 : Krm := { cf := conf, ctyp := conf }

def rpy : Ilk := ['r', 'p', 'y']
def sec : Int := 1000000

/-- A reply of identifier 1, and of identifier 2. -/
def m1 : Msg := ⟨1, 7, rpy, some ['/', 'x'], some (100 * sec), (1, 0), none⟩
def m2 : Msg := ⟨2, 8, rpy, none, some (100 * sec), (1, 0), none⟩
def sig (key i d : Nat) : Sig := ⟨0, i, some i, 1000 * key + d⟩
def by1 : Kwa := { sigers := [sig 11 0 7] }
def a2 : Kwa := { sigers := [sig 21 0 8] }
def b2 : Kwa := { sigers := [sig 22 1 8] }
def ab2 : Kwa := { sigers := [sig 21 0 8, sig 22 1 8] }
def sealed2 : Kwa := { sscs := [(4, 204)] }

theorem single (m : Msg) (h : m.sender = 1) (l : List Step) (hl : ∀ x ∈ delivered l, x.1 = env) : SingleKey m l := by
  intro x hx _ ks hk
  rw [hl x hx, h] at hk
  have : (some ⟨0, 100, [11], .num 1⟩ : Option Ks) = some ks := hk
  injection this with this
  subst this
  rfl

/-- Delivered, delivered again, pruned, restarted, delivered again when it is too old. -/
def h1 : List Step :=
  [.deliver env (101 * sec) m1 by1, .deliver env (102 * sec) m1 by1, .prune (103 * sec), .deliver env (104 * sec) m1 by1, .restart (105 * sec) true [] conf,
    .deliver env (105 * sec) m1 by1, .prune (107 * sec), .deliver env (108 * sec) m1 by1]

example : Fresh k0 ∧ validCf conf = true ∧ exId m1 = none ∧ Along (Settings conf) k0 h1 ∧ Clock 0 h1 ∧ Binds m1 h1 ∧ Along (Guards m1) k0 h1 ∧ SingleKey m1 h1 ∧
    passes 1 7 k0 h1 = 1 :=
  ⟨⟨rfl, rfl, rfl, rfl, rfl⟩, by decide +kernel, by decide +kernel, by decide +kernel, by decide +kernel, by decide +kernel, by decide +kernel,
    single m1 rfl h1 (by intro x hx; simp [h1, delivered] at hx; rcases hx with h | h | h | h | h <;> rw [h]), by decide +kernel⟩

/-- Signatures that arrive together. -/
def wide : Tab Ctype Rec := [(.any, ⟨1000, 5000, 60000, 300000, 60000, 60000, 300000⟩)]
def h2 : List Step := [.deliver env (101 * sec) m2 sealed2, .prune (110 * sec), .deliver env (111 * sec) m2 ab2]

example : (∀ r, fetch wide m2 = .ok r → r.ll ≤ r.psl) ∧ Along (Settings wide) { cf := wide, ctyp := wide } h2 ∧ Clock 0 h2 ∧ Binds m2 h2 ∧
    Along (Guards m2) { cf := wide, ctyp := wide } h2 ∧ Along (NotWaiting m2) { cf := wide, ctyp := wide } h2 ∧ passes 2 8 { cf := wide, ctyp := wide } h2 = 1 :=
  ⟨by intro r h; have : (Except.ok ⟨1000, 5000, 60000, 300000, 60000, 60000, 300000⟩ : Except Exn Rec) = .ok r := h; injection this with this; subst this; decide,
    by decide +kernel, by decide +kernel, by decide +kernel, by decide +kernel, by decide +kernel, by decide +kernel⟩

/-- An exchange: a message begins it and another belongs to it. -/
def x1 : Msg := ⟨1, 50, xip, some ['/', 'x'], some (100 * sec), (2, 0), none⟩
def x2 : Msg := ⟨1, 51, exn, some ['/', 'x'], some (120 * sec), (2, 0), some 50⟩
def byX1 : Kwa := { sigers := [sig 11 0 50] }
def byX2 : Kwa := { sigers := [sig 11 0 51] }
def h3 : List Step :=
  [.deliver env (101 * sec) x1 byX1, .prune (102 * sec), .deliver env (103 * sec) x1 byX1, .deliver env (121 * sec) x2 byX2, .deliver env (122 * sec) x2 byX2,
    .prune (401 * sec), .deliver env (402 * sec) x1 byX1, .deliver env (403 * sec) x2 byX2]

example : (∀ e ∈ conf, e.2.pxl = 300000 ∧ e.2.d + e.2.ll ≤ 300000) ∧ Along (Settings conf) k0 h3 ∧ Clock 0 h3 ∧ Binds x2 h3 ∧ Begins 1 50 (100 * sec) h3 ∧
    Along (Guards x2) k0 h3 ∧ Along (NotWaiting x2) k0 h3 ∧ Arrived x2 (120 * sec) h3 ∧ exId x2 = some 50 ∧ passes 1 51 k0 h3 = 1 :=
  ⟨by decide +kernel, by decide +kernel, by decide +kernel, by decide +kernel, by decide +kernel, by decide +kernel, by decide +kernel, by decide +kernel,
    by decide +kernel, by decide +kernel⟩

example : x1.ilk = xip ∧ (∀ r, fetch conf x1 = .ok r → r.d + r.ll ≤ r.pxl) ∧ Along (NotWaiting x1) k0 h3 ∧ Arrived x1 (100 * sec) h3 ∧ passes 1 50 k0 h3 = 1 :=
  ⟨rfl, by intro r h; have : (Except.ok std : Except Exn Rec) = .ok r := h; injection this with this; subst this; decide,
    by decide +kernel, by decide +kernel, by decide +kernel⟩

/-- Settings that become narrower. -/
def narrow : Tab Ctype Rec := [(.any, ⟨1000, 3000, 60000, 300000, 5000, 60000, 300000⟩)]
def h4 : List Step := [.deliver env (101 * sec) m1 by1, .change (102 * sec) narrow none, .prune (103 * sec), .deliver env (104 * sec) m1 by1]

example : List.Pairwise (fun r r' => r'.d + r'.sl ≤ r.d + r.sl) (inForce m1 k0 h4) ∧ (∀ r ∈ inForce m1 k0 h4, r.sl ≤ r.psl) ∧ inForce m1 k0 h4 ≠ [] ∧
    passes 1 7 k0 h4 = 1 := by decide +kernel

/-- C92, C93: signatures that arrive one after the other. -/
def h5 : List Step := [.deliver env (101 * sec) m2 a2]

example : BindsAll (h5 ++ [.deliver env (150 * sec) m2 b2]) ∧ Guards m2 (run k0 h5) ∧ handed (run k0 h5) (.deliver env (150 * sec) m2 b2) = some m2 ∧
    handed k0 (.deliver env (101 * sec) m2 a2) = none := by decide +kernel

/-- C95: `rpy` instead of everything is a hole; `~` instead of `rpy` is none. -/
example : (changeConfig 0 k0 [(.typ rpy, std)] none).2 = .error .kram ∧
    (changeConfig 0 { cf := [(.typ rpy, std)], ctyp := [(.typ rpy, std)] } conf none).2 = .ok () ∧
    fetch (changeConfig 0 { cf := [(.typ rpy, std)], ctyp := [(.typ rpy, std)] } conf none).1.ctyp m1 = .ok std := by decide +kernel

/-- C96: pruning drops what is out of its window and keeps the rest. -/
example : (prune (103 * sec) (run k0 h5)).pmkm.get (2, 8) = some m2 ∧ (prune (162 * sec) (run k0 h5)).pmkm.get (2, 8) = none ∧
    (prune (103 * sec) (run k0 h5)).msgc.get (2, 8) ≠ none ∧ (prune (162 * sec) (run k0 h5)).msgc.get (2, 8) = none := by decide +kernel

/-! ## Messages that are handed on twice -/

/-- C91: once signatures that arrived one after the other have satisfied the threshold, the message is handed on again with each delivery. -/
theorem c91_multi_replayed : ∃ l, Clock 0 l ∧ Binds m2 l ∧ Along (Guards m2) k0 l ∧ Along (Settings conf) k0 l ∧ validCf conf = true ∧ 1 < passes 2 8 k0 l :=
  ⟨[.deliver env (101 * sec) m2 a2, .deliver env (102 * sec) m2 b2, .deliver env (103 * sec) m2 b2, .deliver env (104 * sec) m2 a2], by decide +kernel⟩

/-- C91: accepted for a seal, dropped from the cache, accepted for signatures. -/
theorem c91_seal_replayed : ∃ l, Clock 0 l ∧ Binds m2 l ∧ Along (Guards m2) k0 l ∧ Along (Settings conf) k0 l ∧ validCf conf = true ∧ Along (NotWaiting m2) k0 l ∧
    1 < passes 2 8 k0 l :=
  ⟨[.deliver env (101 * sec) m2 sealed2, .prune (107 * sec), .deliver env (108 * sec) m2 ab2], by decide +kernel⟩

/-- C91: a message that begins an exchange and is stamped ahead of the clock, within the drift, is dropped from the cache at once. -/
theorem c91_ahead_replayed : ∃ l, Clock 0 l ∧ Binds x1 l ∧ Along (Guards x1) k0 l ∧ Along (Settings conf) k0 l ∧ validCf conf = true ∧ 1 < passes 1 50 k0 l :=
  ⟨[.deliver env (100 * sec - 500000) x1 byX1, .prune (100 * sec - 400000), .deliver env (100 * sec) x1 byX1], by decide +kernel⟩

/-- Exchanges begin with a cache type that keeps them longer. -/
def mixed : Tab Ctype Rec := [(.typ xip, ⟨0, 5000, 60000, 300000, 5000, 60000, 900000⟩), (.any, ⟨0, 5000, 60000, 300000, 5000, 60000, 300000⟩)]
def late : Msg := ⟨1, 52, exn, some ['/', 'x'], some (400 * sec), (2, 0), some 50⟩

/-- C91: a message at the end of an exchange is dropped from the cache while the exchange is still known. -/
theorem c91_late_replayed : ∃ l, Clock 0 l ∧ Binds late l ∧ Along (Guards late) { cf := mixed, ctyp := mixed } l ∧ Along (Settings mixed) { cf := mixed, ctyp := mixed } l ∧
    validCf mixed = true ∧ Arrived late (400 * sec) l ∧ Begins 1 50 (100 * sec) l ∧ 1 < passes 1 52 { cf := mixed, ctyp := mixed } l :=
  ⟨[.deliver env (101 * sec) x1 byX1, .deliver env (400 * sec) late { sigers := [sig 11 0 52] }, .prune (401 * sec), .deliver env (402 * sec) late { sigers := [sig 11 0 52] }],
    by decide +kernel⟩

/-! ## Changes of settings -/

def tight : Rec := ⟨0, 1000, 60000, 300000, 1000, 60000, 300000⟩
def loose : Rec := ⟨0, 5000, 60000, 300000, 5000, 60000, 300000⟩
def kt : Krm := { cf := [(.any, tight)], ctyp := [(.any, tight)] }

/-- C94: a wider window takes effect after the difference of the windows; what was accepted just before the change is out of the cache by then. -/
theorem c94_widened : ∃ l, Clock 0 l ∧ Binds m1 l ∧ Along (Guards m1) kt l ∧ 1 < passes 1 7 kt l :=
  ⟨[.deliver env (100 * sec) m1 by1, .change (100 * sec + 100000) [(.any, loose)] none, .prune (102 * sec), .deliver env (104 * sec + 200000) m1 by1], by decide +kernel⟩

/-- C94: a cache type that is removed exposes its messages to the window of a wider one at once. -/
theorem c94_removed : ∃ k l, Clock 0 l ∧ Binds m1 l ∧ Along (Guards m1) k l ∧ k.cf = k.ctyp ∧ 1 < passes 1 7 k l :=
  ⟨{ cf := [(.rte rpy ['/', 'x'], tight), (.typ rpy, loose)], ctyp := [(.rte rpy ['/', 'x'], tight), (.typ rpy, loose)] },
    [.deliver env (100 * sec) m1 by1, .prune (102 * sec), .change (102 * sec) [(.typ rpy, loose)] none, .deliver env (103 * sec) m1 by1], by decide +kernel⟩

/-- C94: a restart forgets that a change is waiting and applies it. -/
theorem c94_restarted : ∃ l, Clock 0 l ∧ Binds m1 l ∧ Along (Guards m1) kt l ∧ 1 < passes 1 7 kt l :=
  ⟨[.deliver env (100 * sec) m1 by1, .change (100 * sec + 100000) [(.any, loose)] none, .prune (102 * sec), .restart (102 * sec) true [] [(.any, loose)],
    .deliver env (103 * sec) m1 by1], by decide +kernel⟩

/-- C94: a change that is taken back before it takes effect takes effect still: messages are accepted for longer than they are kept. -/
theorem c94_taken_back : (reconcile (105 * sec) (run kt [.change (100 * sec) [(.any, loose)] none, .change (101 * sec) [(.any, tight)] none])).1.ctyp =
    [(.any, ⟨0, 5000, 60000, 300000, 1000, 60000, 300000⟩)] := by decide +kernel

/-- C94: if a cache type is removed while a change of it is waiting, every message is an error from then on. -/
theorem c94_stuck : ∃ k l, Along (Guards m1) k l ∧ k.cf = k.ctyp ∧ Fresh k ∧
    ∀ env now m kwa, 110 * sec ≤ now → (deliver env now (run k l) m kwa).2 = .error .attribute := by
  refine ⟨{ cf := [(.typ rpy, tight), (.any, tight)], ctyp := [(.typ rpy, tight), (.any, tight)] },
    [.change (100 * sec) [(.typ rpy, loose), (.any, tight)] none, .change (101 * sec) [(.any, tight)] none], by decide +kernel, rfl, ⟨rfl, rfl, rfl, rfl, rfl⟩, ?_⟩
  intro env now m kwa h
  have h1 : (run { cf := [(.typ rpy, tight), (.any, tight)], ctyp := [(.typ rpy, tight), (.any, tight)] }
      [.change (100 * sec) [(.typ rpy, loose), (.any, tight)] none, .change (101 * sec) [(.any, tight)] none]).pending = [(.typ rpy, ⟨5000, 60000, 300000, 100 * sec, 4000⟩)] := by
    decide +kernel
  have h2 : (run { cf := [(.typ rpy, tight), (.any, tight)], ctyp := [(.typ rpy, tight), (.any, tight)] }
      [.change (100 * sec) [(.typ rpy, loose), (.any, tight)] none, .change (101 * sec) [(.any, tight)] none]).ctyp.get (.typ rpy) = none := by
    decide +kernel
  unfold deliver reconcile
  rw [h1]
  unfold reconcileGo
  have h3 : 1000 * (4000 : Int) ≤ now - 100 * sec := by unfold sec at *; omega
  simp only [h3, if_true]
  rw [h2]

/-! ## What is handed on -/

def ks2 : Ks := ⟨3, 203, [21, 22], .num 2⟩

theorem attached_a2 {ks : Ks} {s : Sig} (h : Attached ks m2 a2 s) : s = sig 21 0 8 := by
  simpa [Attached, a2] using h

theorem attached_b2 {ks : Ks} {s : Sig} (h : Attached ks m2 b2 s) : s = sig 22 1 8 := by
  simpa [Attached, b2] using h

def h6 : List Step := h5 ++ [.deliver env (150 * sec) m2 b2]

theorem onePer6 : OnePerIndex (delivered h6) := by
  intro x hx ks _ s s' h1 _ h2 _ _
  have : x = (env, 101 * sec, m2, a2) ∨ x = (env, 150 * sec, m2, b2) := by simpa [h6, h5, delivered] using hx
  rcases this with h | h
  · rw [h] at h1 h2
    rw [attached_a2 h1, attached_a2 h2]
  · rw [h] at h1 h2
    rw [attached_b2 h1, attached_b2 h2]

/-- C92: a signature of each key, one after the other. -/
example : OnePerIndex (delivered (h5 ++ [.deliver env (150 * sec) m2 b2])) ∧ handed (run k0 h5) (.deliver env (150 * sec) m2 b2) = some m2 := ⟨onePer6, by decide +kernel⟩

def spoilt : Kwa := { sigers := [sig 11 0 7, sig 99 0 7], tsgs := [(1, 5, 55, [sig 11 0 7]), (2, 5, 55, [sig 11 0 7])] }

def kwaOf (o : Out) : Option Kwa := match o.2 with | .ok k => k | .error _ => none

/-- C100: what is not good of the sender's signatures is removed. -/
example : kwaOf (deliver env (101 * sec) k0 m1 spoilt) = some { sigers := [sig 11 0 7], tsgs := [(2, 5, 55, [sig 11 0 7])] } := by decide +kernel

/-- C100: a message with a seal goes on with whatever signatures are attached as the sender's. -/
theorem c100_sealed_unchecked : ∃ s, kwaOf (deliver env (101 * sec) k0 m2 { sealed2 with sigers := [s] }) = some { sealed2 with sigers := [s] } ∧
    ∀ ks, env.kevers 2 = some ks → ¬ Good env ks m2 s := by
  refine ⟨sig 99 0 8, by decide +kernel, ?_⟩
  intro ks h
  have : (some ks2 : Option Ks) = some ks := h
  injection this with this
  subst this
  rintro ⟨key, h1, h2⟩
  have h1 : some 21 = some key := h1
  injection h1 with h1
  subst h1
  revert h2
  decide +kernel

/-! ## Messages that are handed on -/

instance (now mdt : Int) (r : Rec) (long : Bool) : Decidable (InTime now mdt r long) := by unfold InTime; infer_instance
instance (m : Msg) (l : List Step) : Decidable (Unheard m l) := by unfold Unheard; infer_instance
instance (m : Msg) : Decidable (Lone m) := by unfold Lone; infer_instance

def ks1 : Ks := ⟨0, 100, [11], .num 1⟩

/-- C99: with a signature of the only key, with a seal, with signatures of all keys. -/
example : handed (run k0 []) (.deliver env (101 * sec) m1 by1) = some m1 :=
  c99_at_once (ct := conf) (r := std) (ks := ks1) (mdt := 100 * sec) (long := false) ⟨rfl, rfl, rfl, rfl, rfl⟩ (by decide +kernel) ⟨rfl, rfl⟩ (by decide +kernel) (by decide +kernel)
    rfl (by decide +kernel) rfl (.key (s := sig 11 0 7) (by rintro ⟨_, _, h, _⟩; simp [by1] at h) rfl (Or.inl (by simp [by1])) ⟨11, rfl, by decide +kernel⟩) (by decide +kernel)

example : handed (run k0 h1) (.deliver env (104 * sec) m2 sealed2) = some m2 :=
  c99_at_once (ct := conf) (r := std) (ks := ks2) (mdt := 100 * sec) (long := false) ⟨rfl, rfl, rfl, rfl, rfl⟩ (by decide +kernel) ⟨by decide +kernel, by decide +kernel⟩
    (by decide +kernel) (by decide +kernel) rfl (by decide +kernel) rfl (.sealed ⟨4, 204, by decide +kernel, rfl, [8], rfl, by simp [m2]⟩) (by decide +kernel)

example : handed (run k0 h1) (.deliver env (150 * sec) m2 ab2) = some m2 :=
  c99_at_once (ct := conf) (r := std) (ks := ks2) (mdt := 100 * sec) (long := true) ⟨rfl, rfl, rfl, rfl, rfl⟩ (by decide +kernel) ⟨by decide +kernel, by decide +kernel⟩
    (by decide +kernel) (by decide +kernel) rfl (by decide +kernel) rfl (.keys (ss := [sig 22 1 8, sig 21 0 8]) (by rintro ⟨_, _, h, _⟩; simp [ab2] at h) (by decide)
      (by rintro ⟨c, h, _⟩; simp [ab2] at h) (by decide +kernel) (by
        intro s
        constructor
        · intro h
          simp only [List.mem_cons, List.not_mem_nil, or_false] at h
          rcases h with rfl | rfl
          · exact ⟨Or.inl (by simp [ab2]), 22, rfl, by decide +kernel⟩
          · exact ⟨Or.inl (by simp [ab2]), 21, rfl, by decide +kernel⟩
        · rintro ⟨h | ⟨l, h, _⟩ | ⟨l, h, _⟩, _⟩
          · simp only [ab2, List.mem_cons, List.not_mem_nil, or_false] at h ⊢
            exact h.symm
          · simp [ab2] at h
          · simp [ab2] at h) (by decide +kernel)) (by decide +kernel)

/-- C99: the beginning of an exchange, and what follows. -/
example : handed (run k0 []) (.deliver env (101 * sec) x1 byX1) = some x1 :=
  c99_begin (ct := conf) (r := std) (ks := ks1) (mdt := 100 * sec) (long := false) ⟨rfl, rfl, rfl, rfl, rfl⟩ (by decide +kernel) (by decide +kernel) ⟨rfl, rfl⟩ (by decide +kernel) rfl
    rfl (by decide +kernel) rfl (.key (s := sig 11 0 50) (by rintro ⟨_, _, h, _⟩; simp [byX1] at h) rfl (Or.inl (by simp [byX1])) ⟨11, rfl, by decide +kernel⟩) (by decide +kernel)

example : handed (run k0 ([] ++ .deliver env (101 * sec) x1 byX1 :: [.prune (110 * sec), .deliver env (111 * sec) m1 by1])) (.deliver env (121 * sec) x2 byX2) = some x2 :=
  c99_follow (ct := conf) (ct0 := conf) (r := std) (r0 := std) (ks := ks1) (x0 := 100 * sec) (mdt := 120 * sec) (long := false) ⟨rfl, rfl, rfl, rfl, rfl⟩ (by decide +kernel)
    rfl rfl (by decide +kernel) ⟨rfl, rfl⟩ (by decide +kernel) (by decide +kernel) (by decide +kernel)
    (by intro t ht; have : t = 110 * sec := by simpa using ht
        subst this; decide) (by decide +kernel) ⟨by decide +kernel, by decide +kernel⟩ (by decide +kernel) (by decide +kernel) rfl (by decide +kernel) rfl
    (.key (s := sig 11 0 51) (by rintro ⟨_, _, h, _⟩; simp [byX2] at h) rfl (Or.inl (by simp [byX2])) ⟨11, rfl, by decide +kernel⟩) (by decide +kernel) (by decide)

/-- C99: signatures that arrive one after the other. -/
example : 1 ≤ passes 2 8 k0 h6 := by
  have hsent : ∀ s, Sent (delivered h6) ks2 m2 s ↔ s = sig 21 0 8 ∨ s = sig 22 1 8 := by
    intro s
    constructor
    · rintro ⟨x, hx, _, ks', _, _, h, _⟩
      have : x = (env, 101 * sec, m2, a2) ∨ x = (env, 150 * sec, m2, b2) := by simpa [h6, h5, delivered] using hx
      rcases this with e | e
      · rw [e] at h; exact Or.inl (attached_a2 h)
      · rw [e] at h; exact Or.inr (attached_b2 h)
    · rintro (rfl | rfl)
      · exact ⟨(env, 101 * sec, m2, a2), by simp [h6, h5, delivered], rfl, ks2, rfl, rfl, Or.inl (by simp [a2]), 21, rfl, by decide +kernel⟩
      · exact ⟨(env, 150 * sec, m2, b2), by simp [h6, h5, delivered], rfl, ks2, rfl, rfl, Or.inl (by simp [b2]), 22, rfl, by decide +kernel⟩
  refine c99_gathered (m := m2) (ct := conf) (r := std) (ks := ks2) (mdt := 100 * sec) (is := [0, 1]) ⟨rfl, rfl, rfl, rfl, rfl⟩ (by decide +kernel) (by decide +kernel) (by decide +kernel)
    (by decide +kernel) rfl (by decide +kernel) (by decide) ?_ onePer6 (by intro t ht; simp [h6, h5] at ht) (by decide) ?_ (by decide +kernel)
  · intro x hx _
    have : x = (env, 101 * sec, m2, a2) ∨ x = (env, 150 * sec, m2, b2) := by simpa [h6, h5, delivered] using hx
    rcases this with rfl | rfl
    · exact ⟨rfl, by simp [HasSeal, a2], by simp [OwnSig, a2], by decide +kernel⟩
    · exact ⟨rfl, by simp [HasSeal, b2], by simp [OwnSig, b2], by decide +kernel⟩
  · intro i
    simp only [hsent]
    constructor
    · intro h
      simp only [List.mem_cons, List.not_mem_nil, or_false] at h
      rcases h with rfl | rfl
      · exact ⟨_, Or.inl rfl, rfl⟩
      · exact ⟨_, Or.inr rfl, rfl⟩
    · rintro ⟨s, rfl | rfl, rfl⟩ <;> decide

/-- C99: replies to `/x` are exempt. -/
example : deliver env 0 { k0 with denials := ["BAA.rpy./".toList] } m1 {} = ({ k0 with denials := ["BAA.rpy./".toList] }, .ok (some {})) :=
  c99_exempt (v := "BAA".toList) rfl (by decide +kernel) (Or.inr ⟨_, List.mem_singleton.2 rfl, ['x'], by decide +kernel⟩)

/-! ## Changes -/

/-- C98: a wider window. -/
example : validCf kt.cf = true ∧ kt.pending = [] ∧ (changeConfig 0 kt [(.any, loose)] none).2 = .ok () ∧ (∀ e ∈ [(Ctype.any, loose)], e.2.xl ≤ 300000) := by decide +kernel

/-- C98: the drift of a cache type that is there is not changed by a change of settings. -/
theorem c98_drift_kept : ∃ k new k', validCf k.cf = true ∧ k.pending = [] ∧ OneEach new ∧ changeConfig 0 k new none = (k', .ok ()) ∧ (new.get .any).map Rec.d = some 2000 ∧
    ∀ t, ((reconcile t k').1.ctyp.get .any).map Rec.d = some 1000 := by
  refine ⟨k0, [(.any, { std with d := 2000 })], { cf := [(.any, { std with d := 2000 })], ctyp := conf }, by decide +kernel, rfl, by unfold OneEach; decide, rfl, rfl, fun t => rfl⟩

/-- C98: a cache type that is no longer configured is in force after a restart. -/
theorem c98_left_over : ∃ k cf k', validCf cf = true ∧ open_ k true [] cf = .ok k' ∧ cf.get (.typ rpy) = none ∧ fetch cf m1 = .ok std ∧ fetch k'.ctyp m1 = .ok tight :=
  ⟨{ cf := [(.any, std), (.typ rpy, tight)], ctyp := [(.any, std), (.typ rpy, tight)] }, conf, { cf := conf, ctyp := [(.any, std), (.typ rpy, tight)] }, by decide +kernel, rfl, rfl,
    by decide +kernel, by decide +kernel⟩

/-- C92: as everywhere, a number as threshold counts signatures, not keys: one key signs twice with different codes. -/
example : handed k0 (.deliver env (101 * sec) m2 { sigers := [⟨0, 0, some 0, 21008⟩, ⟨1, 0, some 0, 21008⟩] }) = some m2 := by decide +kernel

end Verif.Krm.Demo
