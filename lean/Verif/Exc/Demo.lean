import Verif.Exc.PropsIpex
import Verif.Exc.PropsRead
import Verif.Exc.PropsNest

/-!
# Histories of peer to peer messages

Identifier 1 has the key 11 and later 12; identifier 2 has the keys 21 and 22, of which both are needed; identifier 3 has the key 31.  Identifier 5 is
the name of its first key, which has been replaced by 52.  The signature of a key on a message is `1000 * key + said`.
-/

namespace Verif.Exc.Demo

open Verif.Thold (Thold)
open Verif.Kel (Id Dig Sig)
open Verif.Krm (Tab)

def keyset (i : Id) (sn : Nat) : Option (Dig × Option (List Id × Thold)) :=
  match i, sn with
  | 1, 0 => some (100, some ([11], .num 1))
  | 1, 1 => some (101, some ([12], .num 1))
  | 2, 0 => some (200, some ([21, 22], .num 2))
  | 3, 0 => some (300, some ([31], .num 1))
  | 5, 0 => some (500, some ([5], .num 1))
  | 5, 1 => some (501, some ([52], .num 1))
  | _, _ => none

def env : Env where
  verify k raw m := decide (raw = 1000 * k + m.said)
  transferable _ := true
  sn i := match i with
    | 1 => some 1
    | 2 => some 0
    | 3 => some 0
    | 5 => some 1
    | _ => none
  evt := keyset
  essrOk d l := decide (l.sum = d)

def msg (said sender : Nat) (route : String) (prior : Option Dig := none) : Msg :=
  { said := said, sender := sender, route := route.toList, prior := prior, essr := none, acdc := none, iss := none, anc := none, body := 0 }

/-- A signature by a key. -/
def sig (k i : Nat) (m : Msg) : Sig := { code := 0, index := i, ondex := none, raw := 1000 * k + m.said }

def q1 : Quad := (1, 1, 101)
def q2 : Quad := (2, 0, 200)
def q3 : Quad := (3, 0, 300)

def by1 (m : Msg) : Att := { tsgs := [(q1, [sig 12 0 m])] }
def by3 (m : Msg) : Att := { tsgs := [(q3, [sig 31 0 m])] }
def by2 (is : List Nat) (m : Msg) : Att := { tsgs := [(q2, is.map (fun i => sig (21 + i) i m))] }

def sec (n : Int) : Int := 1000000 * n

def come (now : Int) (m : Msg) (a : Att) : Step := .deliver env (sec now) m a
def look (now : Int) : Step := .pass env (sec now)

/-- Both handlers, for all routes of the protocol; other routes have a handler that only takes note. -/
def with1 : Routes := fun r => if (ipexVerb r).isSome then some ipex1 else if r = "/note".toList then some ⟨none, some (fun _ => .ok ())⟩ else none
def with2 : Routes := fun r => if (ipexVerb r).isSome then some ipex2 else if r = "/note".toList then some ⟨none, some (fun _ => .ok ())⟩ else none

theorem uses1 : Uses with1 ipex1 := by intro r v h; simp [with1, h]
theorem uses2 : Uses with2 ipex2 := by intro r v h; simp [with2, h]

def saved (e : Exc) : List Dig := e.exns.map Prod.fst

/-! ## C101, C102 -/

def note : Msg := msg 70 1 "/note"

/-- A message is saved, announced and handled. -/
example : (run with2 [come 0 note (by1 note)]).exns.get 70 = some note ∧
    (run with2 [come 0 note (by1 note)]).acts = [.saved 70, .handled note] := by decide +kernel

/-- Without signatures, or with those of someone else, it is not. -/
example : saved (run with2 [come 0 note {}, come 0 note (by3 note), come 0 note { cigars := [(3, 31070)] }, look 1]) = [] := by decide +kernel

/-- One of two signatures that are needed: it waits. -/
example : (run with2 [come 0 (msg 71 2 "/note") (by2 [0] (msg 71 2 "/note"))]).epse.get 71 = some (msg 71 2 "/note") ∧
    saved (run with2 [come 0 (msg 71 2 "/note") (by2 [0] (msg 71 2 "/note"))]) = [] := by decide +kernel

/-- **C101, not claimed: the keys need not be current.** A signature with a key that has been replaced is good for a message made afterwards. -/
theorem c101_old_key : ∃ m a, a.tsgs = [((1, 0, 100), [sig 11 0 m])] ∧ env.sn 1 = some 1 ∧ keyset 1 1 = some (101, some ([12], .num 1)) ∧
    (run with2 [come 0 m a]).exns.get m.said = some m :=
  ⟨note, { tsgs := [((1, 0, 100), [sig 11 0 note])] }, by decide +kernel⟩

/-- **C101, not claimed: nor need they be of the key event log at all.** An identifier that is the name of its first key signs with that key, without
index, after the key has been replaced. -/
theorem c101_first_key : ∃ m, m.sender = 5 ∧ env.transferable 5 = true ∧ env.sn 5 = some 1 ∧ keyset 5 1 = some (501, some ([52], .num 1)) ∧
    (run with2 [come 0 m { cigars := [(5, 1000 * 5 + m.said)] }]).exns.get m.said = some m :=
  ⟨msg 72 5 "/note", by decide +kernel⟩

/-- **C102, false of messages that open something**: one that comes again is handled again. -/
theorem c102_twice : (run with2 [come 0 (msg 80 1 "/ipex/apply") (by1 (msg 80 1 "/ipex/apply")), come 1 (msg 80 1 "/ipex/apply") (by1 (msg 80 1 "/ipex/apply"))]).acts =
    [.saved 80, .handled (msg 80 1 "/ipex/apply"), .saved 80, .handled (msg 80 1 "/ipex/apply")] := by decide +kernel

/-- An agreement to nothing is refused by its handler, whatever is stored. -/
example (l : List Step) : Act.handled (msg 81 1 "/ipex/agree") ∉ (run with2 l).acts :=
  (c102_veto with2 l (msg 81 1 "/ipex/agree") ipex2 verify2 (uses2 _ .agree (by decide +kernel)) rfl (fun env e nests => by
    have hv : ipexVerb (msg 81 1 "/ipex/agree").route = some .agree := by decide +kernel
    unfold verify2
    rw [hv]
    dsimp only
    rw [if_neg (by simp)]
    split
    · simp
    · simp [msg])).2

/-! ## C103, C104 -/

def apply : Msg := msg 80 1 "/ipex/apply"
def offer : Msg := { msg 81 3 "/ipex/offer" (some 80) with acdc := some 900 }
def agree : Msg := msg 82 1 "/ipex/agree" (some 81)
def grant : Msg := { msg 83 3 "/ipex/grant" (some 82) with acdc := some 900, iss := some 901, anc := some 902 }
def admit : Msg := msg 84 1 "/ipex/admit" (some 83)

def talk : List Step :=
  [come 0 apply (by1 apply), come 1 offer { by3 offer with nests := [900] }, come 2 agree (by1 agree),
    come 3 grant { by3 grant with nests := [900, 901, 902] }, come 4 admit (by1 admit)]

/-- A whole conversation. -/
example : saved (run with2 talk) = [80, 81, 82, 83, 84] := by decide +kernel

example : ∃ ms vs, Thread (run with2 talk).exns.get (admit :: ms) ∧ Speaks (admit :: ms) vs ∧ Legal [.apply, .offer, .agree] vs :=
  c103_thread2 uses2 talk (d := 84) (v := .admit) (by decide +kernel) (by decide +kernel)

example : ∃ x a, Came talk x a ∧ x.said = 83 ∧ ∀ n, n ∈ a.nests ↔ some n ∈ named grant .grant :=
  c114_nested uses2 talk (d := 83) (m := grant) (v := .grant) (by decide +kernel) (by decide +kernel)

example : named grant .grant = [some 900, some 901, some 902] := by decide

/-- An offer of one credential with two nested, and an agreement with one nested, are not saved. -/
example : saved (run with2 [come 0 apply (by1 apply), come 1 offer { by3 offer with nests := [900, 901] }]) = [80] ∧
    saved (run with2 (talk.take 2 ++ [come 2 agree { by1 agree with nests := [900] }])) = [80, 81] := by decide +kernel

/-- One who is not known is asked about once, however often one looks. -/
example : queries (run with2 [come 0 (msg 71 9 "/note") { tsgs := [((9, 0, 900), [sig 9 0 (msg 71 9 "/note")])] }, look 1, look 2]).acts = 1 := by
  decide +kernel

/-- A grant of something else than is nested, an answer to the wrong kind of message, and a second answer. -/
example : saved (run with2 (talk.take 3 ++ [come 3 grant { by3 grant with nests := [900, 901, 903] }])) = [80, 81, 82] ∧
    saved (run with2 (talk.take 3 ++ [come 3 (msg 85 1 "/ipex/admit" (some 82)) (by1 (msg 85 1 "/ipex/admit" (some 82)))])) = [80, 81, 82] ∧
    saved (run with2 (talk.take 3 ++ [come 3 (msg 85 1 "/ipex/spurn" (some 81)) (by1 (msg 85 1 "/ipex/spurn" (some 81)))])) = [80, 81, 82] := by decide +kernel

/-- The versions differ: only in the first can a grant be spurned. -/
theorem c103_spurned_grant : saved (run with1 [come 0 (msg 83 3 "/ipex/grant") (by3 (msg 83 3 "/ipex/grant")),
      come 1 (msg 86 1 "/ipex/spurn" (some 83)) (by1 (msg 86 1 "/ipex/spurn" (some 83)))]) = [83, 86] ∧
    saved (run with2 [come 0 { msg 83 3 "/ipex/grant" with acdc := some 900 } { by3 (msg 83 3 "/ipex/grant") with nests := [900] },
      come 1 (msg 86 1 "/ipex/spurn" (some 83)) (by1 (msg 86 1 "/ipex/spurn" (some 83)))]) = [83] := by decide +kernel

/-- **C103, false of the first version for other routes.** What is admitted need not have been granted: a message of any other route that ends in
"grant", which no handler has seen, will do. -/
theorem c103_foreign_route : ∃ p m, ipexVerb p.route = none ∧ with1 p.route = none ∧ ipexVerb m.route = some .admit ∧ m.prior = some p.said ∧
    (run with1 [come 0 p (by3 p), come 1 m (by1 m)]).exns.get m.said = some m :=
  ⟨msg 83 3 "/foo/grant", msg 84 1 "/ipex/admit" (some 83), by decide +kernel⟩

/-- **C104, not claimed: who answers.** Someone other than those in the conversation answers, and the one who was asked no longer can. -/
theorem c104_stranger : ∃ (g a b : Msg), g.sender = 3 ∧ a.sender = 2 ∧ b.sender = 1 ∧
    saved (run with1 [come 0 g (by3 g), come 1 a (by2 [0, 1] a), come 2 b (by1 b)]) = [g.said, a.said] ∧
    saved (run with1 [come 0 g (by3 g), come 2 b (by1 b)]) = [g.said, b.said] :=
  ⟨msg 83 3 "/ipex/grant", msg 87 2 "/ipex/admit" (some 83), msg 84 1 "/ipex/admit" (some 83), by decide +kernel⟩

/-- **C104, not claimed: that an answer is possible.** A message of another route, which no handler has seen, counts as the answer. -/
theorem c104_blocked : ∃ (g x b : Msg), with1 x.route = none ∧ x.prior = some g.said ∧
    saved (run with1 [come 0 g (by3 g), come 1 x (by2 [0, 1] x), come 2 b (by1 b)]) = [g.said, x.said] ∧
    saved (run with1 [come 0 g (by3 g), come 2 b (by1 b)]) = [g.said, b.said] :=
  ⟨msg 83 3 "/ipex/grant", msg 87 2 "/other" (some 83), msg 84 1 "/ipex/admit" (some 83), by decide +kernel⟩

/-! ## C105, C106 -/

def two : Msg := msg 71 2 "/note"

def parts : List Step := [come 0 two (by2 [0] two), come 2 note (by1 note), look 3, come 5 two (by2 [1] two)]

theorem plain2 : Plain with2 two := ⟨rfl, fun env e nests => by
  have : with2 two.route = some ⟨none, some (fun _ => .ok ())⟩ := by
    unfold with2
    rw [if_neg (by decide +kernel), if_pos (by decide +kernel)]
  rw [this]
  rfl⟩

theorem steady2 : Steady (parts ++ [look 8]) two q2 [21, 22] (.num 2) (fun k raw => decide (raw = 1000 * k + 71)) := by
  refine ⟨rfl, ?_, ?_, ?_⟩
  · intro x hx
    have henv : x.env = env := by
      simp only [parts, come, look, List.cons_append, List.nil_append, List.mem_cons, List.not_mem_nil, or_false] at hx
      rcases hx with rfl | rfl | rfl | rfl | rfl <;> rfl
    rw [henv]
    exact ⟨⟨0, rfl, Nat.le_refl _⟩, Or.inl ⟨rfl, rfl⟩, fun _ _ => rfl⟩
  · rintro m' a ⟨env', now', hx⟩ hs
    simp only [parts, come, look, List.cons_append, List.nil_append, List.mem_cons, List.not_mem_nil, or_false, Step.deliver.injEq, reduceCtorEq, false_or] at hx
    rcases hx with ⟨_, _, rfl, rfl⟩ | ⟨_, _, rfl, rfl⟩ | ⟨_, _, rfl, rfl⟩
    · exact ⟨rfl, by simp [by2], by simp [by2]⟩
    · exact absurd hs (by decide)
    · exact ⟨rfl, by simp [by2], by simp [by2]⟩
  · intro l1 env' now l2 hl env2 now2 a2 hx
    have hnow : now ≤ sec 8 := by
      have : Step.pass env' now ∈ parts ++ [look 8] := by rw [hl]; simp
      simp only [parts, come, look, List.cons_append, List.nil_append, List.mem_cons, List.not_mem_nil, or_false, reduceCtorEq, Step.pass.injEq, false_or] at this
      rcases this with ⟨_, rfl⟩ | ⟨_, rfl⟩ <;> decide
    have hthen : (0 : Int) ≤ now2 := by
      have : Step.deliver env2 now2 two a2 ∈ parts ++ [look 8] := by rw [hl]; exact List.mem_append_left _ hx
      simp only [parts, come, look, List.cons_append, List.nil_append, List.mem_cons, List.not_mem_nil, or_false, Step.deliver.injEq, reduceCtorEq, false_or] at this
      rcases this with ⟨_, rfl, _⟩ | ⟨_, rfl, _⟩ | ⟨_, rfl, _⟩ <;> decide
    simp only [sec] at hnow
    omega

/-- Two signatures that came separately. -/
example : (run with2 (parts ++ [look 8])).exns.get 71 = some two ∧ clone env (run with2 (parts ++ [look 8])) 71 = .ok (some two) := by
  have hss : ∀ s ∈ [sig 21 0 two, sig 22 1 two], CameSig parts two.said q2 s ∧ ∃ key, ([21, 22] : List Id)[s.index]? = some key ∧
      (fun k raw => decide (raw = 1000 * k + 71)) key s.raw = true := by
    intro s hs
    rcases List.mem_cons.1 hs with rfl | hs
    · exact ⟨⟨two, by2 [0] two, ⟨env, sec 0, by simp [parts, come]⟩, rfl, (q2, [sig 21 0 two]), by simp [by2], rfl, by simp⟩, 21, rfl, rfl⟩
    · rw [List.mem_singleton.1 hs]
      exact ⟨⟨two, by2 [1] two, ⟨env, sec 5, by simp [parts, come]⟩, rfl, (q2, [sig 22 1 two]), by simp [by2], rfl, by simp⟩, 22, rfl, rfl⟩
  refine ⟨c105_gather_partial with2 parts env (sec 8) two q2 [21, 22] (.num 2) _ steady2 plain2 (by simp) [sig 21 0 two, sig 22 1 two] (by decide) hss (by decide), ?_⟩
  refine c108_gathered_partial with2 parts env (sec 8) two q2 [21, 22] (.num 2) _ steady2 plain2 ?_ (by simp) [sig 21 0 two, sig 22 1 two] (by decide) hss (by decide)
  rintro a ⟨env', now', hx⟩
  simp only [parts, come, look, List.mem_cons, List.not_mem_nil, or_false, Step.deliver.injEq, reduceCtorEq, false_or] at hx
  rcases hx with ⟨_, _, _, rfl⟩ | ⟨_, _, _, rfl⟩ | ⟨_, _, _, rfl⟩ <;> rfl

/-- **C105, false if another event is named.** Anyone can deliver the message with a worthless signature that names a later event of the sender; then
it is not saved though both its signatures have come. -/
theorem c105_poisoned : ∃ junk : Att, saved (run with2 [come 0 two (by2 [0] two), come 1 two junk, come 2 two (by2 [1] two), look 3]) = [] ∧
    saved (run with2 [come 0 two (by2 [0] two), come 2 two (by2 [1] two), look 3]) = [71] :=
  ⟨{ tsgs := [((2, 9, 0), [⟨0, 0, none, 0⟩])] }, by decide +kernel⟩

/-- A message waits ten seconds and no longer. -/
example : (run with2 [come 0 two (by2 [0] two), look 10]).epse.get 71 = some two ∧ (run with2 [come 0 two (by2 [0] two), look 11]).epse.get 71 = none := by
  decide +kernel

/-- Signatures are kept when it no longer waits, so the rest of them is enough at any later time. -/
theorem c106_kept : (run with2 [come 0 two (by2 [0] two), look 11]).esigs.items 71 = [(q2, [sig 21 0 two])] ∧
    saved (run with2 [come 0 two (by2 [0] two), look 11, come 1000 two (by2 [1] two), look 1001]) = [71] := by decide +kernel

/-! ## C107 -/

def sealed : Msg := { msg 90 2 "/note" with essr := some 7 }

/-- The attachments have the digest, or not. -/
example : saved (run with2 [come 0 sealed { by2 [0, 1] sealed with essrs := [3, 4] }]) = [90] ∧
    saved (run with2 [come 0 sealed { by2 [0, 1] sealed with essrs := [3, 5] }, come 1 sealed (by2 [0, 1] sealed)]) = [] := by decide +kernel

example : WithEssr [come 0 sealed { by2 [0, 1] sealed with essrs := [3, 4] }] sealed 7 :=
  c107_essr with2 _ 90 sealed 7 (by decide +kernel) rfl

/-- **C107, not claimed: that such a message arrives.** It is lost if its signatures come one by one, though its contents came with each of them:
attachments are not kept with a message that waits. -/
theorem c107_lost : saved (run with2 [come 0 sealed { by2 [0] sealed with essrs := [3, 4] }, come 1 sealed { by2 [1] sealed with essrs := [3, 4] }, look 2]) = [] ∧
    (run with2 [come 0 sealed { by2 [0] sealed with essrs := [3, 4] }, come 1 sealed { by2 [1] sealed with essrs := [3, 4] }, look 2]).epse.get 90 = none := by
  decide +kernel

/-! ## C108 -/

theorem sane1 : Sane env := by
  rintro ⟨i, sn, d⟩ keys kt h cs rfl
  rcases h with ⟨_, h⟩ | ⟨_, _, h⟩
  · replace h : keyset i sn = some (d, some (keys, .wtd cs)) := h
    unfold keyset at h
    split at h <;> simp at h
  · exact absurd h (by simp)

/-- What has come once, with enough signatures, is read again. -/
example : clone env (run with2 [come 0 note (by1 note), come 9 note (by1 note)]) 70 = .ok (some note) := by
  refine c108_again_partial with2 _ env 70 note (by decide +kernel) ?_ sane1 ?_
  · rintro m' a ⟨env', now', hx⟩ _
    simp only [come, List.mem_cons, List.not_mem_nil, or_false, Step.deliver.injEq] at hx
    rcases hx with ⟨_, _, rfl, _⟩ | ⟨_, _, rfl, _⟩ <;> rfl
  · rintro a ⟨env', now', hx⟩
    simp only [come, List.mem_cons, List.not_mem_nil, or_false, Step.deliver.injEq] at hx
    rcases hx with ⟨_, _, _, rfl⟩ | ⟨_, _, _, rfl⟩ <;> exact ⟨by decide +kernel, by decide +kernel⟩

/-- **C108, false in general.** Anyone can make a saved message unreadable: by delivering it again with a worthless signature that names a later event of
its sender, or, having its signatures, with one without index that is not checked. -/
theorem c108_unreadable : ∃ junk junk' : Att, junk.tsgs = [((1, 9, 0), [⟨0, 0, none, 0⟩])] ∧ junk'.cigars = [(77, 0)] ∧
    clone env (run with2 [come 0 note (by1 note)]) 70 = .ok (some note) ∧
    clone env (run with2 [come 0 note (by1 note), come 1 note junk]) 70 = .error .missing ∧
    clone env (run with2 [come 0 note (by1 note), come 1 note junk']) 70 = .error .missing :=
  ⟨{ tsgs := [((1, 9, 0), [⟨0, 0, none, 0⟩])] }, { by1 note with cigars := [(77, 0)] }, by decide +kernel⟩

/-- **C108** So no one can answer it any longer. -/
theorem c108_no_answer : ∃ (g b : Msg) (junk : Att), junk.tsgs = [((3, 9, 0), [⟨0, 0, none, 0⟩])] ∧ b.prior = some g.said ∧
    saved (run with1 [come 0 g (by3 g), come 1 g junk, come 2 b (by1 b)]) = [g.said] ∧
    saved (run with1 [come 0 g (by3 g), come 2 b (by1 b)]) = [g.said, b.said] :=
  ⟨msg 83 3 "/ipex/grant", msg 84 1 "/ipex/admit" (some 83), { tsgs := [((3, 9, 0), [⟨0, 0, none, 0⟩])] }, by decide +kernel⟩

/-- **C108** The attachments of a saved message are those of its last delivery, good or not. -/
theorem c108_replaced : ∃ junk : Att, junk.tsgs = [((3, 9, 0), [⟨0, 0, none, 0⟩])] ∧
    (run with2 (talk ++ [come 5 grant junk])).enst.items 83 = [666] ∧ (run with2 talk).enst.items 83 = [900, 901, 902] :=
  ⟨{ tsgs := [((3, 9, 0), [⟨0, 0, none, 0⟩])], nests := [666] }, by decide +kernel⟩

end Verif.Exc.Demo
