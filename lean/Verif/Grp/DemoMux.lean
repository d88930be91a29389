import Verif.Grp.PropsMuxAll

/-!
# Concrete messages: cases that meet the hypotheses, and what goes wrong
-/

namespace Verif.Mux.Demo

open Verif.Kel (Id Dig)

/-- Own identifiers: member 2 of group 1. Others: member 3, outsider 9. -/
def env : Env := ⟨fun c => c + 1000, fun p => decide (p = 2) || decide (p = 1)⟩

/-- The event that is proposed. -/
def rot : Child := ⟨.rot, 1007, 7⟩
/-- Another one. -/
def evil : Child := ⟨.rot, 1008, 8⟩
/-- No message. -/
def junk : Child := ⟨.other, 0, 0⟩

/-- Own message, that of member 3, of the first version; that of member 3, of the second version, about the event itself. -/
def own : Body := ⟨50, 2, false, .rot, some 500, [rot], none, some [2, 3], some [2, 3], some 1⟩
def peer : Body := ⟨60, 3, false, .rot, some 500, [rot], none, some [2, 3], some [2, 3], some 1⟩
def own2 : Body := ⟨51, 2, true, .rot, none, [], some 1007, some [2, 3], some [2, 3], some 1⟩
def peer2 : Body := ⟨61, 3, true, .rot, none, [], some 1007, some [2, 3], some [2, 3], some 1⟩
/-- Messages of an outsider that name what was proposed. -/
def out : Body := ⟨90, 9, false, .rot, some 500, [evil], none, some [2, 3], some [2, 3], some 1⟩
def bad : Body := ⟨91, 9, false, .rot, some 500, [junk], none, some [2, 3], some [2, 3], some 1⟩

/-- In either order. -/
def is1 : List Inp := [.deliver peer [], .submit own, .deliver own2 [rot], .deliver peer2 [rot]]

theorem came1 {b : Body} {n : List Child} (h : Came is1 b n) : (b = peer ∧ n = []) ∨ (b = own ∧ n = []) ∨ (b = own2 ∧ n = [rot]) ∨ (b = peer2 ∧ n = [rot]) := by
  obtain ⟨i, hi, hb⟩ := h
  simp only [is1, List.mem_cons, List.not_mem_nil, or_false] at hi
  rcases hi with rfl | rfl | rfl | rfl
  · exact .inl ⟨hb.1.symm, hb.2.symm⟩
  · exact .inr (.inl ⟨hb.1.symm, hb.2⟩)
  · exact .inr (.inr (.inl ⟨hb.1.symm, hb.2.symm⟩))
  · exact .inr (.inr (.inr ⟨hb.1.symm, hb.2.symm⟩))

theorem distinct1 : Distinct is1 := by
  intro b n b' n' h h' e
  rcases came1 h with h | h | h | h <;> rcases came1 h' with h' | h' | h' | h' <;> obtain ⟨rfl, rfl⟩ := h <;> obtain ⟨rfl, rfl⟩ := h' <;> first | rfl | exact absurd e (by decide)

theorem smooth1 : Smooth env World.start is1 :=
  ⟨by decide +kernel, ⟨by decide +kernel, by decide +kernel⟩, by decide +kernel, by decide +kernel, trivial⟩

/-- C144, C145: both copies have been replayed. -/
example : (run env World.start is1).replayed = [rot, rot] := by decide +kernel
example : Came is1 peer [] ∧ validate env peer [] = .names 500 ∧ env.own peer.sender = false ∧ Came is1 own [] ∧ validate env own [] = .names 500 ∧ env.own own.sender = true ∧
    stored (run env World.start is1) peer.said = [rot] :=
  ⟨⟨_, List.mem_cons_self, rfl, rfl⟩, by decide +kernel, by decide +kernel, ⟨.submit own, by simp [is1], rfl, rfl⟩, by decide +kernel, by decide +kernel, by decide +kernel⟩
example : Came is1 peer2 [rot] ∧ validate env peer2 [rot] = .names 1007 ∧ (∀ n, Came is1 peer2 n → n = [rot]) ∧ stored (run env World.start is1) peer2.said = [rot] := by
  refine ⟨⟨.deliver peer2 [rot], by simp [is1], rfl, rfl⟩, by decide +kernel, fun n h => ?_, by decide +kernel⟩
  rcases came1 h with ⟨h, _⟩ | ⟨h, _⟩ | ⟨h, _⟩ | ⟨_, h⟩
  · exact absurd h (by decide)
  · exact absurd h (by decide)
  · exact absurd h (by decide)
  · exact h
/-- C146: the controller was told of the first one. -/
example : (run env World.start is1).notes = [⟨.rot, 60, none⟩] := by decide +kernel
example : validate env peer [] = .names 500 ∧ env.own peer.sender = false ∧ ∀ p ∈ World.start.maids 500, env.own p = false := ⟨by decide +kernel, rfl, by simp [World.start]⟩
/-- A message of the second version with another event is refused, as is an own one without nested messages. -/
example : validate env peer2 [evil] = .refused ∧ validate env own2 [] = .refused := by decide +kernel

/-! ## What goes wrong -/

/-- A message from an identifier that is no member, which names what an own identifier has proposed, makes another event be replayed: one that no own message wraps. -/
theorem c144_other : ∃ (env : Env) (is : List Inp) (c : Child) (out : Body), Came is out [] ∧ (∀ l, out.smids = some l → out.sender ∉ l) ∧ (∀ l, out.rmids = some l → out.sender ∉ l) ∧ c ∈ out.kids ∧
    c.sound env = true ∧ c ∈ (run env World.start is).replayed ∧ ∀ b n, Came is b n → env.own b.sender = true → c ∉ n ∧ c ∉ b.kids := by
  refine ⟨env, [.submit own, .deliver out []], evil, out, ⟨.deliver out [], by simp, rfl, rfl⟩, ?_, ?_, by decide +kernel, by decide +kernel, by decide +kernel, ?_⟩
  · intro l h; injection h with h; subst h; decide
  · intro l h; injection h with h; subst h; decide
  · rintro b n ⟨i, hi, hb⟩ ho
    simp only [List.mem_cons, List.not_mem_nil, or_false] at hi
    rcases hi with rfl | rfl
    · obtain ⟨rfl, rfl⟩ := hb; decide
    · obtain ⟨rfl, rfl⟩ := hb; exact absurd ho (by decide)

/-- The message of a member comes again with another event attached, which that member did not sign: it is replayed. -/
theorem c144_attached : ∃ (env : Env) (is : List Inp) (b : Body) (n : List Child) (c : Child), Came is b [] ∧ Came is b n ∧ c ∈ n ∧ (∀ b' n', Came is b' n' → c ∉ b'.kids) ∧
    c ∈ (run env World.start is).replayed := by
  refine ⟨env, [.submit own, .deliver peer [], .deliver peer [evil]], peer, [evil], evil, ⟨.deliver peer [], by simp, rfl, rfl⟩, ⟨.deliver peer [evil], by simp, rfl, rfl⟩, by simp, ?_, by decide +kernel⟩
  rintro b n ⟨i, hi, hb⟩
  simp only [List.mem_cons, List.not_mem_nil, or_false] at hi
  rcases hi with rfl | rfl | rfl <;> obtain ⟨rfl, rfl⟩ := hb <;> decide

/-- A message that wraps what is no message, sent by anybody before an own identifier makes the proposal, makes the own call raise an exception, each time. The proposal is never
taken for approved: what members send is not replayed. -/
theorem c145_blocked : ∃ (env : Env) (bad own peer : Body) (w : World), w = World.start.step env (.deliver bad []) ∧ env.own own.sender = true ∧ env.own peer.sender = false ∧
    validate env own [] = .names 500 ∧ validate env peer [] = .names 500 ∧ (submit env w own).2 = false ∧ (submit env (w.step env (.submit own)) own).2 = false ∧
    (run env w [.submit own, .submit own, .deliver peer []]).replayed = [] ∧ stored (run env w [.submit own, .submit own, .deliver peer []]) peer.said ≠ [] := by
  refine ⟨env, bad, own, peer, _, rfl, ?_, ?_, ?_, ?_, ?_, ?_, ?_, ?_⟩ <;> decide +kernel

/-- The process stops when a message has been stored but is not known yet: it is not replayed when the proposal is made, and the controller was not told. -/
theorem c145_crash : ∃ (env : Env) (peer own : Body) (n : Nat) (is : List Inp), is = [.crashDeliver peer [] n, .submit own] ∧ validate env peer [] = .names 500 ∧ validate env own [] = .names 500 ∧
    stored (run env World.start is) peer.said ≠ [] ∧ (run env World.start is).replayed = [] ∧ (run env World.start is).notes = [] := by
  refine ⟨env, peer, own, 1, _, rfl, ?_, ?_, ?_, ?_, ?_⟩ <;> decide +kernel

end Verif.Mux.Demo
