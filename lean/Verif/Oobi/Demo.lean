import Verif.Oobi.Prov

/-! # C181–C187: cases and witnesses -/

namespace Verif.Oobi

open Verif.Krm

/-- URLs: 1 a witness's URL of identifier 100; 2 a schema with SAID 200; 3 hints the alias 31; 4 stands for 6 and 7; 5 contains `>`; 8 has a path of no
kind. Body 200 is the schema 200, body 40 the reply of identifier 100 about 6 and 7, body 41 that of identifier 101. -/
def env : Env where
  kind u := if u = 1 then .full 100 1 none else if u = 2 then .data 200 else if u = 4 then .full 100 2 none else if u = 8 then .none else .self
  name u := if u = 3 then some 31 else none
  splits u := u == 5
  http _ := true
  schemer b := if b = 200 then some 200 else none
  reply b := if b = 40 then .multi 100 [6, 7] else if b = 41 then .multi 101 [6, 7] else .bad

def up : Url → Bool := fun _ => true

/-- A case: a URL is asked for with an alias and a schema is asked for; both are answered. -/
def history : List Step :=
  [.ask 1 { alias? := some 30, date := some 0 }, .ask 2 { date := some 0 }, .pass up 1, .answer 1 ⟨200, .cesr, none, 9⟩, .answer 2 ⟨200, .schema, none, 200⟩,
    .pass up 2]

example : Tab.get (run env {} history).schema 200 = some 200 ∧ Tab.get (run env {} history).contacts 100 = some (30, 1) ∧
    (Tab.get (run env {} history).roobi 1).map (·.state) = some (some .resolved) ∧ Tab.get (run env {} history).coobi 1 = none := by
  decide +kernel

example : Step.asks env 1 (.ask 1 { alias? := some 30, date := some 0 }) ∧ Step.asks env 5 (.introduce true 100 5 0) := ⟨rfl, rfl, rfl, rfl⟩

/-- The answers of the case are final, and their URLs requested. -/
example : Final env { said := some 200 } ⟨200, .schema, none, 200⟩ ∧ Final env { cid := some 100 } ⟨200, .json, none, 40⟩ ∧
    ¬ Final env { cid := some 100 } ⟨200, .json, none, 41⟩ ∧ ¬ Final env {} ⟨404, .other, none, 0⟩ := by
  refine ⟨⟨by decide, ?_⟩, ⟨by decide, ?_⟩, fun h => ?_, fun h => h.1 rfl⟩
  · intro aid urls _ hc; cases hc
  · intro aid urls _ _ _ hr
    have : Rep.multi 100 [6, 7] = .multi aid urls := hr
    injection this with h1 h2
    subst h1; rfl
  · have := h.2 101 [6, 7] rfl rfl (by decide) (by decide)
    cases this

/-- **C181 fails** where no client can be made for the URL: it is dropped, without a result, without a cue. -/
theorem c181_dropped : run env {} [.ask 1 {}, .pass (fun _ => false) 1] = {} := by decide +kernel

/-- **C182 fails** as the answer to a URL asked for again: the first answer failed, the second is that the URL is resolved; the cue says so, and what is
recorded is still that it failed. -/
theorem c182_old :
    let w := run env {} [.ask 1 {}, .pass up 1, .answer 1 ⟨500, .other, none, 0⟩, .pass up 2, .ask 1 {}, .pass up 3, .answer 1 ⟨200, .cesr, none, 9⟩, .pass up 4]
    (Tab.get w.roobi 1).map (·.state) = some (some .failed) ∧ w.cues = [(some .failed, 1), (some .resolved, 1)] ∧ w.parsed = [9] := by decide +kernel

/-- A URL that is resolved is requested again when it is asked for again: `and` stands in the test where `or` is meant. -/
theorem c182_again :
    let w := run env {} [.ask 1 {}, .pass up 1, .answer 1 ⟨200, .cesr, none, 9⟩, .pass up 2, .ask 1 {}, .pass up 3]
    (Tab.get w.roobi 1).map (·.state) = some (some .resolved) ∧ Tab.get w.clients 1 = some [] ∧ (Tab.get w.coobi 1).isSome = true := by decide +kernel

/-- A URL with `>` stops all others: the hypotheses of `c183_stuck` are met by one step. -/
example : env.splits 5 = true ∧ (Tab.get (run env {} [.introduce true 100 5 0]).oobis 5).isSome = true ∧
    (flows env up 1 (run env {} [.introduce true 100 5 0])).2 = some .valueError := by decide +kernel

/-- **C183 fails** for answers without `Content-Type`: the pass raises, and the next passes have nothing more to take: the URL is requested for ever. -/
theorem c183_untyped :
    let w := run env {} [.ask 1 {}, .pass up 1, .answer 1 ⟨200, .missing, none, 9⟩]
    (flows env up 2 w).2 = some .keyError ∧
    (let w := run env w [.pass up 2, .pass up 3]
     (Tab.get w.coobi 1).isSome = true ∧ Tab.get w.clients 1 = some [] ∧ Tab.get w.roobi 1 = none ∧ w.cues = []) := by decide +kernel

/-- **C183 fails** for a reply about several URLs that names another identifier: the cue has no state, and the URL is requested for ever. -/
theorem c183_foreign :
    let w := run env {} [.ask 4 {}, .pass up 1, .answer 4 ⟨200, .json, none, 41⟩, .pass up 2, .pass up 3]
    (Tab.get w.coobi 4).isSome = true ∧ Tab.get w.clients 4 = some [] ∧ Tab.get w.roobi 4 = none ∧ Tab.get w.moobi 4 = none ∧ w.cues = [(none, 4)] := by
  decide +kernel

/-- A URL of which the path is of no kind waits for ever: a pass changes nothing. -/
theorem c183_unmatched : run env {} [.ask 8 {}, .pass up 1, .pass up 2] = run env {} [.ask 8 {}] := by decide +kernel

/-- A schema served as `application/json` is taken, and nobody is told. -/
theorem c184_silent :
    let w := run env {} [.ask 2 {}, .pass up 1, .answer 2 ⟨200, .json, none, 200⟩, .pass up 2]
    Tab.get w.schema 200 = some 200 ∧ (Tab.get w.roobi 2).map (·.state) = some (some .resolved) ∧ w.cues = [] := by decide +kernel

/-- **C185 fails** as what contacts are called: a controller calls identifier 100 by the alias 30. It asks for another URL with the alias 32, and its server
answers that the identifier is 100: it is now called 32, and the URL recorded for it is that of the server. -/
theorem c185_hijacked :
    let w := run env {} [.ask 1 { alias? := some 30 }, .pass up 1, .answer 1 ⟨200, .cesr, none, 9⟩, .pass up 2]
    Tab.get w.contacts 100 = some (30, 1) ∧
    Tab.get (run env w [.ask 9 { alias? := some 32 }, .pass up 3, .answer 9 ⟨200, .cesr, some 100, 9⟩, .pass up 4]).contacts 100 = some (32, 9) := by
  decide +kernel

/-- **C185 fails** for what the operator never named: an introduction by a peer, of a URL that hints an alias, gives it to any identifier its server names. -/
theorem c185_unasked :
    let w := run env {} [.ask 1 { alias? := some 30 }, .pass up 1, .answer 1 ⟨200, .cesr, none, 9⟩, .pass up 2]
    Tab.get (run env w [.introduce true 102 3 0, .pass up 3, .answer 3 ⟨200, .cesr, some 100, 9⟩, .pass up 4]).contacts 100 = some (31, 3) := by
  decide +kernel

/-- A case of `c186_multi`: the URL 4 stands for 6 and 7, the answer to 7 is a failure, and so is that of 4. -/
example :
    let w := run env {} [.ask 4 {}, .pass up 1, .answer 4 ⟨200, .json, none, 40⟩, .pass up 2, .pass up 3, .answer 6 ⟨200, .cesr, none, 9⟩, .pass up 4]
    let w' := run env w [.answer 7 ⟨500, .other, none, 0⟩, .pass up 5]
    (Tab.get w.moobi 4).map (·.urls) = some [6, 7] ∧ (Tab.get w.roobi 6).isSome = true ∧ Tab.get w.roobi 4 = none ∧
    (Tab.get w'.roobi 4).map (·.state) = some (some .failed) := by decide +kernel

/-- **C187 fails** for statuses of success other than 200, and for those below it. -/
theorem c187_statuses : (mfa 204).2 = .failed ∧ (mfa 302).2 = .failed ∧ (mfa 100).2 = .resolved := by decide

end Verif.Oobi
