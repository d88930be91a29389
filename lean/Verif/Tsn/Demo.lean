import Verif.Tsn.PropsKept
/-!
# Cases of notices of the state of registries and credentials

Identifier 1 has registry 100, without backers; identifier 2 has registry 200. Credential 50, of registry 100, was issued with event 500 and revoked with event 501.
-/

namespace Verif.Tsn.Demo

def tels : Id → Nat → Option Dig
  | 100, 0 => some 1000
  | 50, 0 => some 500
  | 50, 1 => some 501
  | _, _ => none

def view (now : Nat) : View Nat where
  lax := false
  wits := fun i => if i = 1 then some [7] else if i = 2 then some [] else none
  tev := fun r => if r = 100 then some ⟨1, 0, true, []⟩ else if r = 200 then some ⟨2, 0, true, []⟩ else none
  tels := tels
  wats := [8]
  now := now
  accept := fun _ l => some (!l.isEmpty)

/-- As before the events of the credential came. -/
def early : View Nat := { view 10 with tels := fun _ _ => none }

/-- As before the key events of identifier 1 came. -/
def keyless : View Nat := { view 10 with wits := fun _ => none }

/-- A notice of the registry from its controller. -/
def reg : Notice := ⟨90, false, 1, 100, 0, 1, 0, 1000, 0, true, [], 10⟩

/-- Notices of the credential from the controller: issued, then revoked. -/
def iss : Notice := ⟨91, true, 1, 50, 100, 0, 0, 500, 0, true, [], 10⟩
def rev : Notice := ⟨92, true, 1, 50, 100, 0, 1, 501, 0, true, [], 20⟩

/-- Of the registry, from identifier 2, that names itself backer; and of the credential, from identifier 2, that names its own registry. -/
def own : Notice := ⟨93, false, 2, 100, 0, 1, 0, 1000, 0, false, [2], 10⟩
def other : Notice := ⟨94, true, 2, 50, 200, 0, 0, 500, 0, true, [], 10⟩

abbrev e0 : Db Nat := Db.empty Nat

theorem recv_cons (i : Inp Nat) (h : List (Inp Nat)) (n : Notice) : Recv (i :: h) n ↔ (∃ v l, i = .notice v n l) ∨ Recv h n := by
  unfold Recv
  constructor
  · rintro ⟨v, l, hm⟩
    rcases List.mem_cons.mp hm with hm | hm
    · exact .inl ⟨v, l, hm.symm⟩
    · exact .inr ⟨v, l, hm⟩
  · rintro (⟨v, l, hm⟩ | ⟨v, l, hm⟩)
    · exact ⟨v, l, by simp [hm]⟩
    · exact ⟨v, l, by simp [hm]⟩

/-- The histories below have digests apart. -/
theorem apart_two (v w : View Nat) (l m : List Nat) : Apart [.notice v rev l, .notice w iss m] := by
  have hr : ∀ n, Recv [.notice v rev l, .notice w iss m] n → n = rev ∨ n = iss := by
    rintro n ⟨v', l', hm⟩
    simp only [List.mem_cons, List.not_mem_nil, or_false, Inp.notice.injEq] at hm
    grind
  constructor
  · intro n n' h1 h2
    rcases hr n h1 with rfl | rfl <;> rcases hr n' h2 with rfl | rfl <;> decide
  · intro n n' h1 h2
    rcases hr n h1 with rfl | rfl <;> rcases hr n' h2 with rfl | rfl <;> decide

theorem apart_one (v w : View Nat) (l : List Nat) : Apart ([.notice v iss l] ++ [.pass w]) := by
  have hr : ∀ n, Recv ([.notice v iss l] ++ [.pass w]) n → n = iss := by
    rintro n ⟨v', l', hm⟩
    simp only [List.cons_append, List.nil_append, List.mem_cons, List.not_mem_nil, or_false, Inp.notice.injEq] at hm
    grind
  constructor
  · intro n n' h1 h2
    rw [hr n h1, hr n' h2]
    exact fun _ => rfl
  · intro n n' h1 h2
    rw [hr n h1, hr n' h2]
    decide

/-- C228 and C229 as first put fail: identifier 2, which is not listened to about registry 100, has its notice of registry 100 saved, as it names itself backer. -/
theorem c228_not_controller : ¬ Heard (view 10) own.aid 1 true [] ∧ (view 10).tev own.key = some ⟨1, 0, true, []⟩ ∧
    ((e0.run [.notice (view 10) own [1]]).saved 100 2 = some 1000) := by
  refine ⟨?_, rfl, by decide +kernel⟩
  unfold Heard
  rw [if_pos rfl]
  rintro (h | h | h | ⟨w, h, hm⟩)
  · cases h
  · revert h; decide
  · revert h; decide
  · cases h
    revert hm
    decide

/-- And its notice of a credential of registry 100, as it names its own registry 200. -/
theorem c228_not_issuer : ¬ Heard (view 10) other.aid 1 true [] ∧ ((e0.run [.notice (view 10) other [1]]).saved 50 2 = some 500) := by
  refine ⟨?_, by decide +kernel⟩
  unfold Heard
  rw [if_pos rfl]
  rintro (h | h | h | ⟨w, h, hm⟩)
  · cases h
  · revert h; decide
  · revert h; decide
  · cases h
    revert hm
    decide

/-- C229 as first put fails: the notice that the credential is revoked is saved, and then replaced with the older one, of the same source, that it is issued. -/
theorem c229_goes_back : ((e0.run [.notice (view 30) rev [1]]).saved 50 1 = some 501) ∧ iss.dt < rev.dt ∧ iss.sn < rev.sn ∧
    ((e0.run [.notice (view 30) rev [1], .notice (view 30) iss [1]]).saved 50 1 = some 500) := by decide +kernel

/-- C230 as first put fails: a notice that waited is dropped when looked at later than an hour from its date, though all is there, and is not saved; had it been looked at before, it would be. -/
theorem c230_given_up : (e0.run [.notice early iss [1]]).esc = [⟨.cooo, 50, 1, 91⟩] ∧ (e0.run [.notice early iss [1], .pass (view 4000)]).esc = [] ∧
    (e0.run [.notice early iss [1], .pass (view 4000)]).saved 50 1 = none ∧ (e0.run [.notice early iss [1], .pass (view 3000)]).saved 50 1 = some 500 := by decide +kernel

/-- C231 as first put fails: notice 91's source 8 is asked for its key state and not 1, the controller. -/
theorem c231_not_controller : (e0.run [.notice keyless { iss with aid := 8 } [1]]).cues = [.query 8] := by decide +kernel

/-- The hypotheses of the theorems are met. -/
example : ∃ v n l, Recv [.notice (view 30) rev [1], .notice (view 30) iss [1]] n ∧ Known [.notice (view 30) rev [1], .notice (view 30) iss [1]] v ∧
    (∀ a ∈ l, RecvA [.notice (view 30) rev [1], .notice (view 30) iss [1]] a) ∧ n.key = 50 ∧ n.aid = 1 ∧ n.d = 500 ∧ v.tels 50 n.sn = some 500 ∧ v.accept n l = some true ∧ Trusted v n :=
  c228_saved_partial _ (apart_two _ _ _ _) 50 1 500 c229_goes_back.2.2.2

theorem trusted_iss (now : Nat) : Trusted (view now) iss := ⟨⟨1, 0, true, []⟩, rfl, .inr (.inl rfl)⟩

theorem based_iss (now : Nat) : Based (view now) iss := ⟨⟨1, 0, true, []⟩, rfl, by decide, by show (some [7] : Option (List Id)) ≠ none; simp⟩

example : ((Db.empty Nat).process (view 10) iss [1]).1.saved 50 1 = some 500 := c229_last_saved _ _ _ _ (based_iss 10) (trusted_iss 10) rfl rfl

example : Cue.saved iss ∈ (e0.run ([.notice early iss [1]] ++ [.pass (view 3000)])).cues ∧ ⟨.cooo, 50, 1, 91⟩ ∉ (e0.run ([.notice early iss [1]] ++ [.pass (view 3000)])).esc :=
  c230_taken_partial [.notice early iss [1]] (view 3000) (apart_one _ _ _) ⟨.cooo, 50, 1, 91⟩ (by decide +kernel) iss ⟨early, [1], by simp⟩ ⟨rfl, rfl, rfl, rfl⟩
    ⟨by decide +kernel, by decide, based_iss 3000, trusted_iss 3000, rfl, rfl⟩

example : ∃ n, Recv [.notice early iss [1]] n ∧ Entry.Of ⟨.cooo, 50, 1, 91⟩ n ∧ Lacks early n .cooo :=
  c230_left [.notice early iss [1]] early (apart_one _ _ _) ⟨.cooo, 50, 1, 91⟩ (by decide +kernel)

example : (e0.process (view 10) own [1]).1.saved 100 2 = some 1000 := by
  refine c228_own_backer (view 10) e0 own [1] rfl rfl (by decide) ⟨by show (some [7] : Option (List Id)) ≠ none; simp, fun t h => ?_⟩ rfl rfl
  cases h
  decide

example : (e0.process (view 10) other [1]).1.saved 50 2 = some 500 :=
  c228_own_registry (view 10) e0 other [1] ⟨2, 0, true, []⟩ rfl rfl rfl ⟨⟨2, 0, true, []⟩, rfl, by decide, by show (some [] : Option (List Id)) ≠ none; simp⟩ rfl rfl

example : e0.process (view 10) { own with nb := true } [1] = (e0, .error .untrusted) := by
  refine c228_untrusted (view 10) e0 _ [1] [7] rfl rfl ?_
  rintro (h | h | h | ⟨w, h, hm⟩)
  · cases h
  · revert h; decide
  · revert h; decide
  · cases h
    revert hm
    decide

example : e0.process (view 10) { other with regk := 100 } [1] = (e0, .error .untrusted) := by
  refine c228_untrusted_credential (view 10) e0 _ [1] ⟨1, 0, true, []⟩ [7] rfl rfl (by decide) rfl ?_
  rintro ⟨t, ht, hh⟩
  cases ht
  rcases hh with h | h | h | ⟨w, h, hm⟩
  · cases h
  · revert h; decide
  · revert h; decide
  · cases h
    revert hm
    decide

example : (e0.process (view 10) reg [1]).1.saved 100 1 = some 1000 := (c229_registry_partial (view 10) e0 _ reg [1] rfl rfl).2.2

example : (e0.process keyless reg [1]).2 = .error .missingAnchor := (c231_asks_controller keyless e0 reg [1] rfl rfl).2.1

example : (e0.process (view 10) { iss with regk := 300 } [1]).2 = .error .missingRegistry :=
  (c231_asks_registry (view 10) e0 { iss with regk := 300 } [1] rfl fun t h => by cases h).2.1

example : (e0.process early iss [1]).2 = .error .outOfOrder := (c231_asks_events early e0 iss [1] (based_iss 10) (trusted_iss 10) rfl rfl).2.1

example : (e0.process keyless iss [1]).1.cues = [.query 1] :=
  (c231_asks_source keyless e0 iss [1] ⟨1, 0, true, []⟩ rfl rfl (by decide) rfl (by decide)).1

example : ⟨.cooo, 50, 1, 91⟩ ∈ (e0.run ([.notice early iss [1]] ++ [.pass early])).esc :=
  c230_kept [.notice early iss [1]] early (apart_one _ _ _) ⟨.cooo, 50, 1, 91⟩ (by decide +kernel) iss ⟨early, [1], by simp⟩ ⟨rfl, rfl, rfl, rfl⟩
    ⟨by decide +kernel, by decide, based_iss 10, trusted_iss 10, rfl, rfl⟩

example : 1 ∈ (e0.process early iss [1]).1.atts 91 := c230_signatures early e0 iss [1] .cooo rfl ⟨based_iss 10, trusted_iss 10, rfl, rfl⟩ 1 (by simp)

end Verif.Tsn.Demo
