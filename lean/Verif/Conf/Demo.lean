import Verif.Conf.Props
/-! # Cases of configuration files -/

namespace Verif.Conf.Demo

/-- Codecs of numbers, a mark of the format before them; numbers above 9 cannot be written. -/
def codec : Codec Nat where
  dumps m d := if d > 9 then none else some [match m with | .hjson => 1 | .json => 2 | .mgpk => 3 | .cbor => 4, d]
  loads m b := match m, b with
    | .hjson, [1, d] | .hjson, [2, d] | .json, [2, d] | .mgpk, [3, d] | .cbor, [4, d] => some d
    | _, _ => none
  empty := 0

theorem lawful : Lawful codec := by
  refine ⟨fun m d b h => ?_, fun m m' d b hr h => ?_⟩
  · simp only [codec] at h
    split at h
    · cases h
    · cases h; simp
  · simp only [codec] at h
    split at h
    · cases h
    · cases h
      rcases hr with rfl | ⟨rfl, rfl⟩
      · cases m <;> rfl
      · rfl

def file : File := ⟨true, [], .json, true⟩

def ops : List (Op Nat) := [.get none, .put 3 none, .get none, .put 4 (some false), .get (some true), .close, .get none, .put 5 none, .reopen, .get none]

/-- The hypotheses of `c237_last_partial` are met. -/
example : Fits codec file.ext file.human ops ∧ answers codec file ops = [.data 0, .ok, .data 3, .ok, .data 4, .ok, .raised .notOpen, .raised .notOpen, .ok, .data 4] := by
  refine ⟨⟨by decide, ?_, ?_⟩, by decide +kernel⟩
  · intro d h hm m _
    simp only [ops, List.mem_cons, List.not_mem_nil, or_false, reduceCtorEq, false_or, Op.put.injEq] at hm
    rcases hm with ⟨rfl, _⟩ | ⟨rfl, _⟩ | ⟨rfl, _⟩ <;> rfl
  · intro d h h' hm hm' m m' h1 h2
    simp only [ops, List.mem_cons, List.not_mem_nil, or_false, reduceCtorEq, false_or, Op.put.injEq, Op.get.injEq] at hm hm'
    have hx : m' = .hjson := by
      rcases hm' with rfl | rfl | rfl | rfl | rfl <;> (cases h2; rfl)
    subst hx
    rcases hm with ⟨_, rfl⟩ | ⟨_, rfl⟩ | ⟨_, rfl⟩ <;> cases h1
    · exact .inl rfl
    · exact .inr ⟨rfl, rfl⟩
    · exact .inl rfl

/-- A case of `c237_failed_put`: 3 is put, putting 12 raises, and 3 is gone. -/
theorem c237_failed_put_case : answers codec file [.put 3 none, .put 12 none, .get none] = [.ok, .raised .codec, .data 0] := by decide +kernel

/-- What is put for people is not read by those that ask for JSON. -/
theorem c237_human_not_read : answers codec file [.put 3 (some true), .get (some false)] = [.ok, .raised .codec] := by decide +kernel

end Verif.Conf.Demo
