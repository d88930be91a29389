import Verif.Sch.Props
import Verif.Base.Err
/-! # A world of schemas, and cases in it -/

namespace Verif.Sch.Demo

def encVal : Val Nat → Bytes
  | .text t => 0 :: t.length :: t
  | .other n => [1, n]

def enc (d : Sed Nat) : Bytes := d.flatMap fun p => p.1.length :: (p.1 ++ encVal p.2)

/-- Reading of fields, at most so many. -/
def dec : Nat → Bytes → Option (Sed Nat)
  | _, [] => some []
  | 0, _ => none
  | n + 1, k :: r => match r.drop k with
    | 0 :: m :: r' => (dec n (r'.drop m)).map fun d => (r.take k, .text (r'.take m)) :: d
    | 1 :: v :: r' => (dec n r').map fun d => (r.take k, .other v) :: d
    | _ => none

theorem dec_enc (d : Sed Nat) : ∀ n, d.length ≤ n → dec n (enc d) = some d := by
  induction d with
  | nil => intro n _; cases n <;> rfl
  | cons p d ih =>
    intro n hn
    obtain ⟨l, v⟩ := p
    cases n with
    | zero => simp at hn
    | succ n =>
      have ih := ih n (by simpa using hn)
      have he : enc ((l, v) :: d) = l.length :: (l ++ (encVal v ++ enc d)) := by simp [enc]
      rw [he]
      unfold dec
      rw [List.drop_left, List.take_left]
      cases v with
      | text t =>
        simp only [encVal, List.cons_append, List.drop_left, List.take_left, ih, Option.map_some]
      | other m =>
        simp only [encVal, List.cons_append, List.nil_append, ih, Option.map_some]

theorem enc_length (d : Sed Nat) : d.length ≤ (enc d).length := by
  induction d with
  | nil => simp
  | cons p d ih =>
    have : enc (p :: d) = (p.1.length :: (p.1 ++ encVal p.2)) ++ enc d := by simp [enc]
    rw [this, List.length_append, List.length_cons, List.length_cons]
    omega

/-- Serializations begin with 123; blanks (32) before it are passed over. Digests are sums, with the code 7. -/
def world : World Nat where
  loads b := match b.dropWhile (· == 32) with
    | 123 :: b => match dec b.length b with
      | some d => if (d.map (·.1)).Nodup then some d else none
      | none => none
    | _ => none
  dumps d := 123 :: enc d
  draft d := (d.get [116]).isSome
  dig c := c == 7
  size _ := 1
  digest _ b := [b.sum]
  qb64 c r := c :: r
  parse t := match t with
    | c :: x :: _ => some (c, [x])
    | _ => none
  dummy _ := [35, 35]

theorem lawful : Lawful world := by
  refine ⟨fun d hn => ?_, fun b d h => ?_, fun d => by simp [world], fun c b _ => rfl, fun t c r h _ => ?_, fun c r _ hr => ?_⟩
  · simp only [world]
    rw [List.dropWhile_cons, if_neg (by decide)]
    show (match dec (enc d).length (enc d) with
      | some d => if (d.map (·.1)).Nodup then some d else none
      | none => none) = some d
    rw [dec_enc d _ (enc_length d)]
    simp only [hn, if_true]
  · simp only [world] at h
    split at h
    · split at h
      · split at h
        · rename_i hn; cases h; exact hn
        · cases h
      · cases h
    · cases h
  · simp only [world] at h ⊢
    split at h
    · cases h; rfl
    · cases h
  · match r, hr with
    | [x], _ => rfl

/-- A dict with an empty identifier and a type. -/
def dict : Sed Nat := [(idL, .text []), ([116], .other 5)]

def made : Schemer Nat := ⟨[123, 3, 36, 105, 100, 0, 2, 7, 562, 1, 116, 1, 5], [(idL, .text [7, 562]), ([116], .other 5)], 7, [562]⟩

/-- The hypotheses of `c238_made`, and so those of `c238_addressed`, are met. -/
example : (dict.map (·.1)).Nodup ∧ ofSed world dict 7 true = .ok made ∧ ofRaw world made.raw true = .ok made := by decide +kernel

/-- Those of `c238_one` are met: there is a schema that is addressed. -/
example : Addressed world [7, 562] made.sed ∧ (made.sed.map (·.1)).Nodup := ⟨⟨7, by decide +kernel, by decide +kernel, by decide +kernel⟩, by decide +kernel⟩

/-- Those of `c238_agree` are met: two caches, in one of which other things were added under the identifier before. -/
example : resolve world (adds world [] [([7, 562], made.raw)]) [7, 562] = .ok (some made.raw) ∧
    resolve world (adds world [] [([7, 562], [123]), ([7, 3], made.raw), ([7, 562], 32 :: made.raw)]) [7, 562] = .ok (some (32 :: made.raw)) := by decide +kernel

/-- Those of `c238_found` are met. -/
example : ofRaw world made.raw true = .ok made ∧ ∀ p ∈ [(([7, 3] : Bytes), made.raw)], p.1 ≠ made.said world := by decide +kernel

/-- A schema whose content was changed, or whose identifier goes on after the digest, is not loaded. -/
theorem c238_changed : ofRaw world [123, 3, 36, 105, 100, 0, 2, 7, 562, 1, 116, 1, 6] true = .error .validation ∧
    ofRaw world [123, 3, 36, 105, 100, 0, 3, 7, 562, 1, 1, 116, 1, 5] true = .error .validation := by decide +kernel

/-- **The identifier does not bind the bytes.** The same identifier is accepted for serializations that load as the same dict, here one with a blank before it. -/
theorem c238_other_bytes : ∃ raw raw' s s', raw ≠ raw' ∧ ofRaw world raw true = .ok s ∧ ofRaw world raw' true = .ok s' ∧ s.said world = s'.said world ∧ s.raw ≠ s'.raw :=
  ⟨made.raw, 32 :: made.raw, made, { made with raw := 32 :: made.raw }, by decide +kernel⟩

/-- The hypotheses of `c238_kind_set` are met, and the identifier is another one than before. -/
theorem c238_kind_set_case : world.dig 7 = true ∧ world.size 7 ≤ (setKind world made 7 none).raw.length ∧ made.said world = [7, 562] ∧ (setKind world made 7 none).said = [7, 123] := by decide +kernel

end Verif.Sch.Demo
