import Verif.Mgr.PropsIngest
import Verif.Mgr.PropsPath
import Verif.Mgr.PropsCrash
import Verif.Mgr.PropsSign

/-!
# Cases that meet the hypotheses of C70 to C77, and cases the code gets wrong
-/

namespace Verif.Mgr.DemoMgr

/-- Derived keys are told apart by salt and path; key 666 cannot be encrypted. -/
def env : Env where
  derive s p _ _ _ _ := p.foldl (fun n c => n * 256 + c.toNat) (s + 1)
  dig k := k + 1
  ed k := k ≠ 666
  boxA a := a
  boxS s := s

def opn : Inp := .call (.openM none none 0 .salty 7 0)
def opnE : Inp := .call (.openM (some 50) (some 50) 0 .salty 7 0)

/-- `incept(icount, ncount)` with root salt and algorithm. -/
def inc (i j : Nat) : Call := .incept ⟨[], i, 0, [], j, 0, none, none, [], none, true, true, false, 0, fun _ => 0⟩
/-- `incept` of random keys `k`, `k + 1`, …. -/
def incR (i j k : Nat) : Call := .incept ⟨[], i, 0, [], j, 0, some .randy, none, [], none, true, true, false, 0, fun x => k + x⟩
def rot (p j : Nat) : Call := .rotate p ⟨[], j, 0, true, false, true, 0, fun x => 900 + x⟩
/-- `rotate` of random keys to `k`, `k + 1`, …. -/
def rotR (p j k : Nat) : Call := .rotate p ⟨[], j, 0, true, false, true, 0, fun x => k + x⟩
def sgn (l : List Nat) : Call := .sign l [] []
def ing (secs : List (List Nat)) (i : Nat) : Call := .ingest ⟨secs, i, 1, 0, some .randy, none, [], none, true, true, false, 0, fun x => 800 + x⟩

/-- The results of a run. -/
def results (is : List Inp) : List (Option Res) := (Node.start.run env is).2.map (·.2)
def final (is : List Inp) : Node := (Node.start.run env is).1
def hist (is : List Inp) : Hist := (Node.start.run env is).2

/-! ## Runs that meet the hypotheses -/

theorem safe_of {n : Node} {i : Inp} (hp : i.proper env n) (hc : (exec env n i.of).2.2 ≠ .err .code) (hi : ∀ a, i.of ≠ .ingest a) : i.safe env n :=
  ⟨hp, hc, fun a h => absurd h (hi a)⟩

/-- Two identifiers of random keys, rotations with erasure, an interrupted rotation of one of them, a restart. -/
def run1 : List Inp := [opn, .call (incR 1 1 10), .call (incR 2 1 20), .call (rotR 10 1 30), .call (rotR 10 1 31), .call (rotR 10 1 32), .call (rotR 20 1 40)]
def run2 : List Inp := run1 ++ [.crash (rotR 20 1 41) 1, opn]

theorem run1_results : results run1 =
    [some .done, some (.keys ⟨[10], [12]⟩), some (.keys ⟨[20, 21], [23]⟩), some (.keys ⟨[11], [31]⟩), some (.keys ⟨[30], [32]⟩), some (.keys ⟨[31], [33]⟩),
      some (.keys ⟨[22], [41]⟩)] := by decide +kernel

theorem happened (is : List Inp) : Happened env (hist is) (final is) := ⟨is, rfl⟩
example : told (hist run1) 10 = some ⟨[31], [33]⟩ ∧ (final run1).mem ≠ none := by decide +kernel
example : told (hist run2) 10 = some ⟨[31], [33]⟩ ∧ told (hist run2) 20 = none ∧ firm (hist run2) 10 = some ⟨[31], [33]⟩ ∧ (final run2).mem ≠ none := by decide +kernel
example : (madeBy env .start run2).Nodup := by decide +kernel
example : firm (hist run1) 20 = some ⟨[22], [41]⟩ := by decide +kernel

theorem run1_erasing : Along env (Inp.erasing env) .start run1 := by
  refine ⟨⟨⟨safe_of (.inr ⟨fun _ => rfl, by simp⟩) (by decide +kernel) (by simp [opn, Inp.of]), _, rfl⟩, by simp [opn], by simp [opn]⟩, ?_, ?_, ?_, ?_, ?_, ?_, trivial⟩ <;>
    exact ⟨⟨safe_of trivial (by decide +kernel) (by simp [Inp.of, incR, rotR]), _, rfl⟩, by
      first
        | (intro p a h; simp only [Inp.call.injEq, rotR, incR, Call.rotate.injEq, reduceCtorEq] at h; done)
        | (intro p a h; simp only [Inp.call.injEq, rotR, incR, Call.rotate.injEq] at h; rw [← h.2]), by simp [incR, rotR]⟩

theorem run2_safe : Along env (Inp.safe env) .start run2 := by
  refine ⟨safe_of (.inr ⟨fun _ => rfl, by simp⟩) (by decide +kernel) (by simp [opn, Inp.of]), ?_, ?_, ?_, ?_, ?_, ?_, ?_,
    safe_of (.inr ⟨fun _ => rfl, by simp⟩) (by decide +kernel) (by simp [opn, Inp.of]), trivial⟩ <;>
    exact safe_of trivial (by decide +kernel) (by simp [Inp.of, incR, rotR])

/-- The first key set of identifier 10 has been replaced twice. -/
example : shown (hist run1) 10 = [[31], [30], [11], [10]] ∧ [10] ∈ (shown (hist run1) 10).drop 2 := by decide +kernel
example : ((final run1).step env (.call (sgn [10]))).2 = some (.err .value) ∧ ((final run1).step env (.call (sgn [31]))).2 = some (.sigs [⟨31, 0, some 0⟩]) := by
  decide +kernel

/-- An encrypted key store, reopened with another authentication identifier later on. -/
def run3 : List Inp := [opnE, .call (inc 1 1), .call (.updateAeid (some 60) (some 60)), .call (.openM (some 60) none 0 .salty 7 0)]

theorem run3_results : results run3 = [some .done, some (.keys ⟨[137375792], [137376050]⟩), some .done, some .done] := by decide +kernel

theorem run3_tidy : Along env (Inp.tidy env) .start run3 := by
  refine ⟨.inr ⟨by simp, fun _ => ⟨fun k => rfl, fun k => rfl⟩⟩, trivial, ⟨.inr ⟨60, 60, rfl, rfl, rfl⟩, .inl (by decide +kernel)⟩, .inl (by decide +kernel), trivial⟩

example : (final run3).ks.aeid = some 60 ∧ (final run3).ks.pris.at' 137375792 = some (.sealed 60 137375792) := by decide +kernel
example : ((final run3).step env (.call (.openM (some 50) none 0 .salty 7 0))).2 = some (.err .auth) := by decide +kernel

/-- A key sequence is ingested and replayed. -/
def run4 : List Inp := [opn, .call (ing [[1], [2, 3], [4]] 0)]
theorem run4_results : results (run4 ++ [.call (.replay 1 false true), .call (.replay 1 true true), .call (.replay 1 true true), .call (.replay 1 true true)]) =
    [some .done, some (.ingested 1 [[1], [2, 3], [4]]), some (.keys ⟨[1], [3, 4]⟩), some (.keys ⟨[2, 3], [5]⟩), some (.keys ⟨[4], [801]⟩), some (.err .index)] := by
  decide +kernel
theorem run4_safe : Along env (Inp.safe env) .start [opn] ∧ (Inp.call (ing [[1], [2, 3], [4]] 0)).safe env (final [opn]) := by
  refine ⟨⟨safe_of (.inr ⟨fun _ => rfl, by simp⟩) (by decide +kernel) (by simp [opn, Inp.of]), trivial⟩, rfl, by decide +kernel, ?_⟩
  intro a h
  simp only [Inp.of, ing, Call.ingest.injEq] at h
  rw [← h]; decide
example : (storedKeys (exec env (final [opn]) (ing [[1], [2, 3], [4]] 0)).1).Nodup := by decide +kernel

/-! ## C70 and C75: interruptions -/

/-- **C75 fails.** If an inception from the root salt is interrupted after the identifier was taken and before the index of identifiers was raised, every later
inception with the same settings is refused. -/
theorem c75_incept_blocked :
    results [opn, .crash (inc 1 1) 1, opn, .call (inc 1 1), .call (inc 1 1)] = [some .done, none, some .done, some (.err .value), some (.err .value)] := by
  decide +kernel

/-- **C75 fails.** If a rotation is interrupted after the new situation was stored and before the next private keys were, the identifier cannot be
rotated any more. -/
theorem c75_rotate_blocked :
    results [opn, .call (incR 1 1 10), .crash (rotR 10 1 30) 1, opn, .call (rotR 10 1 31)] =
      [some .done, some (.keys ⟨[10], [12]⟩), none, some .done, some (.err .value)] := by
  decide +kernel

/-- **C70 and interruptions.** If a rotation is interrupted after its private keys were stored, the next one does not reveal the keys of the digests told: key 11
is never told. -/
theorem c70_skips :
    results [opn, .call (incR 1 1 10), .crash (rotR 10 1 30) 2, opn, .call (rotR 10 1 31)] =
      [some .done, some (.keys ⟨[10], [12]⟩), none, some .done, some (.keys ⟨[30], [32]⟩)] := by
  decide +kernel

/-- **C75 fails.** If a move is interrupted after the parameters were moved, neither name can be used. -/
theorem c75_move_stuck :
    results [opn, .call (incR 1 1 10), .crash (.move 10 99) 2, opn, .call (rotR 10 1 30), .call (rotR 99 1 30), .call (.move 10 99)] =
      [some .done, some (.keys ⟨[10], [12]⟩), none, some .done, some (.err .value), some (.err .value), some (.err .value)] := by
  decide +kernel

/-- **C75 fails.** If a change of the authentication identifier is interrupted, no seed reads all keys: the key store opens with the old seed, and the keys written
already cannot be used. -/
theorem c75_update_mixed :
    results [opnE, .call (incR 1 1 10), .call (incR 1 1 20), .crash (.updateAeid (some 60) (some 60)) 2, .call (.openM (some 60) none 0 .salty 7 0),
      .call (.openM (some 50) none 0 .salty 7 0), .call (sgn [10]), .call (sgn [20])] =
      [some .done, some (.keys ⟨[10], [12]⟩), some (.keys ⟨[20], [22]⟩), none, some (.err .auth), some .done, some (.err .value), some (.sigs [⟨20, 0, some 0⟩])] := by
  decide +kernel

/-- **C75 fails.** If the first opening of an encrypted key store is interrupted after the salt was encrypted, the next one encrypts it again: the root
salt is lost. -/
theorem c75_salt_lost :
    results [.crash (.openM (some 50) (some 50) 0 .salty 7 0) 5, opnE, .call (inc 1 1)] = [none, some .done, some (.err .value)] ∧
      (final [.crash (.openM (some 50) (some 50) 0 .salty 7 0) 5, opnE]).ks.salt = some .junk := by
  decide +kernel

/-- **C71 fails with keys that cannot be encrypted.** In an encrypted key store a rotation to such a key raises after the situation was stored: the keys told
last as next were not revealed, and no rotation succeeds any more. -/
theorem c71_code_stuck :
    results [opnE, .call (incR 1 1 10), .call (rotR 10 1 666), .call (rotR 10 1 31)] =
      [some .done, some (.keys ⟨[10], [12]⟩), some (.err .code), some (.err .value)] := by
  decide +kernel

/-- **C71 fails for a starting position one past the end.** `ingest` accepts it; there are no current keys and no next ones. -/
theorem c71_ingest_end :
    results [opn, .call (ing [[1], [2]] 2), .call (.replay 1 false true), .call (rotR 1 1 30)] =
      [some .done, some (.ingested 1 [[1], [2]]), some (.keys ⟨[], []⟩), some (.err .value)] := by
  decide +kernel

/-! ## C72: one path for two keys -/

/-- `incept` of `i` keys with `j` next keys after opening with a first index. -/
def opnAt (p : Nat) : Inp := .call (.openM none none p .salty 7 0)

/-- Paths have no separators: key 17 (hexadecimal 11) of set 0 of identifier 1 and key 1 of set 1 of identifier 16 (hexadecimal 10) have the same path. -/
theorem c72_same_path : path [] 1 0 17 = path [] 16 1 1 := by decide +kernel

/-- The first keys told and the first digests. -/
def firstOf : Option Res → Option (Nat × List Nat)
  | some (.keys k) => some (k.verfers.headD 0, k.digers)
  | _ => none

def many : List Inp := opnAt 1 :: .call (inc 18 1) :: (List.range 14).map (fun _ => .call (inc 1 1)) ++ [.call (inc 1 1)]

/-- **C72 and C71 fail.** The identifiers with indices 1 (18 keys) and 16 share a key: the last current key of the first is the first next key of the second. -/
theorem c72_shared :
    ((results many)[1]?.bind fun r => match r with
      | some (.keys k) => some ((k.verfers.getD 17 0) + 1)
      | _ => none) = ((results many)[16]?.bind fun r => (firstOf r).map fun x => x.2.headD 0) ∧ ((results many)[1]?.bind firstOf).isSome := by
  decide +kernel

/-- The first key and the last key of the first identifier, and the first key of the last one. -/
def key17 : Nat := ((results many)[1]?.bind fun r => match r with | some (.keys k) => some (k.verfers.getD 17 0) | _ => none).getD 0
def last : Nat := ((results many)[16]?.bind fun r => (firstOf r).map (·.1)).getD 0

/-- Rotating the last identifier three times erases a current key of the first. -/
theorem c72_erased : (results (many ++ [.call (sgn [key17]), .call (rot last 1), .call (rot last 1), .call (rot last 1), .call (sgn [key17])])).drop 17 =
    [some (.sigs [⟨key17, 0, some 0⟩])] ++ ((results (many ++ [.call (sgn [key17]), .call (rot last 1), .call (rot last 1), .call (rot last 1)])).drop 18) ++ [some (.err .value)] := by
  decide +kernel

/-! ## C74: secrets that are not encrypted -/

/-- **C74 fails.** `ingest` stores the keys it creates without encryption, in an encrypted key store; they cannot be read. -/
theorem c74_ingest_plain :
    (final [opnE, .call (.ingest ⟨[[1]], 0, 1, 0, some .salty, none, [], none, true, true, false, 0, fun _ => 0⟩)]).ks.pris.at' 137376049 = some (.plain 137376049) ∧
      results [opnE, .call (.ingest ⟨[[1]], 0, 1, 0, some .salty, none, [], none, true, true, false, 0, fun _ => 0⟩), .call (sgn [137376049])] =
        [some .done, some (.ingested 1 [[1]]), some (.err .code)] := by
  decide +kernel

/-- **C74 fails.** If an authentication identifier is set for a key store that has keys, they stay in plain text and cannot be used any more. -/
theorem c74_later_plain :
    results [opn, .call (incR 1 1 10), .call (.updateAeid (some 50) (some 50)), .call (sgn [10]), .call (rotR 10 1 30)] =
      [some .done, some (.keys ⟨[10], [12]⟩), some .done, some (.err .code), some (.err .code)] ∧
    (final [opn, .call (incR 1 1 10), .call (.updateAeid (some 50) (some 50))]).ks.pris.at' 10 = some (.plain 10) := by
  decide +kernel

/-- **C74 fails.** A change of the authentication identifier that is refused for its seed has replaced the encrypter: keys made afterwards are encrypted for the
refused identifier and cannot be read. -/
theorem c74_refused_used :
    results [opnE, .call (.updateAeid (some 60) (some 61)), .call (incR 1 1 10), .call (sgn [10])] =
      [some .done, some (.err .auth), some (.keys ⟨[10], [12]⟩), some (.err .value)] ∧
    (final [opnE, .call (.updateAeid (some 60) (some 61)), .call (incR 1 1 10)]).ks.pris.at' 10 = some (.sealed 60 10) := by
  decide +kernel

/-- **C74 fails.** A change to the same authentication identifier with another seed is not checked: afterwards this manager reads nothing. -/
theorem c74_same_unchecked :
    results [opnE, .call (incR 1 1 10), .call (.updateAeid (some 50) (some 61)), .call (sgn [10])] =
      [some .done, some (.keys ⟨[10], [12]⟩), some .done, some (.err .value)] := by
  decide +kernel

/-- A seed without an authentication identifier is taken for the decryption of keys that are not encrypted: nothing can be read. -/
theorem c74_seed_alone :
    results [.call (.openM (some 50) none 0 .salty 7 0), .call (incR 1 1 10)] = [some .done, some (.err .code)] ∧
      results [.call (.openM (some 50) none 0 .salty 7 0), .call (.incept ⟨[], 1, 0, [], 1, 0, some .randy, none, [], none, false, true, false, 0, fun x => 10 + x⟩), .call (sgn [10])] =
        [some .done, some (.keys ⟨[10], [12]⟩), some (.err .code)] := by
  decide +kernel

/-! ## C73: not all replaced keys -/

/-- Keys are erased only by rotations that ask for it, and later rotations do not make up for it: after a rotation without erasure the keys stay. -/
theorem c73_kept_once :
    results [opn, .call (incR 1 1 10), .call (rotR 10 1 30), .call (.rotate 10 ⟨[], 1, 0, true, false, false, 0, fun x => 31 + x⟩), .call (rotR 10 1 32), .call (rotR 10 1 33),
      .call (sgn [10]), .call (sgn [11])] =
      [some .done, some (.keys ⟨[10], [12]⟩), some (.keys ⟨[11], [31]⟩), some (.keys ⟨[30], [32]⟩), some (.keys ⟨[31], [33]⟩), some (.keys ⟨[32], [34]⟩),
        some (.sigs [⟨10, 0, some 0⟩]), some (.err .value)] := by
  decide +kernel

end Verif.Mgr.DemoMgr
