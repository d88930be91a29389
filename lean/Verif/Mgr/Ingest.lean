import Verif.Mgr.PropsPath
import Verif.Mgr.PropsEnc

/-!
# What `ingest` does to a key store without encryption
-/

namespace Verif.Mgr

open Verif.Kel (upd)

/-- What one round of the loop does to the situation. -/
def turnSit (iridx ridx kidx : Nat) (pubs : List Nat) (sit : Option Sit) : Option Sit :=
  let sit := if ridx = iridx - 1 then some ⟨if iridx = 0 then .empty else ⟨pubs, ridx, kidx⟩, .empty, .empty⟩ else sit
  if ridx = iridx then sit.map fun s => { s with new := ⟨pubs, ridx, kidx⟩ }
  else if ridx = iridx + 1 then sit.map fun s => { s with nxt := ⟨pubs, ridx, kidx⟩ }
  else sit

/-- A round of the loop. -/
theorem ingestLoop_round {env : Env} {iridx pre ridx kidx : Nat} {pubs : List Nat} {rest : List (List Nat)} {sit : Option Sit}
    (hs : ridx = iridx ∨ ridx = iridx + 1 → ridx ≠ iridx - 1 → sit ≠ none) :
    ∃ ws, (ingestLoop env none iridx pre (pubs :: rest) ridx kidx sit).1 =
        ws ++ (ingestLoop env none iridx pre rest (ridx + 1) (kidx + pubs.length) (turnSit iridx ridx kidx pubs sit)).1 ∧
      (ingestLoop env none iridx pre (pubs :: rest) ridx kidx sit).2 =
        (ingestLoop env none iridx pre rest (ridx + 1) (kidx + pubs.length) (turnSit iridx ridx kidx pubs sit)).2 ∧
      storedKeys ws = pubs ∧ (∀ j l, Wr.pubsPut pre j l ∈ ws ↔ j = ridx ∧ l = pubs) ∧
      ∀ ks : Ks, ks.sits pre = sit → (ks.applyAll ws).sits pre = turnSit iridx ridx kidx pubs sit := by
  have key : ∀ (x : List Wr), (∀ w ∈ x, ∃ s, w = Wr.sits pre s) → storedKeys (puts none pubs ++ [Wr.pubsPut pre ridx pubs] ++ x) = pubs ∧
      ∀ j l, Wr.pubsPut pre j l ∈ puts none pubs ++ [Wr.pubsPut pre ridx pubs] ++ x ↔ j = ridx ∧ l = pubs := by
    intro x hx
    constructor
    · rw [storedKeys_append, storedKeys_append, storedKeys_puts]
      have : storedKeys x = [] := by
        rw [List.eq_nil_iff_forall_not_mem]
        intro k hk
        obtain ⟨v, hv⟩ := mem_storedKeys.1 hk
        obtain ⟨s, hs⟩ := hx _ hv
        cases hs
      rw [this]; simp [storedKeys]
    · intro j l
      simp only [List.mem_append, List.mem_cons, List.not_mem_nil, or_false, Wr.pubsPut.injEq, true_and]
      constructor
      · rintro ((h | h) | h)
        · obtain ⟨k, _, he⟩ := mem_puts h; cases he
        · exact h
        · obtain ⟨s, hs⟩ := hx _ h; cases hs
      · intro h; exact .inl (.inr h)
  have hsit : ∀ (ks : Ks) (x : List Wr), (ks.applyAll (puts none pubs ++ [Wr.pubsPut pre ridx pubs] ++ x)).sits pre =
      ((ks.applyAll (puts none pubs ++ [Wr.pubsPut pre ridx pubs])).applyAll x).sits pre ∧
      (ks.applyAll (puts none pubs ++ [Wr.pubsPut pre ridx pubs])).sits pre = ks.sits pre := by
    intro ks x
    refine ⟨by rw [applyAll_append], applyAll_sits fun w hw => ?_⟩
    simp only [List.mem_append, List.mem_cons, List.not_mem_nil, or_false] at hw
    rcases hw with hw | rfl
    · obtain ⟨k, _, rfl⟩ := mem_puts hw; simp [Wr.sitKey]
    · simp [Wr.sitKey]
  rw [ingestLoop.eq_2, putPris_none]
  dsimp only
  by_cases h1 : ridx = iridx - 1
  · rw [if_pos h1]
    dsimp only
    by_cases h2 : ridx = iridx
    · rw [if_pos h2]
      dsimp only
      have ht : turnSit iridx ridx kidx pubs sit = some ⟨if iridx = 0 then .empty else ⟨pubs, ridx, kidx⟩, ⟨pubs, ridx, kidx⟩, .empty⟩ := by
        unfold turnSit; rw [if_pos h1]; dsimp only; rw [if_pos h2]; rfl
      rw [ht]
      refine ⟨puts none pubs ++ [Wr.pubsPut pre ridx pubs] ++ [.sits pre ⟨if iridx = 0 then .empty else ⟨pubs, ridx, kidx⟩, .empty, .empty⟩,
        .sits pre ⟨if iridx = 0 then .empty else ⟨pubs, ridx, kidx⟩, ⟨pubs, ridx, kidx⟩, .empty⟩], by simp, rfl,
        (key _ (by simp)).1, (key _ (by simp)).2, fun ks hks => ?_⟩
      rw [(hsit ks _).1]
      simp [Ks.apply]
    · rw [if_neg h2, if_neg (by omega)]
      have ht : turnSit iridx ridx kidx pubs sit = some ⟨if iridx = 0 then .empty else ⟨pubs, ridx, kidx⟩, .empty, .empty⟩ := by
        unfold turnSit; rw [if_pos h1]; dsimp only; rw [if_neg h2, if_neg (by omega)]
      rw [ht]
      refine ⟨_, rfl, rfl, (key _ (by simp)).1, (key _ (by simp)).2, fun ks hks => ?_⟩
      rw [(hsit ks _).1]
      simp [Ks.apply]
  · rw [if_neg h1]
    dsimp only
    by_cases h2 : ridx = iridx
    · rw [if_pos h2]
      obtain ⟨s, rfl⟩ := Option.ne_none_iff_exists'.1 (hs (.inl h2) h1)
      have ht : turnSit iridx ridx kidx pubs (some s) = some { s with new := ⟨pubs, ridx, kidx⟩ } := by
        unfold turnSit; rw [if_neg h1]; dsimp only; rw [if_pos h2]; rfl
      rw [ht]
      refine ⟨_, rfl, rfl, (key _ (by simp)).1, (key _ (by simp)).2, fun ks hks => ?_⟩
      rw [(hsit ks _).1]
      simp [Ks.apply]
    · rw [if_neg h2]
      by_cases h3 : ridx = iridx + 1
      · rw [if_pos h3]
        obtain ⟨s, rfl⟩ := Option.ne_none_iff_exists'.1 (hs (.inr h3) h1)
        have ht : turnSit iridx ridx kidx pubs (some s) = some { s with nxt := ⟨pubs, ridx, kidx⟩ } := by
          unfold turnSit; rw [if_neg h1]; dsimp only; rw [if_neg h2, if_pos h3]; rfl
        rw [ht]
        refine ⟨_, rfl, rfl, (key _ (by simp)).1, (key _ (by simp)).2, fun ks hks => ?_⟩
        rw [(hsit ks _).1]
        simp [Ks.apply]
      · rw [if_neg h3]
        have ht : turnSit iridx ridx kidx pubs sit = sit := by
          unfold turnSit; rw [if_neg h1]; dsimp only; rw [if_neg h2, if_neg h3]
        rw [ht]
        have := key [] (by simp)
        simp only [List.append_nil] at this
        refine ⟨_, rfl, rfl, this.1, this.2, fun ks hks => ?_⟩
        rw [(hsit ks []).2]; exact hks

/-- The situation the loop leaves. -/
def loopSit (iridx : Nat) : List (List Nat) → Nat → Nat → Option Sit → Option Sit
  | [], _, _, sit => sit
  | pubs :: rest, ridx, kidx, sit => loopSit iridx rest (ridx + 1) (kidx + pubs.length) (turnSit iridx ridx kidx pubs sit)

/-- The loop over all key sets. -/
theorem ingestLoop_all {env : Env} {iridx pre : Nat} : ∀ (secs : List (List Nat)) (ridx kidx : Nat) (sit : Option Sit),
    (iridx ≤ ridx → ridx ≠ 0 → sit ≠ none) →
    ∃ ws, ingestLoop env none iridx pre secs ridx kidx sit = (ws, .ok (ridx + secs.length, kidx + secs.flatten.length, loopSit iridx secs ridx kidx sit)) ∧
      storedKeys ws = secs.flatten ∧ (∀ j l, Wr.pubsPut pre j l ∈ ws ↔ ridx ≤ j ∧ secs[j - ridx]? = some l) ∧
      ∀ ks : Ks, ks.sits pre = sit → (ks.applyAll ws).sits pre = loopSit iridx secs ridx kidx sit
  | [], ridx, kidx, sit, _ => ⟨[], by simp [ingestLoop, loopSit], rfl, by simp, fun ks h => h⟩
  | pubs :: rest, ridx, kidx, sit, hs => by
    obtain ⟨w1, e1, e2, e3, e4, e5⟩ := ingestLoop_round (env := env) (iridx := iridx) (pre := pre) (ridx := ridx) (kidx := kidx) (pubs := pubs) (rest := rest) (sit := sit)
      (fun h1 h2 => hs (by omega) (by omega))
    have hturn : iridx ≤ ridx + 1 → ridx + 1 ≠ 0 → turnSit iridx ridx kidx pubs sit ≠ none := by
      intro h1 _
      unfold turnSit
      by_cases h2 : ridx = iridx - 1
      · rw [if_pos h2]; dsimp only; split
        · simp
        · split <;> simp
      · rw [if_neg h2]
        have := hs (by omega) (by omega)
        obtain ⟨s, rfl⟩ := Option.ne_none_iff_exists'.1 this
        dsimp only
        split
        · simp
        · split <;> simp
    obtain ⟨w2, f1, f2, f3, f4⟩ := ingestLoop_all (env := env) (iridx := iridx) (pre := pre) rest (ridx + 1) (kidx + pubs.length) (turnSit iridx ridx kidx pubs sit) hturn
    refine ⟨w1 ++ w2, ?_, ?_, fun j l => ?_, fun ks hks => ?_⟩
    · rw [f1] at e1 e2
      have : ingestLoop env none iridx pre (pubs :: rest) ridx kidx sit =
          ((ingestLoop env none iridx pre (pubs :: rest) ridx kidx sit).1, (ingestLoop env none iridx pre (pubs :: rest) ridx kidx sit).2) := rfl
      rw [this, e1, e2]
      have a1 : ridx + 1 + rest.length = ridx + (pubs :: rest).length := by simp; omega
      have a2 : kidx + pubs.length + rest.flatten.length = kidx + (pubs :: rest).flatten.length := by simp; omega
      rw [a1, a2]; rfl
    · rw [storedKeys_append, e3, f2]; rfl
    · rw [List.mem_append, e4, f3]
      constructor
      · rintro (⟨rfl, rfl⟩ | ⟨h1, h2⟩)
        · simp
        · refine ⟨by omega, ?_⟩
          rw [show j - ridx = (j - (ridx + 1)) + 1 by omega, List.getElem?_cons_succ]; exact h2
      · rintro ⟨h1, h2⟩
        by_cases hj : j = ridx
        · subst hj; simp at h2; exact .inl ⟨rfl, h2.symm⟩
        · rw [show j - ridx = (j - (ridx + 1)) + 1 by omega, List.getElem?_cons_succ] at h2
          exact .inr ⟨by omega, h2⟩
    · rw [applyAll_append]
      exact f4 _ (e5 ks hks)

/-- After the next keys the loop leaves the situation. -/
theorem loopSit_after {iridx : Nat} : ∀ (secs : List (List Nat)) (ridx kidx : Nat) (sit : Option Sit), iridx + 1 < ridx → loopSit iridx secs ridx kidx sit = sit
  | [], _, _, _, _ => rfl
  | pubs :: rest, ridx, kidx, sit, h => by
    unfold loopSit
    rw [loopSit_after rest _ _ _ (by omega)]
    unfold turnSit
    rw [if_neg (by omega), if_neg (by omega), if_neg (by omega)]

/-- The round for the next keys. -/
theorem loopSit_nxt {iridx : Nat} (secs : List (List Nat)) (kidx : Nat) (s : Sit) :
    ∃ t, loopSit iridx secs (iridx + 1) kidx (some s) = some t ∧ t.old = s.old ∧ t.new = s.new ∧
      (∀ l, secs[0]? = some l → t.nxt = ⟨l, iridx + 1, kidx⟩) ∧ (secs = [] → t.nxt = s.nxt) := by
  cases secs with
  | nil => exact ⟨s, rfl, rfl, rfl, by simp, fun _ => rfl⟩
  | cons pubs rest =>
    unfold loopSit
    rw [loopSit_after rest _ _ _ (by omega)]
    unfold turnSit
    have e1 : ¬ iridx + 1 = iridx - 1 := by omega
    have e2 : ¬ iridx + 1 = iridx := by omega
    simp only [if_neg e1, if_neg e2, if_true]
    exact ⟨_, rfl, rfl, rfl, by simp, by simp⟩

/-- What the loop leaves, from its start. -/
theorem loopSit_all {iridx : Nat} : ∀ (secs : List (List Nat)) (ridx kidx : Nat) (sit : Option Sit), ridx ≤ iridx - 1 → iridx < ridx + secs.length →
    ∃ t, loopSit iridx secs ridx kidx sit = some t ∧ (if iridx = 0 then t.old.pubs = [] else secs[iridx - 1 - ridx]? = some t.old.pubs) ∧
      secs[iridx - ridx]? = some t.new.pubs ∧ (∀ l, secs[iridx + 1 - ridx]? = some l → t.nxt.pubs = l ∧ t.nxt.ridx = iridx + 1) ∧
      (iridx + 1 = ridx + secs.length → t.nxt = .empty)
  | [], ridx, kidx, sit, h1, h2 => by simp at h2; omega
  | pubs :: rest, ridx, kidx, sit, h1, h2 => by
    unfold loopSit
    by_cases h3 : ridx = iridx - 1
    · have ht : ∃ u, turnSit iridx ridx kidx pubs sit = some u ∧ (if iridx = 0 then u.old.pubs = [] else u.old.pubs = pubs) ∧
          (ridx = iridx → u.new.pubs = pubs) ∧ u.nxt = .empty := by
        unfold turnSit
        rw [if_pos h3]
        dsimp only
        by_cases h4 : ridx = iridx
        · rw [if_pos h4]
          refine ⟨_, rfl, ?_, fun _ => rfl, rfl⟩
          have : iridx = 0 := by omega
          simp [this, Lot.empty]
        · rw [if_neg h4, if_neg (by omega)]
          refine ⟨_, rfl, ?_, fun h => absurd h h4, rfl⟩
          have : iridx ≠ 0 := by omega
          simp [this]
      obtain ⟨u, hu, hu1, hu2, hu3⟩ := ht
      rw [hu]
      by_cases h4 : ridx = iridx
      · subst h4
        obtain ⟨t, t1, t2, t3, t4, t5⟩ := loopSit_nxt (iridx := ridx) rest (kidx + pubs.length) u
        have hz : ridx = 0 := by omega
        refine ⟨t, t1, ?_, ?_, fun l hl => ?_, fun hl => ?_⟩
        · rw [t2]; simpa [hz] using hu1
        · simp [t3, hu2 rfl]
        · rw [show ridx + 1 - ridx = 0 + 1 by omega, List.getElem?_cons_succ] at hl
          rw [t4 l hl]; exact ⟨rfl, rfl⟩
        · simp at hl
          rw [t5 hl, hu3]
      · -- one more round for the current keys
        cases rest with
        | nil => simp at h2; omega
        | cons p2 rest =>
          have hi : iridx = ridx + 1 := by omega
          subst hi
          unfold loopSit
          have ht2 : turnSit (ridx + 1) (ridx + 1) (kidx + pubs.length) p2 (some u) = some { u with new := ⟨p2, ridx + 1, kidx + pubs.length⟩ } := by
            unfold turnSit
            simp
          rw [ht2]
          obtain ⟨t, t1, t2, t3, t4, t5⟩ := loopSit_nxt (iridx := ridx + 1) rest (kidx + pubs.length + p2.length) { u with new := ⟨p2, ridx + 1, kidx + pubs.length⟩ }
          refine ⟨t, t1, ?_, ?_, fun l hl => ?_, fun hl => ?_⟩
          · rw [t2]; simp at hu1 ⊢; exact hu1.symm
          · rw [t3, show ridx + 1 - ridx = 0 + 1 by omega]; simp
          · rw [show ridx + 1 + 1 - ridx = (0 + 1) + 1 by omega, List.getElem?_cons_succ, List.getElem?_cons_succ] at hl
            rw [t4 l hl]; exact ⟨rfl, rfl⟩
          · simp at hl
            have : rest = [] := List.eq_nil_of_length_eq_zero (by omega)
            rw [t5 this]; exact hu3
    · have h2' : iridx < ridx + 1 + rest.length := by simp only [List.length_cons] at h2; omega
      obtain ⟨t, t1, t2, t3, t4, t5⟩ := loopSit_all (iridx := iridx) rest (ridx + 1) (kidx + pubs.length) (turnSit iridx ridx kidx pubs sit) (by omega) h2'
      refine ⟨t, t1, ?_, ?_, fun l hl => ?_, fun hl => t5 (by simp at hl; omega)⟩
      · rw [if_neg (by omega)] at t2 ⊢
        rw [show iridx - 1 - ridx = (iridx - 1 - (ridx + 1)) + 1 by omega, List.getElem?_cons_succ]; exact t2
      · rw [show iridx - ridx = (iridx - (ridx + 1)) + 1 by omega, List.getElem?_cons_succ]; exact t3
      · rw [show iridx + 1 - ridx = (iridx + 1 - (ridx + 1)) + 1 by omega, List.getElem?_cons_succ] at hl
        exact t4 l hl

/-- What `ingest` did to a key store without encryption when it succeeded: `all` are the key sets given and the one created. -/
structure IngestOut (ks : Ks) (a : IngestArgs) (pre : Nat) (all : List (List Nat)) (s : Sit) (ws : List Wr) : Prop where
  head : ∃ l rest, a.secs = (pre :: l) :: rest
  last : ∃ created, created.length = a.ncount ∧ all = a.secs ++ [created]
  pres : ks.pres pre = none
  prms : ks.prms.at' pre = none
  stored : storedKeys ws = all.flatten
  about : ∀ w ∈ ws, w.about pre none
  first : ∃ prm pidx rest, ws = .pres pre pre :: .prms pre prm :: .pidx pidx :: rest ∧ prm.algo ≠ .other ∧ ∀ w ∈ rest, w.prmKey = none
  pubs : (∀ j, ks.pubs pre j = none) → ∀ j, (ks.applyAll ws).pubs pre j = all[j]?
  sits : (ks.applyAll ws).sits pre = some s
  old : if a.iridx = 0 then s.old.pubs = [] else all[a.iridx - 1]? = some s.old.pubs
  new : all[a.iridx]? = some s.new.pubs
  nxt : all[a.iridx + 1]? = some s.nxt.pubs
  ridx : s.nxt.ridx = a.iridx + 1

theorem pubs_of_puts {ks : Ks} {pre : Nat} (h0 : ∀ j, ks.pubs pre j = none) {all : List (List Nat)} : ∀ {ws : List Wr},
    (∀ j l, Wr.pubsPut pre j l ∈ ws ↔ all[j]? = some l) → ∀ j, (ks.applyAll ws).pubs pre j = all[j]? := by
  have gen : ∀ (ws : List Wr) (ks : Ks), (∀ j l, Wr.pubsPut pre j l ∈ ws → all[j]? = some l) → (∀ j, ks.pubs pre j = none ∨ ks.pubs pre j = all[j]?) →
      ∀ j, ((ks.applyAll ws).pubs pre j = all[j]?) ∨ ((ks.applyAll ws).pubs pre j = none ∧ ∀ l, Wr.pubsPut pre j l ∉ ws) := by
    intro ws
    induction ws with
    | nil => intro ks _ h j; rcases h j with h | h <;> simp [h]
    | cons w ws ih =>
      intro ks hm h j
      have hstep : ∀ j, (ks.apply w).pubs pre j = none ∨ (ks.apply w).pubs pre j = all[j]? := by
        intro j
        by_cases hk : w.pubKey = some pre
        · cases w with
          | pubsPut q ri l =>
            simp only [Wr.pubKey, Option.some.injEq] at hk
            subst hk
            simp only [Ks.apply]
            split
            · exact h j
            · show upd ks.pubs q (upd (ks.pubs q) ri (some l)) q j = none ∨ upd ks.pubs q (upd (ks.pubs q) ri (some l)) q j = _
              rw [upd_same]
              by_cases hj : j = ri
              · subst hj; rw [upd_same]; exact .inr (hm j l (List.mem_cons_self ..)).symm
              · rw [upd_ne _ _ hj]; exact h j
          | _ => simp [Wr.pubKey] at hk
        · rw [apply_pubs hk]; exact h j
      rcases ih (ks.apply w) (fun j l hl => hm j l (List.mem_cons_of_mem _ hl)) hstep j with g | ⟨g1, g2⟩
      · exact .inl g
      · by_cases hw : ∃ l, w = .pubsPut pre j l
        · obtain ⟨l, rfl⟩ := hw
          left
          have hall := hm j l (List.mem_cons_self ..)
          have hsome : (ks.apply (.pubsPut pre j l)).pubs pre j ≠ none := by
            simp only [Ks.apply]
            split
            · rename_i x hx; rw [hx]; simp
            · show upd ks.pubs pre (upd (ks.pubs pre) j (some l)) pre j ≠ none
              rw [upd_same, upd_same]; simp
          exfalso
          apply hsome
          have hpers : ∀ (ws : List Wr) (k : Ks), k.pubs pre j ≠ none → (k.applyAll ws).pubs pre j ≠ none := by
            intro ws k hk
            refine applyAll_ind (P := fun k => k.pubs pre j ≠ none) (fun w _ k hk => ?_) hk
            by_cases hkk : w.pubKey = some pre
            · cases w with
              | pubsPut q ri l' =>
                simp only [Wr.pubKey, Option.some.injEq] at hkk
                subst hkk
                simp only [Ks.apply]
                split
                · exact hk
                · show upd k.pubs q (upd (k.pubs q) ri (some l')) q j ≠ none
                  rw [upd_same]
                  by_cases hjr : j = ri
                  · subst hjr; rw [upd_same]; simp
                  · rw [upd_ne _ _ hjr]; exact hk
              | _ => simp [Wr.pubKey] at hkk
            · rw [apply_pubs hkk]; exact hk
          exact absurd g1 (hpers ws _ hsome)
        · refine .inr ⟨g1, fun l hl => ?_⟩
          rcases List.mem_cons.1 hl with he | hl
          · exact hw ⟨l, he.symm⟩
          · exact g2 l hl
  intro ws hw j
  rcases gen ws ks (fun j l hl => (hw j l).1 hl) (fun j => .inl (h0 j)) j with h | ⟨h1, h2⟩
  · exact h
  · rw [h1]
    cases ha : all[j]? with
    | none => rfl
    | some l => exact absurd ((hw j l).2 ha) (h2 l)

theorem makeCreator_known {algo : Option Algo} {t : Option Sec} {st : List Char} {ti : Option Nat} {rs : Nat} {cr : Creator}
    (h : makeCreator algo t st ti rs = .ok cr) : cr.algo ≠ .other := by
  unfold makeCreator at h
  split at h
  · simp at h; subst h; simp
  · split at h
    · simp at h; subst h; simp
    · simp at h; subst h; simp
    · simp at h
  · simp at h

theorem ingest_out {env : Env} {ks : Ks} {mem : Mem} (he : mem.enc = none) {a : IngestArgs} :
    (∃ e, (ingest env ks mem a).2 = .error e ∧ ∀ w ∈ (ingest env ks mem a).1, w.sitKey = none ∧ w.prmKey = none ∧ w.pubKey = none ∧ ∀ k, w ≠ .prisRem k) ∨
      (a.iridx < a.secs.length → ∃ pre all s, (ingest env ks mem a).2 = .ok (pre, a.secs) ∧ IngestOut ks a pre all s (ingest env ks mem a).1) := by
  unfold ingest
  split
  · exact .inl ⟨_, rfl, by simp⟩
  split
  · exact .inl ⟨_, rfl, by simp⟩
  rename_i t ht
  split
  · exact .inl ⟨_, rfl, by simp⟩
  rename_i pidx hpidx
  split
  · exact .inl ⟨_, rfl, by simp⟩
  rename_i cr hcr
  split
  · refine .inl ⟨_, rfl, fun w hw => ?_⟩
    rw [putPris_none] at hw
    obtain ⟨k, _, rfl⟩ := mem_puts hw
    exact ⟨rfl, rfl, rfl, by simp⟩
  · exact .inl ⟨_, rfl, by simp⟩
  rename_i pre prest rest hsecs
  split
  · exact .inl ⟨_, rfl, by simp⟩
  split
  · exact .inl ⟨_, rfl, by simp⟩
  rename_i hpres
  have hpres : ks.pres pre = none := by simpa using hpres
  split
  · exact .inl ⟨_, rfl, by simp [Wr.sitKey, Wr.prmKey, Wr.pubKey]⟩
  rename_i hprms
  have hprms : ks.prms.at' pre = none := by simpa using hprms
  right
  intro hi
  dsimp only
  rw [he]
  obtain ⟨wl, f1, f2, f3, f4⟩ := ingestLoop_all (env := env) (iridx := a.iridx) (pre := pre) a.secs 0 0 (ks.sits pre) (fun _ h => absurd rfl h)
  have habout := @ingestLoop_about env none a.iridx pre a.secs 0 0 (ks.sits pre)
  have hprmsl := fun k q => @ingestLoop_prms env none a.iridx pre k q a.secs 0 0 (ks.sits pre)
  obtain ⟨t, t1, t2, t3, t4, t5⟩ := loopSit_all (iridx := a.iridx) a.secs 0 0 (ks.sits pre) (by omega) (by simpa using hi)
  rw [f1] at habout hprmsl ⊢
  dsimp only at habout hprmsl ⊢
  rw [t1, putPris_none]
  generalize hcreated : cr.create env a.rnd (List.replicate a.ncount a.ncode) pidx (0 + a.secs.length) (0 + a.secs.flatten.length) a.tr a.temp = created
  have hcl : created.length = a.ncount := by rw [← hcreated]; simp [Creator.create]
  simp only [Nat.zero_add] at *
  have hall : ∀ j, (a.secs ++ [created])[j]? = if j = a.secs.length then some created else a.secs[j]? := by
    intro j
    split
    · rename_i h; subst h; simp
    · rename_i h
      rcases Nat.lt_or_ge j a.secs.length with g | g
      · rw [List.getElem?_append_left g]
      · rw [List.getElem?_eq_none g, List.getElem?_eq_none]; simp; omega
  have hlt : ∀ j, j < a.secs.length → (a.secs ++ [created])[j]? = a.secs[j]? := fun j hj => by rw [hall, if_neg (by omega)]
  -- facts that do not depend on whether the situation is written once more
  have common : ∀ (x : List Wr) (s : Sit), (∀ w ∈ x, ∃ s, w = Wr.sits pre s) →
      (ks.applyAll ([Wr.pres pre pre, .prms pre ⟨pidx, cr.algo, cr.salt.map (lock none), cr.stem, cr.tier⟩, .pidx (pidx + 1)] ++ wl ++ puts none created ++
        [.pubsPut pre a.secs.length created] ++ x)).sits pre = some s → s.old = t.old → s.new = t.new →
      (a.secs ++ [created])[a.iridx + 1]? = some s.nxt.pubs → s.nxt.ridx = a.iridx + 1 →
      IngestOut ks a pre (a.secs ++ [created]) s ([Wr.pres pre pre, .prms pre ⟨pidx, cr.algo, cr.salt.map (lock none), cr.stem, cr.tier⟩, .pidx (pidx + 1)] ++ wl ++ puts none created ++
        [.pubsPut pre a.secs.length created] ++ x) := by
    intro x s hx hsit ho hn hnx hri
    have hxs : storedKeys x = [] := by
      rw [List.eq_nil_iff_forall_not_mem]
      intro k hk
      obtain ⟨v, hv⟩ := mem_storedKeys.1 hk
      obtain ⟨s, hs⟩ := hx _ hv
      cases hs
    refine ⟨⟨prest, rest, hsecs⟩, ⟨created, hcl, rfl⟩, hpres, hprms, ?_, fun w hw => ?_, ?_, fun hnone => pubs_of_puts hnone fun j l => ?_, hsit, ?_, ?_, hnx, hri⟩
    · rw [storedKeys_append, storedKeys_append, storedKeys_append, storedKeys_append, storedKeys_puts, hxs, f2]
      simp [storedKeys]
    · simp only [List.mem_append, List.mem_cons, List.not_mem_nil, or_false] at hw
      rcases hw with ((((rfl | rfl | rfl) | hw) | hw) | rfl) | hw
      · rfl
      · rfl
      · trivial
      · exact habout hw
      · obtain ⟨k, _, rfl⟩ := mem_puts hw; rfl
      · rfl
      · obtain ⟨s, rfl⟩ := hx _ hw; rfl
    · refine ⟨⟨pidx, cr.algo, cr.salt.map (lock none), cr.stem, cr.tier⟩, pidx + 1, wl ++ puts none created ++ [.pubsPut pre a.secs.length created] ++ x, by simp, makeCreator_known hcr, fun w hw => ?_⟩
      simp only [List.mem_append, List.mem_cons, List.not_mem_nil, or_false] at hw
      rcases hw with ((hw | hw) | rfl) | hw
      · have := habout hw
        cases w with
        | prms k q => exact absurd hw (hprmsl k q)
        | prmsRem k => exact absurd this (by simp [Wr.about])
        | _ => rfl
      · obtain ⟨k, _, rfl⟩ := mem_puts hw; rfl
      · rfl
      · obtain ⟨s, rfl⟩ := hx _ hw; rfl
    · simp only [List.mem_append, List.mem_cons, List.not_mem_nil, or_false, reduceCtorEq, false_or, Wr.pubsPut.injEq, true_and]
      rw [f3, hall]
      have h1 : Wr.pubsPut pre j l ∉ puts none created := fun h => by obtain ⟨k, _, he⟩ := mem_puts h; cases he
      have h2 : Wr.pubsPut pre j l ∉ x := fun h => by obtain ⟨s, he⟩ := hx _ h; cases he
      simp only [h1, h2, or_false, Nat.zero_le, true_and, Nat.sub_zero]
      constructor
      · rintro (h | ⟨rfl, rfl⟩)
        · have : j < a.secs.length := by
            rcases Nat.lt_or_ge j a.secs.length with g | g
            · exact g
            · rw [List.getElem?_eq_none g] at h; simp at h
          rw [if_neg (by omega)]; exact h
        · rw [if_pos rfl]
      · split
        · rename_i h; intro he; simp at he; exact .inr ⟨h, he.symm⟩
        · intro h; exact .inl h
    · rw [ho]
      simp only [Nat.sub_zero] at t2
      by_cases hz : a.iridx = 0
      · rw [if_pos hz] at t2 ⊢; exact t2
      · rw [if_neg hz] at t2 ⊢; rw [hlt _ (by omega)]; exact t2
    · rw [hn, hlt _ hi]; simpa using t3
  have hbase : (ks.applyAll ([Wr.pres pre pre, .prms pre ⟨pidx, cr.algo, cr.salt.map (lock none), cr.stem, cr.tier⟩, .pidx (pidx + 1)] ++ wl)).sits pre = some t := by
    rw [applyAll_append, f4 _ (by simp [Ks.apply]), t1]
  have htail : ∀ (k : Ks), (k.applyAll (puts none created ++ [.pubsPut pre a.secs.length created])).sits pre = k.sits pre := by
    intro k
    refine applyAll_sits fun w hw => ?_
    simp only [List.mem_append, List.mem_cons, List.not_mem_nil, or_false] at hw
    rcases hw with hw | rfl
    · obtain ⟨k, _, rfl⟩ := mem_puts hw; simp [Wr.sitKey]
    · simp [Wr.sitKey]
  by_cases hl : a.secs.length = a.iridx + 1
  · rw [if_pos hl]
    refine ⟨pre, _, _, rfl, common _ { t with nxt := ⟨created, a.secs.length, a.secs.flatten.length⟩ } (by simp) ?_ rfl rfl ?_ hl⟩
    · rw [applyAll_append]; simp [Ks.apply]
    · rw [hall, if_pos hl.symm]
  · rw [if_neg hl]
    obtain ⟨l, hnl⟩ : ∃ l, a.secs[a.iridx + 1]? = some l := ⟨a.secs[a.iridx + 1]'(by omega), List.getElem?_eq_getElem (by omega)⟩
    obtain ⟨g1, g2⟩ := t4 l (by simpa using hnl)
    have hc := common [] t (by simp) (by rw [List.append_nil, List.append_assoc, applyAll_append, htail]; exact hbase) rfl rfl
      (by rw [hall, if_neg (by omega), hnl, g1]) g2
    rw [List.append_nil] at hc
    exact ⟨pre, _, _, rfl, hc⟩

end Verif.Mgr
