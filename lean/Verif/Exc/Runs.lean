import Verif.Exc.Lemmas
import Verif.Kel.Val

/-! # Invariants of histories -/

namespace Verif.Exc

open Verif.Thold (Thold)
open Verif.Kel (Id Dig Sig)
open Verif.Krm (Tab get_pin get_put get_rem get_mem)

variable {routes : Routes} {env : Env} {now : Int} {e : Exc} {m : Msg} {a : Att}

theorem processWaiting_cases (d : Dig) : processWaiting routes env now e d m = unescrow e d ∨
    processWaiting routes env now e d m = (process routes env now e m (stored e d)).1 ∨
    processWaiting routes env now e d m = unescrow (process routes env now e m (stored e d)).1 d := by
  unfold processWaiting
  cases e.epsd.get d with
  | none => exact Or.inl rfl
  | some t =>
    dsimp only
    by_cases h : 10000000 < now - t
    · rw [if_pos h]; exact Or.inl rfl
    · rw [if_neg h]
      rcases hx : process routes env now e m (stored e d) with ⟨e', r⟩
      cases r with
      | ok u => exact Or.inr (Or.inr rfl)
      | error x => cases x <;> first | exact Or.inr (Or.inl rfl) | exact Or.inr (Or.inr rfl)

theorem history_ind {α : Type} {P : List α → Prop} (h0 : P []) (h1 : ∀ l x, P l → P (l ++ [x])) (l : List α) : P l := by
  have h : ∀ l : List α, P l.reverse := by
    intro l
    induction l with
    | nil => exact h0
    | cons x l ih => rw [List.reverse_cons]; exact h1 _ _ ih
  have := h l.reverse
  rwa [List.reverse_reverse] at this

/-- Invariants of histories: those of every delivery, of every message that waits and is processed again, and of the end of waiting. -/
theorem run_inv {P : List Step → Exc → Prop} (h0 : P [] {}) (mono : ∀ l s e, P l e → P (l ++ [s]) e)
    (hd : ∀ l e env now m a, P (l ++ [.deliver env now m a]) e → P (l ++ [.deliver env now m a]) (process routes env now e m a).1)
    (hp : ∀ l e0 e env now d m, P (l ++ [.pass env now]) e0 → (d, m) ∈ e0.epse → P (l ++ [.pass env now]) e →
      P (l ++ [.pass env now]) (process routes env now e m (stored e d)).1)
    (hu : ∀ l e d, P l e → P l (unescrow e d)) (l : List Step) : P l (run routes l) := by
  refine history_ind (P := fun l => P l (run routes l)) h0 (fun l s ih => ?_) l
  · have hr : run routes (l ++ [s]) = step routes (run routes l) s := by simp [run]
    rw [hr]
    have h := mono l s _ ih
    cases s with
    | deliver env now m a => exact hd _ _ _ _ _ _ h
    | pass env now =>
      show P _ (processEscrow routes env now (run routes l))
      unfold processEscrow
      have key : ∀ (w : List (Dig × Msg)) (e : Exc), (∀ x ∈ w, x ∈ (run routes l).epse) → P (l ++ [.pass env now]) e →
          P (l ++ [.pass env now]) (w.foldl (fun e x => processWaiting routes env now e x.1 x.2) e) := by
        intro w
        induction w with
        | nil => intro e _ he; exact he
        | cons x w ihw =>
          intro e hw he
          rw [List.foldl_cons]
          refine ihw _ (fun y hy => hw y (List.mem_cons_of_mem _ hy)) ?_
          have hx := hp l _ e env now x.1 x.2 h (hw x List.mem_cons_self) he
          rcases processWaiting_cases (routes := routes) (env := env) (now := now) (e := e) (m := x.2) x.1 with h1 | h1 | h1
          · rw [h1]; exact hu _ _ _ he
          · rw [h1]; exact hx
          · rw [h1]; exact hu _ _ _ hx
      exact key _ _ (fun x hx => hx) h

theorem run_append (l : List Step) (s : Step) : run routes (l ++ [s]) = step routes (run routes l) s := by simp [run]

theorem mem_pin {κ ν : Type} [DecidableEq κ] {t : Tab κ ν} {k : κ} {v : ν} {x : κ × ν} (h : x ∈ Tab.pin t k v) : x ∈ t ∨ x = (k, v) := by
  induction t with
  | nil => exact Or.inr (List.mem_singleton.1 h)
  | cons y t ih =>
    unfold Tab.pin at h
    by_cases hk : y.1 = k
    · rw [if_pos hk] at h
      rcases List.mem_cons.1 h with h1 | h1
      · exact Or.inr h1
      · exact Or.inl (List.mem_cons_of_mem _ h1)
    · rw [if_neg hk] at h
      rcases List.mem_cons.1 h with h1 | h1
      · exact Or.inl (h1 ▸ List.mem_cons_self)
      · rcases ih h1 with h2 | h2
        · exact Or.inl (List.mem_cons_of_mem _ h2)
        · exact Or.inr h2

theorem mem_put {κ ν : Type} [DecidableEq κ] {t : Tab κ ν} {k : κ} {v : ν} {x : κ × ν} (h : x ∈ Tab.put t k v) : x ∈ t ∨ x = (k, v) := by
  unfold Tab.put at h
  split at h
  · exact Or.inl h
  · exact mem_pin h

theorem mem_rem {κ ν : Type} [DecidableEq κ] {t : Tab κ ν} {k : κ} {x : κ × ν} (h : x ∈ Tab.rem t k) : x ∈ t := (List.mem_filter.1 h).1

/-! ## Signatures -/

/-- The signature is in a group for the event. -/
def InTsgs (l : List Tsg) (q : Quad) (s : Sig) : Prop := ∃ t ∈ l, t.1 = q ∧ s ∈ t.2

theorem inTsgs_addSig {q q' : Quad} {s s' : Sig} : ∀ {l : List Tsg}, InTsgs (addSig q s l) q' s' ↔ InTsgs l q' s' ∨ (q' = q ∧ s' = s)
  | [] => by
    constructor
    · rintro ⟨t, ht, h1, h2⟩
      rw [addSig, List.mem_singleton] at ht
      subst ht
      exact Or.inr ⟨h1.symm, List.mem_singleton.1 h2⟩
    · rintro (⟨t, ht, _⟩ | ⟨rfl, rfl⟩)
      · exact absurd ht (by simp)
      · exact ⟨_, List.mem_singleton.2 rfl, rfl, List.mem_singleton.2 rfl⟩
  | t :: l => by
    unfold addSig
    by_cases h : t.1 = q
    · rw [if_pos h]
      constructor
      · rintro ⟨u, hu, h1, h2⟩
        rcases List.mem_cons.1 hu with h3 | h3
        · subst h3
          dsimp only at h1 h2
          split at h2
          · exact Or.inl ⟨t, List.mem_cons_self, h1, h2⟩
          · rcases List.mem_append.1 h2 with h4 | h4
            · exact Or.inl ⟨t, List.mem_cons_self, h1, h4⟩
            · exact Or.inr ⟨h1.symm.trans h, List.mem_singleton.1 h4⟩
        · exact Or.inl ⟨u, List.mem_cons_of_mem _ h3, h1, h2⟩
      · rintro (⟨u, hu, h1, h2⟩ | ⟨rfl, rfl⟩)
        · rcases List.mem_cons.1 hu with h3 | h3
          · subst h3
            refine ⟨_, List.mem_cons_self, h1, ?_⟩
            dsimp only
            split
            · exact h2
            · exact List.mem_append_left _ h2
          · exact ⟨u, List.mem_cons_of_mem _ h3, h1, h2⟩
        · refine ⟨_, List.mem_cons_self, h, ?_⟩
          dsimp only
          split
          · assumption
          · exact List.mem_append_right _ (List.mem_singleton.2 rfl)
    · rw [if_neg h]
      by_cases h' : quadLt q t.1 = true
      · rw [if_pos h']
        constructor
        · rintro ⟨u, hu, h1, h2⟩
          rcases List.mem_cons.1 hu with h3 | h3
          · subst h3
            exact Or.inr ⟨h1.symm, List.mem_singleton.1 h2⟩
          · exact Or.inl ⟨u, h3, h1, h2⟩
        · rintro (⟨u, hu, h1, h2⟩ | ⟨rfl, rfl⟩)
          · exact ⟨u, List.mem_cons_of_mem _ hu, h1, h2⟩
          · exact ⟨_, List.mem_cons_self, rfl, List.mem_singleton.2 rfl⟩
      · rw [if_neg h']
        constructor
        · rintro ⟨u, hu, h1, h2⟩
          rcases List.mem_cons.1 hu with h3 | h3
          · exact Or.inl ⟨u, h3 ▸ List.mem_cons_self, h1, h2⟩
          · rcases (inTsgs_addSig (l := l)).1 ⟨u, h3, h1, h2⟩ with ⟨v, hv, h4⟩ | h4
            · exact Or.inl ⟨v, List.mem_cons_of_mem _ hv, h4⟩
            · exact Or.inr h4
        · rintro (⟨u, hu, h1, h2⟩ | h1)
          · rcases List.mem_cons.1 hu with h3 | h3
            · exact ⟨u, h3 ▸ List.mem_cons_self, h1, h2⟩
            · obtain ⟨v, hv, h4⟩ := (inTsgs_addSig (q := q) (s := s) (l := l)).2 (Or.inl ⟨u, h3, h1, h2⟩)
              exact ⟨v, List.mem_cons_of_mem _ hv, h4⟩
          · obtain ⟨v, hv, h4⟩ := (inTsgs_addSig (q := q) (s := s) (l := l)).2 (Or.inr h1)
            exact ⟨v, List.mem_cons_of_mem _ hv, h4⟩

theorem inTsgs_foldl {q q' : Quad} {s' : Sig} : ∀ (ss : List Sig) (l : List Tsg),
    InTsgs (ss.foldl (fun l s => addSig q s l) l) q' s' ↔ InTsgs l q' s' ∨ (q' = q ∧ s' ∈ ss)
  | [], l => by simp
  | s :: ss, l => by
    rw [List.foldl_cons, inTsgs_foldl ss, inTsgs_addSig, List.mem_cons]
    grind

theorem inTsgs_addTsgs {q : Quad} {s : Sig} : ∀ (ts l : List Tsg), InTsgs (addTsgs l ts) q s ↔ InTsgs l q s ∨ InTsgs ts q s
  | [], l => by simp [addTsgs, InTsgs]
  | t :: ts, l => by
    have : addTsgs l (t :: ts) = addTsgs (t.2.foldl (fun l s => addSig t.1 s l) l) ts := rfl
    rw [this, inTsgs_addTsgs ts, inTsgs_foldl]
    constructor
    · rintro ((h | ⟨h1, h2⟩) | ⟨u, hu, h1⟩)
      · exact Or.inl h
      · exact Or.inr ⟨t, List.mem_cons_self, h1.symm, h2⟩
      · exact Or.inr ⟨u, List.mem_cons_of_mem _ hu, h1⟩
    · rintro (h | ⟨u, hu, h1, h2⟩)
      · exact Or.inl (Or.inl h)
      · rcases List.mem_cons.1 hu with h3 | h3
        · subst h3
          exact Or.inl (Or.inr ⟨h1.symm, h2⟩)
        · exact Or.inr ⟨u, h3, h1, h2⟩

theorem items_pin {ν : Type} (t : Tab Dig (List ν)) (d d' : Dig) (l : List ν) : (Tab.pin t d l).items d' = if d = d' then l else t.items d' := by
  unfold Tab.items
  rw [get_pin]
  split <;> rfl

theorem verifySigs_mem {ss : List Sig} {keys : List Id} {s : Sig} : s ∈ verifySigs env m ss keys ↔ s ∈ ss ∧ GoodSig env m keys s := by
  unfold verifySigs GoodSig
  rw [List.mem_filter, Verif.Kel.mem_oset]
  constructor
  · rintro ⟨h, h2⟩
    refine ⟨h, ?_⟩
    cases hk : keys[s.index]? with
    | none => rw [hk] at h2; exact absurd h2 (by simp)
    | some k => rw [hk] at h2; exact ⟨k, rfl, h2⟩
  · rintro ⟨h, k, hk, h2⟩
    exact ⟨h, by rw [hk]; exact h2⟩

theorem verifySigs_nodup {ss : List Sig} {keys : List Id} : (verifySigs env m ss keys).Nodup :=
  (Verif.Kel.nodup_ioPut ss [] List.nodup_nil).filter _

theorem resolve_ok {q : Quad} {kt : Thold} {keys : List Id} (h : resolve env q = .ok (kt, keys)) : KeysAt env q keys kt := by
  unfold resolve at h
  by_cases ht : env.transferable q.1 = true
  · rw [if_pos ht] at h
    cases he : env.evt q.1 q.2.1 with
    | none => rw [he] at h; exact absurd h (by simp)
    | some x =>
      obtain ⟨d, o⟩ := x
      rw [he] at h
      dsimp only at h
      by_cases hd : d ≠ q.2.2
      · rw [if_pos hd] at h; exact absurd h (by simp)
      · rw [if_neg hd] at h
        cases o with
        | none => exact absurd h (by simp)
        | some y =>
          obtain ⟨ks, k⟩ := y
          simp only [Except.ok.injEq, Prod.mk.injEq] at h
          refine Or.inl ⟨ht, ?_⟩
          rw [he, ← h.1, ← h.2]
          simp at hd
          rw [hd]
  · rw [if_neg ht] at h
    simp only [Except.ok.injEq, Prod.mk.injEq] at h
    exact Or.inr ⟨by simpa using ht, h.2.symm, h.1.symm⟩

/-- A good group. -/
theorem checkSigs_good {t : Tsg} (h : checkSigs env m t = .good) : (∃ n, env.sn t.1.1 = some n ∧ t.1.2.1 ≤ n) ∧ ∃ kt keys, KeysAt env t.1 keys kt ∧
    Verif.Thold.satisfy kt ((verifySigs env m t.2 keys).map Sig.index) = true := by
  unfold checkSigs at h
  cases hn : env.sn t.1.1 with
  | none => rw [hn] at h; exact absurd h (by simp)
  | some n =>
    rw [hn] at h
    dsimp only at h
    by_cases hl : n < t.1.2.1
    · rw [if_pos hl] at h; exact absurd h (by simp)
    · rw [if_neg hl] at h
      refine ⟨⟨n, rfl, Nat.le_of_not_lt hl⟩, ?_⟩
      cases hr : resolve env t.1 with
      | error x => rw [hr] at h; exact absurd h (by simp)
      | ok p =>
        obtain ⟨kt, keys⟩ := p
        rw [hr] at h
        dsimp only at h
        refine ⟨kt, keys, resolve_ok hr, ?_⟩
        by_cases hs : Verif.Thold.satisfy kt ((verifySigs env m t.2 keys).map Sig.index) = true
        · exact hs
        · rw [if_neg hs] at h; exact absurd h (by simp)

theorem checkTsg_good {t : Tsg} (h : checkTsg env m t = .good) : t.1.1 = m.sender ∧ checkSigs env m t = .good := by
  unfold checkTsg at h
  by_cases hs : m.sender ≠ t.1.1
  · rw [if_pos hs] at h; exact absurd h (by simp)
  · rw [if_neg hs] at h
    exact ⟨(by simpa using hs : m.sender = t.1.1).symm, h⟩

end Verif.Exc
