import Verif.Mgr.Eff

/-!
# The key sets of all identifiers are kept apart

If no key is stored twice, the key sets of an identifier (old, current, next and those ingested for later) and those of all others have no key in common; so
erasing the old set of one takes no key away that is in use.
-/

namespace Verif.Mgr

open Verif.Kel (upd)

/-- The key sets of an identifier from the old one on. -/
def lotAt (s : Sit) (pubs : Nat → Option (List Nat)) : Nat → List Nat
  | 0 => s.old.pubs
  | 1 => s.new.pubs
  | 2 => s.nxt.pubs
  | i + 3 => (pubs (s.nxt.ridx + 1 + i)).getD []

/-- Key `k` is in key set `i` of `p`. -/
def InLot (ks : Ks) (p i k : Nat) : Prop := ∃ s, ks.prms.at' p ≠ none ∧ ks.sits p = some s ∧ k ∈ lotAt s (ks.pubs p) i

structure LotInv (M : List Nat) (ks : Ks) : Prop where
  made : ∀ {p i k}, InLot ks p i k → k ∈ M
  apart : ∀ {p i q j k}, InLot ks p i k → InLot ks q j k → p = q ∧ i = j

/-- Key sets of the new store are key sets of the old one, each of another, or new ones. -/
theorem LotInv.pass {M N : List Nat} {ks ks' : Ks} (h : LotInv M ks) (hn : (M ++ N).Nodup) (R : Nat → Nat → Nat → Nat → Prop) (F : Nat → Nat → Nat → Prop)
    (hL : ∀ p i k, InLot ks' p i k → (∃ p' i', R p i p' i' ∧ InLot ks p' i' k) ∨ (k ∈ N ∧ F p i k))
    (hR : ∀ p i q j p' i', R p i p' i' → R q j p' i' → p = q ∧ i = j) (hF : ∀ p i q j k, k ∈ N → F p i k → F q j k → p = q ∧ i = j) : LotInv (M ++ N) ks' := by
  rw [List.nodup_append] at hn
  constructor
  · intro p i k hk
    rcases hL p i k hk with ⟨p', i', _, h'⟩ | ⟨h', _⟩
    · exact List.mem_append_left _ (h.made h')
    · exact List.mem_append_right _ h'
  · intro p i q j k h1 h2
    rcases hL p i k h1 with ⟨p', i', r1, g1⟩ | ⟨g1, f1⟩ <;> rcases hL q j k h2 with ⟨q', j', r2, g2⟩ | ⟨g2, f2⟩
    · obtain ⟨rfl, rfl⟩ := h.apart g1 g2
      exact hR _ _ _ _ _ _ r1 r2
    · exact absurd rfl (hn.2.2 k (h.made g1) k g2)
    · exact absurd rfl (hn.2.2 k (h.made g2) k g1)
    · exact hF _ _ _ _ _ g1 f1 f2

theorem Rest.lot {ks ks' : Ks} {p i k : Nat} (h : Rest ks ks' p) (hk : InLot ks' p i k) : InLot ks p i k := by
  obtain ⟨s, h1, h2, h3⟩ := hk
  exact ⟨s, fun hc => h1 (h.prms.2 hc), by rw [← h.sits]; exact h2, by rw [← h.pubs]; exact h3⟩

theorem nodup_flatten_idx {all : List (List Nat)} (h : all.flatten.Nodup) {i j k : Nat} {a b : List Nat} (ha : all[i]? = some a) (hb : all[j]? = some b)
    (hka : k ∈ a) (hkb : k ∈ b) : i = j := by
  induction all generalizing i j with
  | nil => simp at ha
  | cons l all ih =>
    rw [List.flatten_cons, List.nodup_append] at h
    cases i with
    | zero =>
      cases j with
      | zero => rfl
      | succ j =>
        simp at ha hb
        subst ha
        exact absurd rfl (h.2.2 k hka k (List.mem_flatten.2 ⟨b, List.mem_of_getElem? hb, hkb⟩))
    | succ i =>
      cases j with
      | zero =>
        simp at ha hb
        subst hb
        exact absurd rfl (h.2.2 k hkb k (List.mem_flatten.2 ⟨a, List.mem_of_getElem? ha, hka⟩))
      | succ j =>
        simp at ha hb
        rw [ih h.2.1 ha hb]

/-- The key sets after a turn are the following ones, with a new one perhaps. -/
theorem turned_lot {ps : Sit} {nxts : List Nat} {kx : Nat} {pubs pubs' : Nat → Option (List Nat)} (later : ∀ j, j ≠ ps.nxt.ridx + 1 → pubs' j = pubs j) {i k : Nat}
    (h : k ∈ lotAt ⟨ps.new, ps.nxt, ⟨nxts, ps.nxt.ridx + 1, kx⟩⟩ pubs' i) : (i ≠ 2 ∧ k ∈ lotAt ps pubs (i + 1)) ∨ (i = 2 ∧ k ∈ nxts) := by
  match i, h with
  | 0, h => exact .inl ⟨by omega, h⟩
  | 1, h => exact .inl ⟨by omega, h⟩
  | 2, h => exact .inr ⟨rfl, h⟩
  | i + 3, h =>
    refine .inl ⟨by omega, ?_⟩
    have h : k ∈ (pubs' (ps.nxt.ridx + 1 + 1 + i)).getD [] := h
    rw [later _ (by omega)] at h
    show k ∈ (pubs (ps.nxt.ridx + 1 + (i + 1))).getD []
    rw [show ps.nxt.ridx + 1 + (i + 1) = ps.nxt.ridx + 1 + 1 + i by omega]; exact h

/-- The key sets after `ingest` are those given and created, from the one before the current. -/
theorem took_lot {all : List (List Nat)} {i : Nat} {s : Sit} {pubs : Nat → Option (List Nat)} (hp : ∀ j, pubs j = all[j]?)
    (old : if i = 0 then s.old.pubs = [] else all[i - 1]? = some s.old.pubs) (new : all[i]? = some s.new.pubs) (nxt : all[i + 1]? = some s.nxt.pubs)
    (ridx : s.nxt.ridx = i + 1) {m k : Nat} (h : k ∈ lotAt s pubs m) : ∃ j l, j + 1 = i + m ∧ all[j]? = some l ∧ k ∈ l := by
  match m, h with
  | 0, h =>
    have h : k ∈ s.old.pubs := h
    split at old
    · rw [old] at h; simp at h
    · exact ⟨i - 1, _, by omega, old, h⟩
  | 1, h => exact ⟨i, _, by omega, new, h⟩
  | 2, h => exact ⟨i + 1, _, by omega, nxt, h⟩
  | m + 3, h =>
    have h : k ∈ (pubs (s.nxt.ridx + 1 + m)).getD [] := h
    rw [hp, ridx] at h
    cases ha : all[i + 1 + 1 + m]? with
    | none => rw [ha] at h; simp at h
    | some l => rw [ha] at h; exact ⟨i + 1 + 1 + m, l, by omega, ha, h⟩

theorem Known.noSit {ks : Ks} (h : Known ks) {p : Nat} (hp : ks.pres p = none) : ks.prms.at' p = none ∧ ks.sits p = none ∧ ∀ j, ks.pubs p j = none := by
  refine ⟨?_, ?_, fun j => ?_⟩
  · cases hc : ks.prms.at' p with
    | none => rfl
    | some _ => exact absurd hp (h p (.inl (by rw [hc]; simp)))
  · cases hc : ks.sits p with
    | none => rfl
    | some _ => exact absurd hp (h p (.inr (.inl (by rw [hc]; simp))))
  · cases hc : ks.pubs p j with
    | none => rfl
    | some _ => exact absurd hp (h p (.inr (.inr ⟨j, by rw [hc]; simp⟩)))

theorem Known.next {N : List Nat} {ks ks' : Ks} {x : Inp × Option Res} (h : Known ks) (e : Eff N ks ks' x) (hp : ∀ p, ks.pres p ≠ none → ks'.pres p ≠ none) : Known ks' := by
  have rest : ∀ p, Rest ks ks' p → (ks'.prms.at' p ≠ none ∨ ks'.sits p ≠ none ∨ ∃ j, ks'.pubs p j ≠ none) → ks'.pres p ≠ none := by
    intro p r hq
    refine hp p (h p ?_)
    rcases hq with hq | hq | ⟨j, hq⟩
    · exact .inl fun hc => hq (r.prms.2 hc)
    · exact .inr (.inl (by rw [← r.sits]; exact hq))
    · exact .inr (.inr ⟨j, by rw [← r.pubs]; exact hq⟩)
  intro p hq
  cases e with
  | quiet r _ _ _ _ => exact rest p (r p) hq
  | began pre _ _ _ _ taken r =>
    by_cases hpp : p = pre
    · rw [hpp]; exact taken
    · exact rest p (r p hpp) hq
  | turned pre ps _ _ prms _ _ _ r =>
    by_cases hpp : p = pre
    · rw [hpp]; exact hp _ (h _ (.inl prms))
    · exact rest p (r p hpp) hq
  | took pre _ _ _ _ _ taken r =>
    by_cases hpp : p = pre
    · rw [hpp]; exact taken
    · exact rest p (r p hpp) hq
  | moved old new _ _ pold _ taken _ _ _ _ _ _ r =>
    by_cases h1 : p = old
    · rw [h1]; exact hp _ pold
    · by_cases h2 : p = new
      · rw [h2]; exact taken
      · exact rest p (r p h1 h2) hq

theorem began_lot {pubs nxts : List Nat} {f : Nat → Option (List Nat)} (later : ∀ j, 1 < j → f j = none) {i k : Nat}
    (h : k ∈ lotAt ⟨.empty, ⟨pubs, 0, 0⟩, ⟨nxts, 1, pubs.length⟩⟩ f i) : (i = 1 ∧ k ∈ pubs) ∨ (i = 2 ∧ k ∈ nxts) := by
  match i, h with
  | 0, h => simp [lotAt, Lot.empty] at h
  | 1, h => exact .inl ⟨rfl, h⟩
  | 2, h => exact .inr ⟨rfl, h⟩
  | i + 3, h =>
    have h : k ∈ (f (1 + 1 + i)).getD [] := h
    rw [later _ (by omega)] at h
    simp at h

theorem LotInv.next {M N : List Nat} {ks ks' : Ks} {x : Inp × Option Res} (h : LotInv M ks) (hn : (M ++ N).Nodup) (e : Eff N ks ks' x) : LotInv (M ++ N) ks' := by
  have hnn : N.Nodup := (List.nodup_append.1 hn).2.1
  cases e with
  | quiet r _ _ _ _ =>
    exact h.pass hn (fun p i p' i' => p = p' ∧ i = i') (fun _ _ _ => False) (fun p i k hp => .inl ⟨p, i, ⟨rfl, rfl⟩, (r p).lot hp⟩)
      (fun p i q j p' i' h1 h2 => ⟨h1.1.trans h2.1.symm, h1.2.trans h2.2.symm⟩) (fun _ _ _ _ _ _ h => h.elim)
  | began pre pubs nxts hN fresh taken r sits later came kept whole =>
    refine h.pass hn (fun p i p' i' => p = p' ∧ i = i') (fun p i k => p = pre ∧ ((i = 1 ∧ k ∈ pubs) ∨ (i = 2 ∧ k ∈ nxts))) (fun p i k hp => ?_)
      (fun p i q j p' i' h1 h2 => ⟨h1.1.trans h2.1.symm, h1.2.trans h2.2.symm⟩) ?_
    · by_cases hpp : p = pre
      · subst hpp
        right
        obtain ⟨s, _, h2, h3⟩ := hp
        rcases sits with hs | hs
        · rw [hs] at h2; simp at h2
        · rw [hs] at h2
          simp at h2; subst h2
          have := began_lot later h3
          refine ⟨?_, rfl, this⟩
          rw [hN]
          rcases this with ⟨_, hm⟩ | ⟨_, hm⟩ <;> simp [hm]
      · exact .inl ⟨p, i, ⟨rfl, rfl⟩, (r p hpp).lot hp⟩
    · rintro p i q j k hkN ⟨rfl, h1⟩ ⟨rfl, h2⟩
      refine ⟨rfl, ?_⟩
      rw [hN, List.nodup_append] at hnn
      rcases h1 with ⟨rfl, h1⟩ | ⟨rfl, h1⟩ <;> rcases h2 with ⟨rfl, h2⟩ | ⟨rfl, h2⟩
      · rfl
      · exact absurd rfl (hnn.2.2 k h1 k h2)
      · exact absurd rfl (hnn.2.2 k h2 k h1)
      · rfl
  | turned pre ps nxts erase prms sits hN read r prms' sits' later came kept told whole =>
    obtain ⟨kx, sits'⟩ := sits'
    refine h.pass hn (fun p i p' i' => p = p' ∧ if p = pre then i' = i + 1 else i = i') (fun p i k => p = pre ∧ i = 2) (fun p i k hp => ?_)
      (fun p i q j p' i' h1 h2 => ?_) (fun p i q j k _ h1 h2 => ⟨h1.1.trans h2.1.symm, h1.2.trans h2.2.symm⟩)
    · by_cases hpp : p = pre
      · subst hpp
        obtain ⟨s, _, h2, h3⟩ := hp
        rw [sits'] at h2
        simp at h2; subst h2
        rcases turned_lot later h3 with ⟨_, g⟩ | ⟨rfl, g⟩
        · exact .inl ⟨p, i + 1, ⟨rfl, by rw [if_pos rfl]⟩, ps, prms, sits, g⟩
        · rcases hN with rfl | ⟨_, hN⟩
          · exact .inr ⟨g, rfl, rfl⟩
          · refine .inl ⟨p, 3, ⟨rfl, by rw [if_pos rfl]⟩, ps, prms, sits, ?_⟩
            show k ∈ (ks.pubs p (ps.nxt.ridx + 1 + 0)).getD []
            rw [Nat.add_zero, hN]; exact g
      · exact .inl ⟨p, i, ⟨rfl, by rw [if_neg hpp]⟩, (r p hpp).lot hp⟩
    · obtain ⟨rfl, h1⟩ := h1
      obtain ⟨rfl, h2⟩ := h2
      refine ⟨rfl, ?_⟩
      split at h1
      · rw [if_pos ‹_›] at h2; omega
      · rw [if_neg ‹_›] at h2; omega
  | took pre all m s hN fresh taken r prms sits pubs old new nxt ridx came kept whole told shown =>
    refine h.pass hn (fun p i p' i' => p = p' ∧ i = i') (fun p i k => p = pre ∧ ∃ j l, j + 1 = m + i ∧ all[j]? = some l ∧ k ∈ l) (fun p i k hp => ?_)
      (fun p i q j p' i' h1 h2 => ⟨h1.1.trans h2.1.symm, h1.2.trans h2.2.symm⟩) ?_
    · by_cases hpp : p = pre
      · subst hpp
        right
        obtain ⟨s', _, h2, h3⟩ := hp
        rw [sits] at h2
        simp at h2; subst h2
        obtain ⟨j, l, g1, g2, g3⟩ := took_lot pubs old new nxt ridx h3
        exact ⟨by rw [hN]; exact List.mem_flatten.2 ⟨l, List.mem_of_getElem? g2, g3⟩, rfl, j, l, g1, g2, g3⟩
      · exact .inl ⟨p, i, ⟨rfl, rfl⟩, (r p hpp).lot hp⟩
    · rintro p i q j k hkN ⟨rfl, a, l, a1, a2, a3⟩ ⟨rfl, b, l', b1, b2, b3⟩
      refine ⟨rfl, ?_⟩
      rw [hN] at hnn
      have := nodup_flatten_idx hnn a2 b2 a3 b3
      omega
  | moved old new sit ne pold pnew taken prms sits prms' sits' gone pubs r pris told shown =>
    refine h.pass hn (fun p i p' i' => i = i' ∧ if p = new then p' = old else p = p' ∧ p ≠ old) (fun _ _ _ => False) (fun p i k hp => ?_)
      (fun p i q j p' i' h1 h2 => ?_) (fun _ _ _ _ _ _ h => h.elim)
    · left
      by_cases h1 : p = new
      · subst h1
        obtain ⟨s, _, h2, h3⟩ := hp
        rw [sits'] at h2
        simp at h2; subst h2
        refine ⟨old, i, ⟨rfl, by rw [if_pos rfl]⟩, sit, prms, sits, ?_⟩
        match i, h3 with
        | 0, h3 => exact h3
        | 1, h3 => exact h3
        | 2, h3 => exact h3
        | i + 3, h3 =>
          have h3 : k ∈ (ks'.pubs p (sit.nxt.ridx + 1 + i)).getD [] := h3
          cases hc : ks'.pubs p (sit.nxt.ridx + 1 + i) with
          | none => rw [hc] at h3; simp at h3
          | some l =>
            rw [hc] at h3
            show k ∈ (ks.pubs old (sit.nxt.ridx + 1 + i)).getD []
            rw [pubs _ l hc]; exact h3
      · by_cases h2 : p = old
        · subst h2
          obtain ⟨s, g, _, _⟩ := hp
          exact absurd gone g
        · exact ⟨p, i, ⟨rfl, by rw [if_neg h1]; exact ⟨rfl, h2⟩⟩, (r p h2 h1).lot hp⟩
    · obtain ⟨h1a, h1b⟩ := h1
      obtain ⟨h2a, h2b⟩ := h2
      refine ⟨?_, h1a.trans h2a.symm⟩
      split at h1b
      · split at h2b
        · omega
        · omega
      · split at h2b
        · omega
        · omega

/-- What was told as current is there. -/
def Usable (f : Nat → Option Keys) (ks : Ks) : Prop :=
  ∀ p k, f p = some k → ∃ s, ks.prms.at' p ≠ none ∧ ks.sits p = some s ∧ ∀ k ∈ s.new.pubs, ks.pris.at' k ≠ none

theorem Usable.next {M N : List Nat} {ks ks' : Ks} {x : Inp × Option Res} (hk : Known ks) (hl : LotInv M ks) {f : Nat → Option Keys} (h : Usable f ks) (e : Eff N ks ks' x) :
    Usable (Told.next f x) ks' := by
  have rest : ∀ p, Rest ks ks' p → (∀ s, ks.prms.at' p ≠ none → ks.sits p = some s → ∀ k ∈ s.new.pubs, ks.pris.at' k ≠ none → ks'.pris.at' k ≠ none) →
      (∃ s, ks.prms.at' p ≠ none ∧ ks.sits p = some s ∧ ∀ k ∈ s.new.pubs, ks.pris.at' k ≠ none) →
      ∃ s, ks'.prms.at' p ≠ none ∧ ks'.sits p = some s ∧ ∀ k ∈ s.new.pubs, ks'.pris.at' k ≠ none := by
    rintro p r hp ⟨s, h1, h2, h3⟩
    exact ⟨s, fun hc => h1 (r.prms.1 hc), by rw [r.sits]; exact h2, fun k hk => hp s h1 h2 k hk (h3 k hk)⟩
  have nofresh : ∀ {p k}, f p = some k → ks.pres p ≠ none := by
    intro p k hf
    obtain ⟨s, h1, _⟩ := h p k hf
    exact hk p (.inl h1)
  intro p k hf
  cases e with
  | quiet r came kept told shown =>
    rcases told f p k hf with g | g
    · exact rest p (r p) (fun _ _ _ k _ hp => kept k hp) (h p k g)
    · exact rest p (r p) (fun _ _ _ k _ hp => kept k hp) g.2
  | began pre pubs nxts hN fresh taken r sits later came kept whole =>
    rcases whole with ⟨_, w1, _⟩ | ⟨w1, w2, w3, w4, _⟩
    · rw [w1] at hf
      have hpp : p ≠ pre := by rintro rfl; exact nofresh hf fresh
      exact rest p (r p hpp) (fun _ _ _ k _ hp => kept k hp) (h p k hf)
    · by_cases hpp : p = pre
      · subst hpp
        have hs := sits.resolve_left w2
        exact ⟨_, w1, hs, fun q hq => w3 q (by rw [hN]; exact List.mem_append_left _ hq)⟩
      · rw [w4 f p hpp] at hf
        exact rest p (r p hpp) (fun _ _ _ k _ hp => kept k hp) (h p k hf)
  | turned pre ps nxts erase prms sits hN read r prms' sits' later came kept told whole =>
    by_cases hpp : p = pre
    · subst hpp
      rcases whole with ⟨_, w, _⟩ | _
      · rw [w] at hf; simp at hf
      · obtain ⟨kx, sits'⟩ := sits'
        refine ⟨_, prms', sits', fun q hq => kept q (fun hc => ?_) (read q hq)⟩
        have := (hl.apart ⟨ps, prms, sits, hq⟩ (⟨ps, prms, sits, hc⟩ : InLot ks p 0 q) : p = p ∧ 2 = 0)
        omega
    · rw [told f p hpp] at hf
      refine rest p (r p hpp) (fun s h1 h2 q hq hp => kept q (fun hc => ?_) hp) (h p k hf)
      exact hpp (hl.apart (⟨s, h1, h2, hq⟩ : InLot ks p 1 q) (⟨ps, prms, sits, hc⟩ : InLot ks pre 0 q)).1
  | took pre all m s hN fresh taken r prms sits pubs old new nxt ridx came kept whole told shown =>
    rw [told] at hf
    have hpp : p ≠ pre := by rintro rfl; exact nofresh hf fresh
    exact rest p (r p hpp) (fun _ _ _ k _ hp => kept k hp) (h p k hf)
  | moved old new sit ne pold pnew taken prms sits prms' sits' gone pubs r pris told shown =>
    rw [told] at hf
    by_cases h1 : p = old
    · subst h1; simp at hf
    · rw [upd_ne _ _ h1] at hf
      by_cases h2 : p = new
      · subst h2
        rw [upd_same] at hf
        obtain ⟨s, _, g2, g3⟩ := h old k hf
        rw [sits] at g2; simp at g2; subst g2
        exact ⟨sit, prms', sits', fun q hq => by rw [pris]; exact g3 q hq⟩
      · rw [upd_ne _ _ h2] at hf
        exact rest p (r p h1 h2) (fun _ _ _ k _ hp => by rw [pris]; exact hp) (h p k hf)

theorem firm_or (f : Nat → Option Keys) (x : Inp × Option Res) : (Repeats x ∧ Firm.next f x = f) ∨ (¬ Repeats x ∧ Firm.next f x = Told.next f x) := by
  unfold Firm.next
  split
  · exact .inl ⟨⟨_, _, _, rfl⟩, rfl⟩
  · rename_i hne
    refine .inr ⟨?_, rfl⟩
    rintro ⟨pre, er, k, rfl⟩
    exact hne _ _ _ rfl

/-- The key sets ingested for later are there. -/
def Far (ks : Ks) : Prop := ∀ p i k, 3 ≤ i → InLot ks p i k → ks.pris.at' k ≠ none

/-- What was told and is not in doubt: current and next keys are there. -/
def Ready (f : Nat → Option Keys) (ks : Ks) : Prop :=
  ∀ p k, f p = some k → ∃ s, ks.prms.at' p ≠ none ∧ ks.sits p = some s ∧ ∀ q, q ∈ s.new.pubs ∨ q ∈ s.nxt.pubs → ks.pris.at' q ≠ none

theorem Far.next {M N : List Nat} {ks ks' : Ks} {x : Inp × Option Res} (hl : LotInv M ks) (h : Far ks) (e : Eff N ks ks' x) : Far ks' := by
  intro p i k hi hp
  cases e with
  | quiet r came kept told shown => exact kept k (h p i k hi ((r p).lot hp))
  | began pre pubs nxts hN fresh taken r sits later came kept whole =>
    by_cases hpp : p = pre
    · subst hpp
      obtain ⟨s, _, h2, h3⟩ := hp
      rcases sits with hs | hs
      · rw [hs] at h2; simp at h2
      · rw [hs] at h2
        simp at h2; subst h2
        rcases began_lot later h3 with ⟨hm, _⟩ | ⟨hm, _⟩ <;> omega
    · exact kept k (h p i k hi ((r p hpp).lot hp))
  | turned pre ps nxts erase prms sits hN read r prms' sits' later came kept told whole =>
    obtain ⟨kx, sits'⟩ := sits'
    have stay : ∀ {p' i'}, 3 ≤ i' → InLot ks p' i' k → ks'.pris.at' k ≠ none := by
      intro p' i' hi' hin
      refine kept k (fun hc => ?_) (h p' i' k hi' hin)
      have := (hl.apart hin (⟨ps, prms, sits, hc⟩ : InLot ks pre 0 k)).2
      omega
    by_cases hpp : p = pre
    · subst hpp
      obtain ⟨s, _, h2, h3⟩ := hp
      rw [sits'] at h2
      simp at h2; subst h2
      rcases turned_lot later h3 with ⟨_, g⟩ | ⟨rfl, g⟩
      · exact stay (by omega : 3 ≤ i + 1) ⟨ps, prms, sits, g⟩
      · omega
    · exact stay hi ((r p hpp).lot hp)
  | took pre all m s hN fresh taken r prms sits pubs old new nxt ridx came kept whole told shown =>
    by_cases hpp : p = pre
    · subst hpp
      obtain ⟨s', _, h2, h3⟩ := hp
      rw [sits] at h2
      simp at h2; subst h2
      obtain ⟨j, l, g1, g2, g3⟩ := took_lot pubs old new nxt ridx h3
      exact whole k (by rw [hN]; exact List.mem_flatten.2 ⟨l, List.mem_of_getElem? g2, g3⟩)
    · exact kept k (h p i k hi ((r p hpp).lot hp))
  | moved old new sit ne pold pnew taken prms sits prms' sits' gone pubs r pris told shown =>
    rw [pris]
    by_cases h1 : p = new
    · subst h1
      obtain ⟨s, _, h2, h3⟩ := hp
      rw [sits'] at h2
      simp at h2; subst h2
      refine h old i k hi ⟨sit, prms, sits, ?_⟩
      match i, hi, h3 with
      | i + 3, _, h3 =>
        have h3 : k ∈ (ks'.pubs p (sit.nxt.ridx + 1 + i)).getD [] := h3
        cases hc : ks'.pubs p (sit.nxt.ridx + 1 + i) with
        | none => rw [hc] at h3; simp at h3
        | some l =>
          rw [hc] at h3
          show k ∈ (ks.pubs old (sit.nxt.ridx + 1 + i)).getD []
          rw [pubs _ l hc]; exact h3
    · by_cases h2 : p = old
      · subst h2
        obtain ⟨s, g, _, _⟩ := hp
        exact absurd gone g
      · exact h p i k hi ((r p h2 h1).lot hp)

theorem Ready.next {M N : List Nat} {ks ks' : Ks} {x : Inp × Option Res} (hk : Known ks) (hl : LotInv M ks) (hn : (M ++ N).Nodup) (hfar : Far ks)
    {f : Nat → Option Keys} (h : Ready f ks) (e : Eff N ks ks' x) : Ready (Firm.next f x) ks' := by
  rw [List.nodup_append] at hn
  have rest : ∀ p k, Rest ks ks' p → (∀ s q i, i = 1 ∨ i = 2 → ks.prms.at' p ≠ none → ks.sits p = some s → q ∈ lotAt s (ks.pubs p) i → ks.pris.at' q ≠ none → ks'.pris.at' q ≠ none) →
      f p = some k → ∃ s, ks'.prms.at' p ≠ none ∧ ks'.sits p = some s ∧ ∀ q, q ∈ s.new.pubs ∨ q ∈ s.nxt.pubs → ks'.pris.at' q ≠ none := by
    intro p k r hp hf
    obtain ⟨s, h1, h2, h3⟩ := h p k hf
    refine ⟨s, fun hc => h1 (r.prms.1 hc), by rw [r.sits]; exact h2, fun q hq => ?_⟩
    rcases hq with hq | hq
    · exact hp s q 1 (.inl rfl) h1 h2 hq (h3 q (.inl hq))
    · exact hp s q 2 (.inr rfl) h1 h2 hq (h3 q (.inr hq))
  have nofresh : ∀ {p k}, f p = some k → ks.pres p ≠ none := by
    intro p k hf
    obtain ⟨s, h1, _⟩ := h p k hf
    exact hk p (.inl h1)
  intro p k hf
  cases e with
  | quiet r came kept told shown =>
    refine rest p k (r p) (fun _ q _ _ _ _ _ hp => kept q hp) ?_
    rcases firm_or f x with ⟨_, he⟩ | ⟨hx, he⟩ <;> rw [he] at hf
    · exact hf
    · rcases told f p k hf with g | g
      · exact g
      · exact absurd g.1 hx
  | began pre pubs nxts hN fresh taken r sits later came kept whole =>
    have other : p ≠ pre → f p = some k → _ := fun hpp => rest p k (r p hpp) (fun _ q _ _ _ _ _ hp => kept q hp)
    rcases whole with ⟨_, w1, _⟩ | ⟨w1, w2, w3, w4, _⟩
    · have hf : f p = some k := by
        rcases firm_or f x with ⟨_, he⟩ | ⟨hx, he⟩ <;> rw [he] at hf
        · exact hf
        · rw [w1] at hf; exact hf
      exact other (by rintro rfl; exact nofresh hf fresh) hf
    · by_cases hpp : p = pre
      · subst hpp
        have hs := sits.resolve_left w2
        refine ⟨_, w1, hs, fun q hq => w3 q ?_⟩
        rw [hN]
        rcases hq with hq | hq
        · exact List.mem_append_left _ hq
        · exact List.mem_append_right _ hq
      · refine other hpp ?_
        rcases firm_or f x with ⟨_, he⟩ | ⟨hx, he⟩ <;> rw [he] at hf
        · exact hf
        · rw [w4 f p hpp] at hf; exact hf
  | turned pre ps nxts erase prms sits hN read r prms' sits' later came kept told whole =>
    obtain ⟨kx, sits'⟩ := sits'
    have stay : ∀ {p' i' q}, ¬ (p' = pre ∧ i' = 0) → InLot ks p' i' q → ks.pris.at' q ≠ none → ks'.pris.at' q ≠ none := by
      intro p' i' q hne hin
      exact kept q fun hc => hne (hl.apart hin (⟨ps, prms, sits, hc⟩ : InLot ks pre 0 q))
    by_cases hpp : p = pre
    · subst hpp
      rcases whole with ⟨⟨c, kc, hc⟩, w, _⟩ | ⟨w1, _⟩
      · rcases firm_or f x with ⟨⟨_, _, _, hx⟩, _⟩ | ⟨hx, he⟩
        · rw [hx] at hc; simp at hc
        · rw [he, w] at hf; simp at hf
      · refine ⟨_, prms', sits', fun q hq => ?_⟩
        rcases hq with hq | hq
        · exact stay (p' := p) (i' := 2) (by omega) ⟨ps, prms, sits, hq⟩ (read q hq)
        · rcases hN with rfl | ⟨_, hN⟩
          · exact w1 q hq fun hc => absurd rfl (hn.2.2 q (hl.made (⟨ps, prms, sits, hc⟩ : InLot ks p 0 q)) q hq)
          · have hin : InLot ks p 3 q := by
              refine ⟨ps, prms, sits, ?_⟩
              show q ∈ (ks.pubs p (ps.nxt.ridx + 1 + 0)).getD []
              rw [Nat.add_zero, hN]; exact hq
            exact stay (by omega) hin (hfar p 3 q (by omega) hin)
    · refine rest p k (r p hpp) (fun s q i hi h1 h2 hq hp => stay (p' := p) (i' := i) (by simp [hpp]) ⟨s, h1, h2, hq⟩ hp) ?_
      rcases firm_or f x with ⟨_, he⟩ | ⟨hx, he⟩ <;> rw [he] at hf
      · exact hf
      · rw [told f p hpp] at hf; exact hf
  | took pre all m s hN fresh taken r prms sits pubs old new nxt ridx came kept whole told shown =>
    have hf : f p = some k := by
      rcases firm_or f x with ⟨_, he⟩ | ⟨hx, he⟩ <;> rw [he] at hf
      · exact hf
      · rw [told] at hf; exact hf
    exact rest p k (r p (by rintro rfl; exact nofresh hf fresh)) (fun _ q _ _ _ _ _ hp => kept q hp) hf
  | moved old new sit ne pold pnew taken prms sits prms' sits' gone pubs r pris told shown =>
    rcases firm_or f x with ⟨⟨pre, er, kk, rfl⟩, he⟩ | ⟨hx, he⟩
    · have := congrFun (told fun _ => none) pre
      simp [Told.next] at this
      by_cases h1 : pre = old
      · subst h1; simp at this
      · rw [upd_ne _ _ h1] at this
        by_cases h2 : pre = new
        · subst h2; simp at this
        · rw [upd_ne _ _ h2] at this; simp at this
    · rw [he, told] at hf
      by_cases h1 : p = old
      · subst h1; simp at hf
      · rw [upd_ne _ _ h1] at hf
        by_cases h2 : p = new
        · subst h2
          rw [upd_same] at hf
          obtain ⟨s, _, g2, g3⟩ := h old k hf
          rw [sits] at g2; simp at g2; subst g2
          exact ⟨sit, prms', sits', fun q hq => by rw [pris]; exact g3 q hq⟩
        · rw [upd_ne _ _ h2] at hf
          exact rest p k (r p h1 h2) (fun _ q _ _ _ _ _ hp => by rw [pris]; exact hp) hf

/-- All key sets from the current one on are there. -/
def Whole (ks : Ks) : Prop := ∀ p i k, 1 ≤ i → InLot ks p i k → ks.pris.at' k ≠ none

theorem Whole.next {M N : List Nat} {ks ks' : Ks} {x : Inp × Option Res} (hl : LotInv M ks) (hn : (M ++ N).Nodup) (h : Whole ks)
    (hx : ∀ c k, x.1 ≠ .crash c k) (e : Eff N ks ks' x) : Whole ks' := by
  rw [List.nodup_append] at hn
  intro p i k hi hp
  cases e with
  | quiet r came kept told shown => exact kept k (h p i k hi ((r p).lot hp))
  | began pre pubs nxts hN fresh taken r sits later came kept whole =>
    rcases whole with ⟨⟨c, k, w⟩, _⟩ | ⟨_, _, w3, _⟩
    · exact absurd w (hx c k)
    · by_cases hpp : p = pre
      · subst hpp
        obtain ⟨s, _, h2, h3⟩ := hp
        rcases sits with hs | hs
        · rw [hs] at h2; simp at h2
        · rw [hs] at h2
          simp at h2; subst h2
          refine w3 k ?_
          rw [hN]
          rcases began_lot later h3 with ⟨_, hm⟩ | ⟨_, hm⟩ <;> simp [hm]
      · exact kept k (h p i k hi ((r p hpp).lot hp))
  | turned pre ps nxts erase prms sits hN read r prms' sits' later came kept told whole =>
    obtain ⟨kx, sits'⟩ := sits'
    have stay : ∀ {p' i'}, ¬ (p' = pre ∧ i' = 0) → 1 ≤ i' → InLot ks p' i' k → ks'.pris.at' k ≠ none := by
      intro p' i' hne hi' hin
      refine kept k (fun hc => ?_) (h p' i' k hi' hin)
      exact hne (hl.apart hin (⟨ps, prms, sits, hc⟩ : InLot ks pre 0 k))
    by_cases hpp : p = pre
    · subst hpp
      obtain ⟨s, _, h2, h3⟩ := hp
      rw [sits'] at h2
      simp at h2; subst h2
      rcases turned_lot later h3 with ⟨_, g⟩ | ⟨rfl, g⟩
      · exact stay (by omega) (by omega : 1 ≤ i + 1) ⟨ps, prms, sits, g⟩
      · rcases whole with ⟨⟨c, k, w⟩, _⟩ | ⟨w1, _⟩
        · exact absurd w (hx c k)
        · rcases hN with rfl | ⟨_, hN⟩
          · refine w1 k g fun hc => ?_
            exact absurd rfl (hn.2.2 k (hl.made (⟨ps, prms, sits, hc⟩ : InLot ks p 0 k)) k g)
          · refine stay (p' := p) (i' := 3) (by omega) (by omega) ⟨ps, prms, sits, ?_⟩
            show k ∈ (ks.pubs p (ps.nxt.ridx + 1 + 0)).getD []
            rw [Nat.add_zero, hN]; exact g
    · exact stay (by simp [hpp]) hi ((r p hpp).lot hp)
  | took pre all m s hN fresh taken r prms sits pubs old new nxt ridx came kept whole told shown =>
    by_cases hpp : p = pre
    · subst hpp
      obtain ⟨s', _, h2, h3⟩ := hp
      rw [sits] at h2
      simp at h2; subst h2
      obtain ⟨j, l, g1, g2, g3⟩ := took_lot pubs old new nxt ridx h3
      exact whole k (by rw [hN]; exact List.mem_flatten.2 ⟨l, List.mem_of_getElem? g2, g3⟩)
    · exact kept k (h p i k hi ((r p hpp).lot hp))
  | moved old new sit ne pold pnew taken prms sits prms' sits' gone pubs r pris told shown =>
    rw [pris]
    by_cases h1 : p = new
    · subst h1
      obtain ⟨s, _, h2, h3⟩ := hp
      rw [sits'] at h2
      simp at h2; subst h2
      refine h old i k hi ⟨sit, prms, sits, ?_⟩
      match i, h3 with
      | 0, h3 => exact h3
      | 1, h3 => exact h3
      | 2, h3 => exact h3
      | i + 3, h3 =>
        have h3 : k ∈ (ks'.pubs p (sit.nxt.ridx + 1 + i)).getD [] := h3
        cases hc : ks'.pubs p (sit.nxt.ridx + 1 + i) with
        | none => rw [hc] at h3; simp at h3
        | some l =>
          rw [hc] at h3
          show k ∈ (ks.pubs old (sit.nxt.ridx + 1 + i)).getD []
          rw [pubs _ l hc]; exact h3
    · by_cases h2 : p = old
      · subst h2
        obtain ⟨s, g, _, _⟩ := hp
        exact absurd gone g
      · exact h p i k hi ((r p h2 h1).lot hp)

/-- Replaced keys are gone: of the sets shown, all but the newest two. -/
structure Gone (M : List Nat) (g : Nat → List (List Nat)) (ks : Ks) : Prop where
  taken : ∀ p, g p ≠ [] → ks.pres p ≠ none
  sit : ∀ p s l t, ks.prms.at' p ≠ none → ks.sits p = some s → g p = l :: t → s.new.pubs = l ∧ ∀ l' r, t = l' :: r → s.old.pubs = l'
  gone : ∀ p, ∀ l ∈ (g p).drop 2, ∀ k ∈ l, k ∈ M ∧ ks.pris.at' k = none

theorem Gone.next {M N : List Nat} {ks ks' : Ks} {x : Inp × Option Res} (hkn : Known ks) (hl : LotInv M ks) (hn : (M ++ N).Nodup) {g : Nat → List (List Nat)} (h : Gone M g ks)
    (hpres : ∀ p, ks.pres p ≠ none → ks'.pres p ≠ none)
    (hx : ∀ c k, x.1 ≠ .crash c k) (her : ∀ p a, x.1 = .call (.rotate p a) → a.erase = true) (her' : ∀ p a b, x.1 = .call (.replay p a b) → b = true)
    (e : Eff N ks ks' x) : Gone (M ++ N) (Shown.next g x) ks' := by
  rw [List.nodup_append] at hn
  have away : ∀ {k}, Came N ks ks' → k ∈ M ∧ ks.pris.at' k = none → k ∈ M ++ N ∧ ks'.pris.at' k = none := by
    rintro k came ⟨h1, h2⟩
    refine ⟨List.mem_append_left _ h1, ?_⟩
    cases hc : ks'.pris.at' k with
    | none => rfl
    | some v =>
      rcases came k (by rw [hc]; simp) with h3 | h3
      · exact absurd h2 h3
      · exact absurd rfl (hn.2.2 k h1 k h3)
  have rest : ∀ p, Rest ks ks' p → ∀ s l t, ks'.prms.at' p ≠ none → ks'.sits p = some s → g p = l :: t → s.new.pubs = l ∧ ∀ l' r, t = l' :: r → s.old.pubs = l' := by
    intro p r s l t h1 h2 h3
    exact h.sit p s l t (fun hc => h1 (r.prms.2 hc)) (by rw [← r.sits]; exact h2) h3
  cases e with
  | quiet r came kept told shown =>
    rw [shown]
    exact ⟨fun p hp => hpres p (h.taken p hp), fun p => rest p (r p), fun p l hl' k hk => away came (h.gone p l hl' k hk)⟩
  | began pre pubs nxts hN fresh taken r sits later came kept whole =>
    rcases whole with ⟨⟨c, k, w⟩, _⟩ | ⟨_, _, _, _, w⟩
    · exact absurd w (hx c k)
    · rw [w]
      refine ⟨fun p hp => ?_, fun p s l t h1 h2 h3 => ?_, fun p l hl' k hk => ?_⟩
      · by_cases hpp : p = pre
        · rw [hpp]; exact taken
        · rw [upd_ne _ _ hpp] at hp; exact hpres p (h.taken p hp)
      · by_cases hpp : p = pre
        · subst hpp
          rw [upd_same] at h3
          rcases sits with hs | hs
          · rw [hs] at h2; simp at h2
          · rw [hs] at h2
            simp at h2 h3; subst h2
            exact ⟨h3.1, fun l' r hr => by rw [h3.2] at hr; simp at hr⟩
        · rw [upd_ne _ _ hpp] at h3; exact rest p (r p hpp) s l t h1 h2 h3
      · by_cases hpp : p = pre
        · subst hpp; rw [upd_same] at hl'; simp at hl'
        · rw [upd_ne _ _ hpp] at hl'; exact away came (h.gone p l hl' k hk)
  | turned pre ps nxts erase prms sits hN read r prms' sits' later came kept told whole =>
    obtain ⟨kx, sits'⟩ := sits'
    rcases whole with ⟨⟨c, k, w⟩, _⟩ | ⟨_, w2, w3, w4⟩
    · exact absurd w (hx c k)
    · have herase : erase = true := by
        rcases w4 with ⟨a, w4, w5⟩ | ⟨adv, w4⟩
        · rw [← w5]; exact her pre a w4
        · exact her' pre adv erase w4
      have w2 := w2 herase
      rw [w3]
      refine ⟨fun p hp => ?_, fun p s l t h1 h2 h3 => ?_, fun p l hl' k hk => ?_⟩
      · by_cases hpp : p = pre
        · rw [hpp]
          exact hpres pre (hkn pre (.inl prms))
        · rw [upd_ne _ _ hpp] at hp; exact hpres p (h.taken p hp)
      · by_cases hpp : p = pre
        · subst hpp
          rw [upd_same] at h3
          rw [sits'] at h2
          simp at h2 h3; subst h2
          refine ⟨h3.1, fun l' r hr => ?_⟩
          rw [← h3.2] at hr
          exact (h.sit p ps l' r prms sits hr).1
        · rw [upd_ne _ _ hpp] at h3; exact rest p (r p hpp) s l t h1 h2 h3
      · by_cases hpp : p = pre
        · subst hpp
          rw [upd_same] at hl'
          cases hg : g p with
          | nil => rw [hg] at hl'; simp at hl'
          | cons l1 t =>
            rw [hg] at hl'
            cases t with
            | nil => simp at hl'
            | cons l2 t =>
              simp at hl'
              rcases hl' with rfl | hl'
              · have := (h.sit p ps l1 (l :: t) prms sits hg).2 l t rfl
                rw [← this] at hk
                exact ⟨List.mem_append_left _ (hl.made (⟨ps, prms, sits, hk⟩ : InLot ks p 0 k)), w2 k hk⟩
              · exact away came (h.gone p l (by rw [hg]; simpa using hl') k hk)
        · rw [upd_ne _ _ hpp] at hl'; exact away came (h.gone p l hl' k hk)
  | took pre all m s hN fresh taken r prms sits pubs old new nxt ridx came kept whole told shown =>
    rw [shown]
    refine ⟨fun p hp => hpres p (h.taken p hp), fun p s l t h1 h2 h3 => ?_, fun p l hl' k hk => away came (h.gone p l hl' k hk)⟩
    by_cases hpp : p = pre
    · subst hpp; exact absurd fresh (h.taken p (by rw [h3]; simp))
    · exact rest p (r p hpp) s l t h1 h2 h3
  | moved old new sit ne pold pnew taken prms sits prms' sits' gone pubs r pris told shown =>
    rw [shown]
    have came : Came N ks ks' := fun k hk => .inl (by rw [← pris]; exact hk)
    refine ⟨fun p hp => ?_, fun p s l t h1 h2 h3 => ?_, fun p l hl' k hk => ?_⟩
    · by_cases h1 : p = old
      · subst h1; simp at hp
      · rw [upd_ne _ _ h1] at hp
        by_cases h2 : p = new
        · rw [h2]; exact taken
        · rw [upd_ne _ _ h2] at hp; exact hpres p (h.taken p hp)
    · by_cases g1 : p = old
      · subst g1; simp at h3
      · rw [upd_ne _ _ g1] at h3
        by_cases g2 : p = new
        · subst g2
          rw [upd_same] at h3
          rw [sits'] at h2
          simp at h2; subst h2
          exact h.sit old sit l t prms sits h3
        · rw [upd_ne _ _ g2] at h3; exact rest p (r p g1 g2) s l t h1 h2 h3
    · by_cases g1 : p = old
      · subst g1; simp at hl'
      · rw [upd_ne _ _ g1] at hl'
        by_cases g2 : p = new
        · subst g2
          rw [upd_same] at hl'
          exact away came (h.gone old l hl' k hk)
        · rw [upd_ne _ _ g2] at hl'; exact away came (h.gone p l hl' k hk)

end Verif.Mgr
