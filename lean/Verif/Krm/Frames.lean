import Verif.Krm.Lemmas

/-! # Exchanges, pruning and changes of configuration -/

namespace Verif.Krm

open Verif.Kel (Id Dig Sig)

/-- What a delivery does, for a message of an exchange. -/
inductive Done2 (S : Prop) (env : Env) (now : Int) (k : Krm) (m : Msg) (x : Dig) : Krm → Bool → Prop where
  | same : Done2 S env now k m x k false
  | waits {k' : Krm} {b : Bool} : k.pmkm.get (m.sender, m.said) ≠ none ∨ (∃ c mdt, k.tmsc.get (m.sender, x, m.said) = some c ∧ m.stamp = some mdt ∧ c.mdt < mdt) →
      (∃ ks, env.kevers m.sender = some ks ∧ ks.keys.length ≠ 1) → Part (m.sender, m.said) k k' → Done2 S env now k m x k' b
  | pass {mdt xdt : Int} {r : Rec} {auth : Auth} {ks : Ks} {b : Bool} {k' : Krm} : m.stamp = some mdt → k.tmsc.get (m.sender, x, m.said) = none →
      fetch k.ctyp m = .ok r → env.kevers m.sender = some ks → (auth = .asr ∧ S) ∨ auth = sigAuth ks →
      timely now mdt r.d (lags r auth).1 = true → began k m x mdt = some xdt → xdt ≤ mdt → mdt ≤ xdt + 1000 * r.xl →
      Part (m.sender, m.said) { k with tmsc := k.tmsc.pin (m.sender, x, m.said) ⟨mdt, xdt, r.d, (lags r auth).1, (lags r auth).2, r.xl, r.pxl⟩ } k' →
      (b = true → k'.pmkm.get (m.sender, m.said) = k.pmkm.get (m.sender, m.said)) → (b = false → auth = .asmk ∧ k'.pmkm.get (m.sender, m.said) ≠ none) →
      Done2 S env now k m x k' b

theorem again_done2 {S : Prop} {env : Env} {now : Int} {k : Krm} {m : Msg} {x : Dig} {mdt : Int} {kwa : Kwa} {seals sigs : Bool} {c : Cache} (hs : m.stamp = some mdt)
    (hc : k.tmsc.get (m.sender, x, m.said) = some c) :
    Done2 S env now k m x (again env k m mdt kwa seals sigs c).1 (isPass (again env k m mdt kwa seals sigs c).2) := by
  unfold again
  split
  · exact .same
  · rename_i h0
    split
    · exact .same
    · split
      · exact .same
      · rename_i ks hks
        split
        · exact .same
        · exact .same
        · split
          · exact .same
          · rename_i h1
            refine .waits ?_ ⟨ks, hks, h1⟩ (accumulate_part ..)
            by_cases h2 : k.pmkm.get (m.sender, m.said) = none
            · refine Or.inr ⟨c, mdt, hc, hs, ?_⟩
              by_cases h3 : mdt ≤ c.mdt
              · exact absurd ⟨h3, h2⟩ h0
              · omega
            · exact Or.inl h2

theorem fresh2_done {S : Prop} {env : Env} {now : Int} {k : Krm} {m : Msg} {x : Dig} {mdt : Int} {kwa : Kwa} {seals sigs : Bool} (hs : m.stamp = some mdt)
    (hc : k.tmsc.get (m.sender, x, m.said) = none) (hS : seals = true → S) :
    Done2 S env now k m x (fresh2 env now k m x mdt kwa seals sigs).1 (isPass (fresh2 env now k m x mdt kwa seals sigs).2) := by
  unfold fresh2
  split
  · exact .same
  · rename_i r hr
    split
    · exact .same
    · rename_i ks hks
      split
      · exact .same
      · rename_i auth v hv
        dsimp only
        split
        · exact .same
        · rename_i xdt hx
          split
          · exact .same
          · rename_i ht
            have ht : timely now mdt r.d (lags r auth).1 = true := by simpa using ht
            split
            · exact .same
            · rename_i hw
              have hw : xdt ≤ mdt ∧ mdt ≤ xdt + 1000 * r.xl := Decidable.not_not.1 hw
              rcases authenticate_cases env k m ks kwa auth v
                (fun k => { k with tmsc := k.tmsc.pin (m.sender, x, m.said) ⟨mdt, xdt, r.d, (lags r auth).1, (lags r auth).2, r.xl, r.pxl⟩ }) with h | ⟨kwa', h⟩ | ⟨h1, k', h, h3, h4⟩
              · rw [h]; exact .same
              · rw [h]; exact .pass hs hc hr hks ((resolve_auth hv).imp (fun h => ⟨h.1, hS h.2⟩) id) ht hx hw.1 hw.2 (.refl _ _) (fun _ => rfl) (fun h => by simp [isPass] at h)
              · rw [h]; exact .pass hs hc hr hks ((resolve_auth hv).imp (fun h => ⟨h.1, hS h.2⟩) id) ht hx hw.1 hw.2 h3 (fun h => by simp [isPass] at h) (fun _ => ⟨h1, h4⟩)

theorem kramit_done2 (env : Env) (now : Int) (k : Krm) (m : Msg) (x : Dig) (kwa : Kwa) (hx : exId m = some x) :
    Done2 (HasSeal m kwa) env now k m x (kramit env now k m kwa).1 (isPass (kramit env now k m kwa).2) := by
  unfold kramit
  split
  · exact .same
  · rename_i mdt hs
    dsimp only
    split
    · exact .same
    · rw [hx]
      dsimp only
      split
      · rename_i c hc
        exact again_done2 hs hc
      · rename_i hc
        exact fresh2_done hs hc hasSeals_norm

/-- What a delivery of a message does not touch. -/
structure Apart (m : Msg) (k k' : Krm) : Prop where
  enabled : k'.enabled = k.enabled
  denials : k'.denials = k.denials
  cf : k'.cf = k.cf
  pending : k'.pending = k.pending
  ctyp : k'.ctyp = k.ctyp
  msgc : ∀ q, q ≠ (m.sender, m.said) → ∀ c, (q, c) ∈ k'.msgc ↔ (q, c) ∈ k.msgc
  tmsc : ∀ q, (q.1, q.2.2) ≠ (m.sender, m.said) → ∀ c, (q, c) ∈ k'.tmsc ↔ (q, c) ∈ k.tmsc
  getm : ∀ q, q ≠ (m.sender, m.said) → k'.msgc.get q = k.msgc.get q
  gett : ∀ q, (q.1, q.2.2) ≠ (m.sender, m.said) → k'.tmsc.get q = k.tmsc.get q
  pmkm : ∀ q, q ≠ (m.sender, m.said) → k'.pmkm.get q = k.pmkm.get q
  pmks : ∀ q, q ≠ (m.sender, m.said) → k'.pmks.get q = k.pmks.get q
  pmsk : ∀ q, q ≠ (m.sender, m.said) → k'.pmsk.get q = k.pmsk.get q

theorem mem_pin {κ ν : Type} [DecidableEq κ] {t : Tab κ ν} {k q : κ} {v c : ν} (h : q ≠ k) : (q, c) ∈ Tab.pin t k v ↔ (q, c) ∈ t := by
  induction t with
  | nil => simp [Tab.pin, h]
  | cons e t ih =>
    unfold Tab.pin
    split
    · rename_i h2
      rw [List.mem_cons, List.mem_cons]
      constructor
      · rintro (h3 | h3)
        · exact absurd (congrArg Prod.fst h3) h
        · exact Or.inr h3
      · rintro (h3 | h3)
        · exact absurd ((congrArg Prod.fst h3).trans h2) h
        · exact Or.inr h3
    · rw [List.mem_cons, List.mem_cons, ih]

theorem mem_pin_cases {κ ν : Type} [DecidableEq κ] {t : Tab κ ν} {k q : κ} {v c : ν} (h : (q, c) ∈ Tab.pin t k v) : c = v ∨ (q, c) ∈ t := by
  induction t with
  | nil =>
    have : (q, c) = (k, v) := by simpa [Tab.pin] using h
    exact Or.inl (congrArg Prod.snd this)
  | cons e t ih =>
    unfold Tab.pin at h
    split at h
    · rcases List.mem_cons.1 h with h | h
      · exact Or.inl (congrArg Prod.snd h)
      · exact Or.inr (List.mem_cons_of_mem _ h)
    · rcases List.mem_cons.1 h with h | h
      · exact Or.inr (h ▸ List.mem_cons_self)
      · rcases ih h with h | h
        · exact Or.inl h
        · exact Or.inr (List.mem_cons_of_mem _ h)

/-- If the entry is not there yet, it is the only one. -/
theorem mem_pin_self {κ ν : Type} [DecidableEq κ] {t : Tab κ ν} {k : κ} {v c : ν} (h : Tab.get t k = none) (hm : (k, c) ∈ Tab.pin t k v) : c = v := by
  induction t with
  | nil => simpa [Tab.pin] using hm
  | cons e t ih =>
    rw [get_cons] at h
    by_cases h2 : e.1 = k
    · rw [if_pos h2] at h; exact absurd h (by simp)
    · rw [if_neg h2] at h
      unfold Tab.pin at hm
      rw [if_neg h2] at hm
      rcases List.mem_cons.1 hm with h3 | h3
      · exact absurd (congrArg Prod.fst h3).symm h2
      · exact ih h h3

theorem Apart.of_part {m : Msg} {k k' : Krm} (h : Part (m.sender, m.said) k k') : Apart m k k' :=
  ⟨h.enabled, h.denials, h.cf, h.pending, h.ctyp, fun _ _ _ => by rw [h.msgc], fun _ _ _ => by rw [h.tmsc], fun _ _ => by rw [h.msgc], fun _ _ => by rw [h.tmsc],
    h.pmkm, h.pmks, h.pmsk⟩

theorem Apart.refl (m : Msg) (k : Krm) : Apart m k k := .of_part (.refl _ _)

theorem kramit_apart (env : Env) (now : Int) (k : Krm) (m : Msg) (kwa : Kwa) : Apart m k (kramit env now k m kwa).1 := by
  cases hx : exId m with
  | none =>
    generalize hb : isPass (kramit env now k m kwa).2 = b
    have hd := kramit_done env now k m kwa hx
    rw [hb] at hd
    generalize (kramit env now k m kwa).1 = k' at hd ⊢
    cases hd with
    | same => exact .refl _ _
    | waits _ _ h => exact .of_part h
    | pass _ _ _ _ _ _ h _ _ =>
      refine ⟨h.enabled, h.denials, h.cf, h.pending, h.ctyp, ?_, ?_, ?_, ?_, h.pmkm, h.pmks, h.pmsk⟩
      · intro q hq c; rw [h.msgc]; exact mem_pin hq
      · intro q hq c; rw [h.tmsc]
      · intro q hq; rw [h.msgc]; exact (get_pin ..).trans (if_neg (fun e => hq e.symm))
      · intro q hq; rw [h.tmsc]
  | some x =>
    generalize hb : isPass (kramit env now k m kwa).2 = b
    have hd := kramit_done2 env now k m x kwa hx
    rw [hb] at hd
    generalize (kramit env now k m kwa).1 = k' at hd ⊢
    cases hd with
    | same => exact .refl _ _
    | waits _ _ h => exact .of_part h
    | pass _ _ _ _ _ _ _ _ _ h _ _ =>
      refine ⟨h.enabled, h.denials, h.cf, h.pending, h.ctyp, ?_, ?_, ?_, ?_, h.pmkm, h.pmks, h.pmsk⟩
      · intro q hq c; rw [h.msgc]
      · intro q hq c
        rw [h.tmsc]
        exact mem_pin (fun e => hq (by rw [e]))
      · intro q hq; rw [h.msgc]
      · intro q hq
        rw [h.tmsc]
        exact (get_pin ..).trans (if_neg (fun e => hq (by rw [← e])))

/-- Settings changed, caches as they were. -/
structure Held (k k' : Krm) : Prop where
  enabled : k'.enabled = k.enabled
  denials : k'.denials = k.denials
  msgc : k'.msgc = k.msgc
  tmsc : k'.tmsc = k.tmsc
  pmkm : k'.pmkm = k.pmkm
  pmks : k'.pmks = k.pmks
  pmsk : k'.pmsk = k.pmsk

theorem Held.refl (k : Krm) : Held k k := ⟨rfl, rfl, rfl, rfl, rfl, rfl, rfl⟩

theorem Held.trans {a b c : Krm} (h : Held a b) (h' : Held b c) : Held a c :=
  ⟨h'.1.trans h.1, h'.2.trans h.2, h'.3.trans h.3, h'.4.trans h.4, h'.5.trans h.5, h'.6.trans h.6, h'.7.trans h.7⟩

theorem reconcileGo_held (now : Int) : ∀ (l : Tab Ctype Pend) (k : Krm), Held k (reconcileGo now l k).1
  | [], k => .refl k
  | (c, p) :: l, k => by
    unfold reconcileGo
    split
    · split
      · exact .refl k
      · refine Held.trans ?_ (reconcileGo_held now l _)
        exact ⟨rfl, rfl, rfl, rfl, rfl, rfl, rfl⟩
    · exact reconcileGo_held now l k

theorem reconcile_held (now : Int) (k : Krm) : Held k (reconcile now k).1 := reconcileGo_held now _ k

theorem changeOne_held (now : Int) (old : Tab Ctype Rec) (o : Option Int) (d3 : Int) (k : Krm) (e : Ctype × Rec) : Held k (changeOne now old o d3 k e) := by
  unfold changeOne
  dsimp only
  split
  · split <;> exact ⟨rfl, rfl, rfl, rfl, rfl, rfl, rfl⟩
  · split <;> exact ⟨rfl, rfl, rfl, rfl, rfl, rfl, rfl⟩

theorem foldl_held {α : Type} (f : Krm → α → Krm) (h : ∀ k a, Held k (f k a)) : ∀ (l : List α) (k : Krm), Held k (l.foldl f k)
  | [], k => .refl k
  | a :: l, k => (h k a).trans (foldl_held f h l (f k a))

theorem changeConfig_held (now : Int) (k : Krm) (new : Tab Ctype Rec) (o : Option Int) : Held k (changeConfig now k new o).1 := by
  unfold changeConfig
  split
  · exact .refl k
  · split
    · exact .refl k
    · split
      · exact .refl k
      · dsimp only
        have h1 := foldl_held (changeOne now k.cf o (delta3 k.cf new)) (changeOne_held now k.cf o _) new k
        have h2 := foldl_held (fun (k : Krm) (e : Ctype × Rec) => if new.any (fun n => n.1 = e.1) then k else { k with ctyp := k.ctyp.rem e.1 })
          (fun k e => by split; exact .refl k; exact ⟨rfl, rfl, rfl, rfl, rfl, rfl, rfl⟩) k.cf (new.foldl (changeOne now k.cf o (delta3 k.cf new)) k)
        exact Held.trans (h1.trans h2) ⟨rfl, rfl, rfl, rfl, rfl, rfl, rfl⟩

/-! ## Pruning -/

/-- Pruning takes entries away. -/
structure Less (k k' : Krm) : Prop where
  enabled : k'.enabled = k.enabled
  denials : k'.denials = k.denials
  cf : k'.cf = k.cf
  pending : k'.pending = k.pending
  ctyp : k'.ctyp = k.ctyp
  msgc : ∀ e, e ∈ k'.msgc → e ∈ k.msgc
  tmsc : ∀ e, e ∈ k'.tmsc → e ∈ k.tmsc
  pmkm : ∀ q, k'.pmkm.get q = none ∨ k'.pmkm.get q = k.pmkm.get q
  pmks : ∀ q, k'.pmks.get q = none ∨ k'.pmks.get q = k.pmks.get q
  pmsk : ∀ q, k'.pmsk.get q = none ∨ k'.pmsk.get q = k.pmsk.get q

theorem Less.refl (k : Krm) : Less k k :=
  ⟨rfl, rfl, rfl, rfl, rfl, fun _ => id, fun _ => id, fun _ => Or.inr rfl, fun _ => Or.inr rfl, fun _ => Or.inr rfl⟩

theorem Less.trans {a b c : Krm} (h : Less a b) (h' : Less b c) : Less a c := by
  refine ⟨h'.1.trans h.1, h'.2.trans h.2, h'.3.trans h.3, h'.4.trans h.4, h'.5.trans h.5, fun e he => h.6 e (h'.6 e he), fun e he => h.7 e (h'.7 e he), ?_, ?_, ?_⟩
  · intro q
    rcases h'.8 q with h1 | h1
    · exact Or.inl h1
    · rcases h.8 q with h2 | h2
      · exact Or.inl (h1.trans h2)
      · exact Or.inr (h1.trans h2)
  · intro q
    rcases h'.9 q with h1 | h1
    · exact Or.inl h1
    · rcases h.9 q with h2 | h2
      · exact Or.inl (h1.trans h2)
      · exact Or.inr (h1.trans h2)
  · intro q
    rcases h'.10 q with h1 | h1
    · exact Or.inl h1
    · rcases h.10 q with h2 | h2
      · exact Or.inl (h1.trans h2)
      · exact Or.inr (h1.trans h2)

theorem dropPartial_less (k : Krm) (key : Id × Dig) : Less k (dropPartial k key) := by
  refine ⟨rfl, rfl, rfl, rfl, rfl, fun _ => id, fun _ => id, ?_, ?_, ?_⟩ <;> intro q <;> unfold dropPartial <;> dsimp only <;> rw [get_rem] <;> split
  all_goals first | exact Or.inl rfl | exact Or.inr rfl

theorem remMsg_less (k : Krm) (key : Id × Dig) : Less k { k with msgc := k.msgc.rem key } :=
  ⟨rfl, rfl, rfl, rfl, rfl, fun _ h => (List.mem_filter.1 h).1, fun _ => id, fun _ => Or.inr rfl, fun _ => Or.inr rfl, fun _ => Or.inr rfl⟩

theorem remTxn_less (k : Krm) (key : Id × Dig × Dig) : Less k { k with tmsc := k.tmsc.rem key } :=
  ⟨rfl, rfl, rfl, rfl, rfl, fun _ => id, fun _ h => (List.mem_filter.1 h).1, fun _ => Or.inr rfl, fun _ => Or.inr rfl, fun _ => Or.inr rfl⟩

theorem foldl_less {α : Type} (f : Krm → α → Krm) (h : ∀ k a, Less k (f k a)) : ∀ (l : List α) (k : Krm), Less k (l.foldl f k)
  | [], k => .refl k
  | a :: l, k => (h k a).trans (foldl_less f h l (f k a))

theorem pruneMessages_less (rdt : Int) (k : Krm) : Less k (pruneMessages rdt k) :=
  foldl_less _ (fun k e => by split; exact .refl k; exact (remMsg_less k e.1).trans (dropPartial_less _ _)) _ _

theorem pruneExchanges_less (rdt : Int) (k : Krm) : Less k (pruneExchanges rdt k) :=
  foldl_less _ (fun k e => by split; exact .refl k; exact (remTxn_less k e.1).trans (dropPartial_less _ _)) _ _

theorem prune_less (now : Int) (k : Krm) : Less k (prune now k) := (pruneMessages_less _ k).trans (pruneExchanges_less _ _)

theorem pruneExchanges_msgc (rdt : Int) (k : Krm) : (pruneExchanges rdt k).msgc = k.msgc := by
  unfold pruneExchanges
  generalize k.tmsc = l
  induction l generalizing k with
  | nil => rfl
  | cons e l ih =>
    rw [List.foldl_cons, ih]
    split <;> rfl

theorem pruneMessages_tmsc (rdt : Int) (k : Krm) : (pruneMessages rdt k).tmsc = k.tmsc := by
  unfold pruneMessages
  generalize k.msgc = l
  induction l generalizing k with
  | nil => rfl
  | cons e l ih =>
    rw [List.foldl_cons, ih]
    split <;> rfl

/-- An entry that is not there any more was there and has expired. -/
theorem foldMsgs_get (rdt : Int) (q : Id × Dig) : ∀ (l : List ((Id × Dig) × Cache)) (k : Krm),
    (l.foldl (fun k e => if keepMsg rdt e.2 then k else dropPartial { k with msgc := k.msgc.rem e.1 } e.1) k).msgc.get q = k.msgc.get q ∨
      ∃ c, (q, c) ∈ l ∧ keepMsg rdt c = false
  | [], k => Or.inl rfl
  | e :: l, k => by
    rw [List.foldl_cons]
    rcases foldMsgs_get rdt q l (if keepMsg rdt e.2 then k else dropPartial { k with msgc := k.msgc.rem e.1 } e.1) with h | ⟨c, h, h2⟩
    · by_cases hk : keepMsg rdt e.2 = true
      · rw [if_pos hk] at h
        rw [if_pos hk]
        exact Or.inl h
      · by_cases hq : e.1 = q
        · refine Or.inr ⟨e.2, ?_, by simpa using hk⟩
          rw [← hq]
          exact List.mem_cons_self
        · rw [if_neg hk] at h
          rw [if_neg hk]
          refine Or.inl (h.trans ?_)
          show Tab.get (Tab.rem k.msgc e.1) q = _
          rw [get_rem, if_neg hq]
    · exact Or.inr ⟨c, List.mem_cons_of_mem _ h, h2⟩

theorem prune_msgc (now : Int) (k : Krm) (q : Id × Dig) :
    (prune now k).msgc.get q = k.msgc.get q ∨ ∃ c, (q, c) ∈ k.msgc ∧ keepMsg (now / 1000) c = false := by
  unfold prune
  rw [pruneExchanges_msgc]
  exact foldMsgs_get (now / 1000) q k.msgc k

theorem foldTxns_get (rdt : Int) (q : Id × Dig × Dig) : ∀ (l : List ((Id × Dig × Dig) × Cache)) (k : Krm),
    (l.foldl (fun k e => if keepExchange rdt e.2 then k else dropPartial { k with tmsc := k.tmsc.rem e.1 } (e.1.1, e.1.2.2)) k).tmsc.get q = k.tmsc.get q ∨
      ∃ c, (q, c) ∈ l ∧ keepExchange rdt c = false
  | [], k => Or.inl rfl
  | e :: l, k => by
    rw [List.foldl_cons]
    rcases foldTxns_get rdt q l (if keepExchange rdt e.2 then k else dropPartial { k with tmsc := k.tmsc.rem e.1 } (e.1.1, e.1.2.2)) with h | ⟨c, h, h2⟩
    · by_cases hk : keepExchange rdt e.2 = true
      · rw [if_pos hk] at h
        rw [if_pos hk]
        exact Or.inl h
      · by_cases hq : e.1 = q
        · refine Or.inr ⟨e.2, ?_, by simpa using hk⟩
          rw [← hq]
          exact List.mem_cons_self
        · rw [if_neg hk] at h
          rw [if_neg hk]
          refine Or.inl (h.trans ?_)
          show Tab.get (Tab.rem k.tmsc e.1) q = _
          rw [get_rem, if_neg hq]
    · exact Or.inr ⟨c, List.mem_cons_of_mem _ h, h2⟩

theorem prune_tmsc (now : Int) (k : Krm) (q : Id × Dig × Dig) :
    (prune now k).tmsc.get q = k.tmsc.get q ∨ ∃ c, (q, c) ∈ k.tmsc ∧ keepExchange (now / 1000) c = false := by
  unfold prune pruneExchanges
  rw [pruneMessages_tmsc]
  rw [← pruneMessages_tmsc (now / 1000) k]
  exact foldTxns_get (now / 1000) q _ _

end Verif.Krm
