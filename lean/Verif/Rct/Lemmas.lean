import Verif.Rct.Model
import Verif.Kel.Keys

/-! # What receipt processing writes -/

namespace Verif.Rct

open Verif.Kel

/-- Everything but the stored witness signatures agrees. -/
structure CoreR (n n' : Node) : Prop where
  sigs : n'.db.sigs = n.db.sigs
  wits : n'.db.wits = n.db.wits
  kels : n'.db.kels = n.db.kels
  fels : n'.db.fels = n.db.fels
  evts : n'.db.evts = n.db.evts
  pwes : n'.db.pwes = n.db.pwes
  kevers : n'.kevers = n.kevers
  prefixes : n'.prefixes = n.prefixes

theorem CoreR.trans {a b c : Node} (h : CoreR a b) (g : CoreR b c) : CoreR a c :=
  ⟨g.sigs.trans h.sigs, g.wits.trans h.wits, g.kels.trans h.kels, g.fels.trans h.fels, g.evts.trans h.evts,
   g.pwes.trans h.pwes, g.kevers.trans h.kevers, g.prefixes.trans h.prefixes⟩

/-- The state reached by a receipt operation: the node by additions of witness signatures, each with `wg`; new couples with `rc`,
new group signatures with `vr`, new entries of `ures` with `ue`; nothing stored is lost. -/
structure Rel (env : Env) (wg : Id → Dig → Sig → Prop) (rc : Id → Dig → Cigar → Prop) (vr : VKey → Sig → Prop)
    (ue : Entry Cigar → Prop) (r r' : RNode) : Prop where
  node : ∃ h : List Inp, (∀ i ∈ h, ∃ p d s, wg p d s ∧ i = .receipts p d [s]) ∧ r'.node = r.node.run env h
  rcts : ∀ p d c, c ∈ r'.store.rcts p d → c ∈ r.store.rcts p d ∨ rc p d c
  rkeep : ∀ p d c, c ∈ r.store.rcts p d → c ∈ r'.store.rcts p d
  vrcs : ∀ k s, s ∈ r'.store.vrcs k → s ∈ r.store.vrcs k ∨ vr k s
  vkeep : ∀ k s, s ∈ r.store.vrcs k → s ∈ r'.store.vrcs k
  ures : ∀ x ∈ r'.store.ures, x ∈ r.store.ures ∨ ue x

section
variable {env : Env} {wg : Id → Dig → Sig → Prop} {rc : Id → Dig → Cigar → Prop} {vr : VKey → Sig → Prop}
  {ue : Entry Cigar → Prop}

theorem Rel.rfl' (r : RNode) : Rel env wg rc vr ue r r :=
  ⟨⟨[], by simp, rfl⟩, fun _ _ _ h => .inl h, fun _ _ _ h => h, fun _ _ h => .inl h, fun _ _ h => h, fun _ h => .inl h⟩

theorem Rel.trans {a b c : RNode} (h : Rel env wg rc vr ue a b) (g : Rel env wg rc vr ue b c) : Rel env wg rc vr ue a c := by
  obtain ⟨h1, h2, h3⟩ := h.node
  obtain ⟨g1, g2, g3⟩ := g.node
  refine ⟨⟨h1 ++ g1, ?_, by rw [g3, h3, run_append]⟩, ?_, fun p d c x => g.rkeep p d c (h.rkeep p d c x), ?_,
    fun k s x => g.vkeep k s (h.vkeep k s x), ?_⟩
  · intro i hi
    rcases List.mem_append.1 hi with hi | hi
    · exact h2 i hi
    · exact g2 i hi
  · intro p d x hx
    rcases g.rcts p d x hx with hx | hx
    · exact h.rcts p d x hx
    · exact .inr hx
  · intro k s hs
    rcases g.vrcs k s hs with hs | hs
    · exact h.vrcs k s hs
    · exact .inr hs
  · intro x hx
    rcases g.ures x hx with hx | hx
    · exact h.ures x hx
    · exact .inr hx

theorem run_core (h : List Inp) (hh : ∀ i ∈ h, ∃ p d s, wg p d s ∧ i = .receipts p d [s]) (n : Node) :
    CoreR n (n.run env h) ∧ (∀ p d s, s ∈ (n.run env h).db.wigs p d → s ∈ n.db.wigs p d ∨ wg p d s) ∧
      (∀ p d s, s ∈ n.db.wigs p d → s ∈ (n.run env h).db.wigs p d) := by
  induction h generalizing n with
  | nil => exact ⟨⟨rfl, rfl, rfl, rfl, rfl, rfl, rfl, rfl⟩, fun _ _ _ h => .inl h, fun _ _ _ h => h⟩
  | cons i h ih =>
    obtain ⟨p, d, s, hw, rfl⟩ := hh i (by simp)
    obtain ⟨h1, h2, h3⟩ := ih (fun j hj => hh j (by simp [hj])) (n.step env (.receipts p d [s]))
    have e : n.run env (.receipts p d [s] :: h) = (n.step env (.receipts p d [s])).run env h := rfl
    rw [e]
    refine ⟨CoreR.trans (b := n.step env (.receipts p d [s])) ⟨rfl, rfl, rfl, rfl, rfl, rfl, rfl, rfl⟩ h1, ?_, ?_⟩
    · intro p' d' s' hs
      rcases h2 p' d' s' hs with hs | hs
      · simp only [Node.step, upd2] at hs
        split at hs
        · rename_i hp
          rcases (mem_ioPut _ _ _).1 hs with hs | hs
          · rw [hp.1, hp.2]; exact .inl hs
          · simp at hs; rw [hp.1, hp.2, hs]; exact .inr hw
        · exact .inl hs
      · exact .inr hs
    · intro p' d' s' hs
      refine h3 p' d' s' ?_
      simp only [Node.step, upd2]
      split
      · rename_i hp
        rw [hp.1, hp.2] at hs
        exact (mem_ioPut _ _ _).2 (.inl hs)
      · exact hs

theorem Rel.core {r r' : RNode} (h : Rel env wg rc vr ue r r') : CoreR r.node r'.node := by
  obtain ⟨l, h1, h2⟩ := h.node
  rw [h2]; exact (run_core l h1 r.node).1

theorem Rel.wigs {r r' : RNode} (h : Rel env wg rc vr ue r r') (p : Id) (d : Dig) (s : Sig) (hs : s ∈ r'.node.db.wigs p d) :
    s ∈ r.node.db.wigs p d ∨ wg p d s := by
  obtain ⟨l, h1, h2⟩ := h.node
  rw [h2] at hs; exact (run_core l h1 r.node).2.1 p d s hs

theorem Rel.wkeep {r r' : RNode} (h : Rel env wg rc vr ue r r') (p : Id) (d : Dig) (s : Sig) (hs : s ∈ r.node.db.wigs p d) :
    s ∈ r'.node.db.wigs p d := by
  obtain ⟨l, h1, h2⟩ := h.node
  rw [h2]; exact (run_core l h1 r.node).2.2 p d s hs

theorem rel_addWig (r : RNode) (p : Id) (d : Dig) (s : Sig) (h : wg p d s) : Rel env wg rc vr ue r (r.addWig p d s) :=
  ⟨⟨[.receipts p d [s]], by intro i hi; simp at hi; exact ⟨p, d, s, h, hi⟩, rfl⟩, fun _ _ _ h => .inl h, fun _ _ _ h => h,
   fun _ _ h => .inl h, fun _ _ h => h, fun _ h => .inl h⟩

theorem rel_addRct (r : RNode) (p : Id) (d : Dig) (c : Cigar) (h : rc p d c) : Rel env wg rc vr ue r (r.addRct p d c) := by
  refine ⟨⟨[], by simp, rfl⟩, ?_, ?_, fun _ _ h => .inl h, fun _ _ h => h, fun _ h => .inl h⟩
  · intro p' d' c' hc
    simp only [RNode.addRct, upd2] at hc
    split at hc
    · rename_i hp
      rcases (mem_ioAdd _ _ _).1 hc with hc | hc
      · rw [hp.1, hp.2]; exact .inl hc
      · rw [hp.1, hp.2, hc]; exact .inr h
    · exact .inl hc
  · intro p' d' c' hc
    simp only [RNode.addRct, upd2]
    split
    · rename_i hp
      rw [hp.1, hp.2] at hc
      exact (mem_ioAdd _ _ _).2 (.inl hc)
    · exact hc

theorem rel_addVrc (r : RNode) (k : VKey) (s : Sig) (h : vr k s) : Rel env wg rc vr ue r (r.addVrc k s) := by
  refine ⟨⟨[], by simp, rfl⟩, fun _ _ _ h => .inl h, fun _ _ _ h => h, ?_, ?_, fun _ h => .inl h⟩
  · intro k' s' hs
    simp only [RNode.addVrc, upd] at hs
    split at hs
    · rename_i hk
      rcases (mem_ioAdd _ _ _).1 hs with hs | hs
      · rw [hk]; exact .inl hs
      · rw [hk, hs]; exact .inr h
    · exact .inl hs
  · intro k' s' hs
    simp only [RNode.addVrc, upd]
    split
    · rename_i hk
      rw [hk] at hs
      exact (mem_ioAdd _ _ _).2 (.inl hs)
    · exact hs

theorem mem_entIns {α : Type} (x : Entry α) (l : List (Entry α)) (y : Entry α) : y ∈ entIns x l ↔ y = x ∨ y ∈ l := by
  induction l with
  | nil => simp [entIns]
  | cons z l ih =>
    unfold entIns
    split
    · simp
    · simp only [List.mem_cons, ih]
      constructor
      · rintro (h | h | h) <;> simp [h]
      · rintro (h | h | h) <;> simp [h]

theorem mem_entAdd {α : Type} [DecidableEq α] (l : List (Entry α)) (x y : Entry α) : y ∈ entAdd l x ↔ y = x ∨ y ∈ l := by
  unfold entAdd
  split
  · rename_i h
    exact ⟨.inr, fun h' => h'.elim (fun e => e ▸ h) id⟩
  · exact mem_entIns x l y

theorem mem_entAdds {α β : Type} [DecidableEq α] (f : β → Entry α) (bs : List β) (l : List (Entry α)) (y : Entry α) :
    y ∈ bs.foldl (fun l b => entAdd l (f b)) l ↔ y ∈ l ∨ ∃ b ∈ bs, y = f b := by
  induction bs generalizing l with
  | nil => simp
  | cons b bs ih =>
    simp only [List.foldl_cons, ih, mem_entAdd, List.mem_cons]
    constructor
    · rintro ((h | h) | ⟨b', h1, h2⟩)
      · exact .inr ⟨b, .inl rfl, h⟩
      · exact .inl h
      · exact .inr ⟨b', .inr h1, h2⟩
    · rintro (h | ⟨b', h1 | h1, h2⟩)
      · exact .inl (.inr h)
      · exact .inl (.inl (h1 ▸ h2))
      · exact .inr ⟨b', h1, h2⟩

theorem mem_entRem {α : Type} [DecidableEq α] (l : List (Entry α)) (x y : Entry α) : y ∈ entRem l x ↔ y ∈ l ∧ y ≠ x := by
  simp [entRem]

theorem rel_escrowU (r : RNode) (x : Rct) (cs : List Cigar)
    (h : ∀ c ∈ cs, env.transferable c.key = false → ue ⟨x.pre, x.sn, x.said, c⟩) :
    Rel env wg rc vr ue r (r.escrowU env x cs) := by
  refine ⟨⟨[], by simp, rfl⟩, fun _ _ _ h => .inl h, fun _ _ _ h => h, fun _ _ h => .inl h, fun _ _ h => h, ?_⟩
  intro y hy
  rcases (mem_entAdds (fun c => (⟨x.pre, x.sn, x.said, c⟩ : Entry Cigar)) _ _ _).1 hy with hy | ⟨c, hc, rfl⟩
  · exact .inl hy
  · simp at hc; exact .inr (h c hc.1 hc.2)

/-- Only `uwes` and `vres` differ. -/
theorem rel_store (r : RNode) (u : List (Entry Sig)) (v : List (Entry Chit)) :
    Rel env wg rc vr ue r { r with store := { r.store with uwes := u, vres := v } } :=
  ⟨⟨[], by simp, rfl⟩, fun _ _ _ h => .inl h, fun _ _ _ h => h, fun _ _ h => .inl h, fun _ _ h => h, fun _ h => .inl h⟩

theorem rel_escrowUW (r : RNode) (x : Rct) (ws : List Sig) : Rel env wg rc vr ue r (r.escrowUW x ws) := rel_store r _ _

theorem rel_escrowT (r : RNode) (x : Rct) (g : Group) : Rel env wg rc vr ue r (r.escrowT x g) := rel_store r _ _

theorem rel_escrowTs (r : RNode) (x : Rct) (gs : List Group) : Rel env wg rc vr ue r (r.escrowTs x gs) := by
  unfold RNode.escrowTs
  induction gs generalizing r with
  | nil => exact .rfl' r
  | cons g gs ih => exact (rel_escrowT r x g).trans (ih _)

theorem rel_remU (r : RNode) (x : Entry Cigar) : Rel env wg rc vr ue r (r.remU x) :=
  ⟨⟨[], by simp, rfl⟩, fun _ _ _ h => .inl h, fun _ _ _ h => h, fun _ _ h => .inl h, fun _ _ h => h,
   fun y hy => .inl ((mem_entRem _ _ _).1 hy).1⟩

theorem rel_remW (r : RNode) (x : Entry Sig) : Rel env wg rc vr ue r (r.remW x) := rel_store r _ _
theorem rel_remV (r : RNode) (x : Entry Chit) : Rel env wg rc vr ue r (r.remV x) := rel_store r _ _

theorem rel_loop {α : Type} (f : RNode → α → ROut) (xs : List α) (r0 r : RNode) (h0 : Rel env wg rc vr ue r0 r)
    (hf : ∀ r1 x, x ∈ xs → Rel env wg rc vr ue r0 r1 → Rel env wg rc vr ue r1 (f r1 x).1) :
    Rel env wg rc vr ue r0 (loop f r xs).1 := by
  induction xs generalizing r with
  | nil => exact h0
  | cons x xs ih =>
    have h1 := h0.trans (hf r x (by simp) h0)
    unfold loop
    split
    · rename_i h; rw [h] at h1; exact h1
    · rename_i h; rw [h] at h1
      exact ih _ h1 (fun r1 y hy => hf r1 y (by simp [hy]))

end

theorem CoreR.ownBad {n n' : Node} (h : CoreR n n') (lax l : Bool) (a b : Id) : ownBad lax l n' a b = ownBad lax l n a b := by
  unfold Rct.ownBad; rw [h.prefixes]

theorem backDigs_core {n n' : Node} (h : CoreR n n') (p : Id) (sn : Nat) : backDigs n'.db p sn = backDigs n.db p sn := by
  induction sn with
  | zero => simp [backDigs, h.kels]
  | succ m ih => simp [backDigs, h.kels, ih]

theorem witState_core {n n' : Node} (h : CoreR n n') (p : Id) (l : List Dig) : witState n'.db p l = witState n.db p l := by
  induction l with
  | nil => rfl
  | cons d l ih => simp only [witState, h.evts, h.wits, ih]

theorem wits_core {r r' : RNode} (h : CoreR r.node r'.node) (p : Id) (sn : Nat) : r'.wits p sn = r.wits p sn := by
  unfold RNode.wits; rw [backDigs_core h, witState_core h]

theorem mkWig_some {raw i : Nat} {s : Sig} (h : mkWig raw i = some s) : s.raw = raw ∧ s.index = i := by
  unfold mkWig at h
  split at h
  · injection h with h; subst h; exact ⟨rfl, rfl⟩
  · exact absurd h (by simp)

theorem getElem_idxOf {l : List Id} {a : Id} (h : a ∈ l) : l[l.idxOf a]? = some a := by
  rw [List.getElem?_eq_some_iff]
  exact ⟨List.idxOf_lt_length_of_mem h, by simp⟩

/-- What justifies a witness signature stored by a receipt message. -/
def WgR (env : Env) (lax l : Bool) (r : RNode) (x : Rct) (p : Id) (d : Dig) (s : Sig) : Prop :=
  p = x.pre ∧ d = x.said ∧ ∃ e w ws, r.node.db.evts p d = some e ∧ r.wits x.pre x.sn = .ok ws ∧ ws[s.index]? = some w ∧
    env.verify w s.raw e = true ∧ env.transferable w = false ∧ ownBad lax l r.node w x.pre = false

/-- What justifies a couple stored by a receipt message. -/
def RcR (env : Env) (lax l : Bool) (r : RNode) (x : Rct) (p : Id) (d : Dig) (c : Cigar) : Prop :=
  p = x.pre ∧ d = x.said ∧ (∃ ldig, (r.node.db.kels x.pre x.sn).getLast? = some ldig) ∧ ∃ e ws,
    r.node.db.evts p d = some e ∧ r.wits x.pre x.sn = .ok ws ∧ c.key ∉ ws ∧
    env.verify c.key c.raw e = true ∧ env.transferable c.key = false ∧ ownBad lax l r.node c.key x.pre = false

/-- The signature is by a key of the establishment event of the receiptor named in `k`, the last one logged at its number, over
`e`. -/
def Endorsed (env : Env) (n : Node) (k : VKey) (e : Event) (s : Sig) : Prop :=
  ∃ sdig se, (n.db.kels k.rpre k.rsn).getLast? = some sdig ∧ n.db.evts k.rpre sdig = some se ∧ se.said = k.rdig ∧
    se.ilk.est = true ∧ SignedBy env se.keys e s

/-- What justifies a group signature stored by a receipt message. -/
def VrR (env : Env) (lax l : Bool) (r : RNode) (x : Rct) (k : VKey) (s : Sig) : Prop :=
  k.pre = x.pre ∧ (r.node.db.kels x.pre x.sn).getLast? = some k.dig ∧ ownBad lax l r.node k.rpre x.pre = false ∧
    ∃ e, r.node.db.evts x.pre x.said = some e ∧ Endorsed env r.node k e s

/-- What is known of a waiting couple: it is not by a transferable key. -/
def UeR (env : Env) (x : Entry Cigar) : Prop := env.transferable x.mat.key = false

theorem rel_cigarStep {env : Env} {lax l : Bool} {x : Rct} {e : Event} {vr : VKey → Sig → Prop} {ue : Entry Cigar → Prop}
    {r r1 : RNode} (h : CoreR r.node r1.node) (he : r.node.db.evts x.pre x.said = some e)
    {ldig : Dig} (hl : (r.node.db.kels x.pre x.sn).getLast? = some ldig) (c : Cigar) :
    Rel env (WgR env lax l r x) (RcR env lax l r x) vr ue r1 (cigarStep env lax l x e r1 c).1 := by
  unfold cigarStep
  split
  · exact .rfl' _
  · rename_i h1
    split
    · exact .rfl' _
    · rename_i h2
      split
      · exact .rfl' _
      · rename_i h3
        rw [h.ownBad] at h2
        rw [wits_core h]
        have g1 : env.transferable c.key = false := by simpa using h1
        have g2 : ownBad lax l r.node c.key x.pre = false := by simpa using h2
        have g3 : env.verify c.key c.raw e = true := by simpa using h3
        split
        · exact .rfl' _
        · rename_i ws hws
          split
          · rename_i hm
            split
            · exact .rfl' _
            · rename_i s hs
              obtain ⟨hr, hi⟩ := mkWig_some hs
              exact rel_addWig _ _ _ _ ⟨rfl, rfl, e, c.key, ws, he, hws, by rw [hi]; exact getElem_idxOf hm, by rw [hr]; exact g3, g1, g2⟩
          · rename_i hm
            exact rel_addRct _ _ _ _ ⟨rfl, rfl, ⟨ldig, hl⟩, e, ws, he, hws, hm, g3, g1, g2⟩

theorem rel_wigerStep {env : Env} {lax l : Bool} {x : Rct} {e : Event} {rc : Id → Dig → Cigar → Prop} {vr : VKey → Sig → Prop}
    {ue : Entry Cigar → Prop} {r r1 : RNode} (h : CoreR r.node r1.node) (he : r.node.db.evts x.pre x.said = some e)
    {ws : List Id} (hws : r.wits x.pre x.sn = .ok ws) (s : Sig) :
    Rel env (WgR env lax l r x) rc vr ue r1 (wigerStep env lax l x e ws r1 s).1 := by
  unfold wigerStep
  split
  · exact .rfl' _
  · rename_i w hw
    split
    · exact .rfl' _
    · split
      · exact .rfl' _
      · rename_i h1
        split
        · exact .rfl' _
        · rename_i h2
          split
          · rename_i h3
            rw [h.ownBad] at h2
            exact rel_addWig _ _ _ _ ⟨rfl, rfl, e, w, ws, he, hws, hw, h3, by simpa using h1, by simpa using h2⟩
          · exact .rfl' _

theorem verfers_est {e : Event} (h : verfers e ≠ []) : e.ilk.est = true ∧ verfers e = e.keys := by
  unfold verfers at *
  split at h
  · rename_i h'; exact ⟨h', by simp [h']⟩
  · exact absurd rfl h

theorem rel_sigStep {env : Env} {strict : Bool} {e : Event} {keys : List Id} {k : VKey} {wg : Id → Dig → Sig → Prop}
    {rc : Id → Dig → Cigar → Prop} {vr : VKey → Sig → Prop} {ue : Entry Cigar → Prop} (r : RNode) (s : Sig)
    (hv : SignedBy env keys e s → vr k s) : Rel env wg rc vr ue r (sigStep env strict e keys k r s).1 := by
  unfold sigStep
  split
  · exact .rfl' _
  · rename_i v hk
    split
    · rename_i h; exact rel_addVrc _ _ _ (hv ⟨v, hk, h⟩)
    · split <;> exact .rfl' _

theorem rel_groupStep {env : Env} {lax l : Bool} {x : Rct} {e : Event} {ldig : Dig} {wg : Id → Dig → Sig → Prop}
    {rc : Id → Dig → Cigar → Prop} {ue : Entry Cigar → Prop} {r r1 : RNode} (h : CoreR r.node r1.node)
    (he : r.node.db.evts x.pre x.said = some e) (hl : (r.node.db.kels x.pre x.sn).getLast? = some ldig) (g : Group) :
    Rel env wg rc (VrR env lax l r x) ue r1 (groupStep env lax l x e ldig r1 g).1 := by
  unfold groupStep
  split
  · exact .rfl' _
  · rename_i h1
    rw [h.ownBad] at h1
    split
    · exact rel_escrowT _ _ _
    · rename_i sdig hsd
      split
      · exact .rfl' _
      · rename_i se hse
        split
        · exact .rfl' _
        · rename_i hsaid
          split
          · exact .rfl' _
          · rename_i hv
            obtain ⟨hest, hkeys⟩ := verfers_est hv
            rw [h.kels] at hsd; rw [h.evts] at hse
            refine rel_loop _ _ _ _ (.rfl' _) (fun r2 s _ _ => rel_sigStep r2 s ?_)
            intro hs
            rw [hkeys] at hs
            exact ⟨rfl, hl, by simpa using h1, e, he, sdig, se, hsd, hse, by simpa using hsaid, hest, hs⟩

theorem rel_receipt {env : Env} (lax l : Bool) (r : RNode) (x : Rct) (cs : List Cigar) (ws : List Sig) (ts gs : List Group) :
    Rel env (WgR env lax l r x) (RcR env lax l r x) (VrR env lax l r x) (UeR env) r (r.receipt env lax l x cs ws ts gs).1 := by
  unfold RNode.receipt
  split
  · rename_i ldig hl
    split
    · exact .rfl' _
    · rename_i e he
      split
      · exact .rfl' _
      · have h1 : Rel env (WgR env lax l r x) (RcR env lax l r x) (VrR env lax l r x) (UeR env) r
            (loop (cigarStep env lax l x e) r cs).1 :=
          rel_loop _ _ _ _ (.rfl' _) (fun r1 c _ hr => rel_cigarStep hr.core he hl c)
        split
        · rename_i hh; rw [hh] at h1; exact h1
        · rename_i r1 hh
          rw [hh] at h1
          split
          · exact h1
          · rename_i wl hw
            rw [wits_core h1.core] at hw
            have h2 : Rel env (WgR env lax l r x) (RcR env lax l r x) (VrR env lax l r x) (UeR env) r
                (loop (wigerStep env lax l x e wl) r1 ws).1 :=
              rel_loop _ _ _ _ h1 (fun r1 c _ hr => rel_wigerStep hr.core he hw c)
            split
            · rename_i hh; rw [hh] at h2; exact h2
            · rename_i r2 hh
              rw [hh] at h2
              exact rel_loop _ _ _ _ h2 (fun r1 c _ hr => rel_groupStep hr.core he hl c)
  · exact ((rel_escrowU r x cs (fun c _ h => h)).trans (rel_escrowTs _ _ _)).trans (rel_escrowUW _ _ _)

/-- What justifies a couple stored by an attachment to the event `e`. -/
def RcA (env : Env) (lax l : Bool) (r : RNode) (e : Event) (fn : Option Nat) (p : Id) (d : Dig) (c : Cigar) : Prop :=
  p = e.pre ∧ d = e.said ∧ ldigOf r e fn = some d ∧ env.verify c.key c.raw e = true ∧ env.transferable c.key = false ∧
    ownBad lax l r.node c.key e.pre = false

/-- What justifies a group signature stored by an attachment to the event `e`. -/
def VrA (env : Env) (lax l : Bool) (r : RNode) (e : Event) (fn : Option Nat) (k : VKey) (s : Sig) : Prop :=
  k.pre = e.pre ∧ k.dig = e.said ∧ ldigOf r e fn = some k.dig ∧ ownBad lax l r.node k.rpre e.pre = false ∧
    Endorsed env r.node k e s

theorem rel_couples {env : Env} (lax l : Bool) (r : RNode) (e : Event) (fn : Option Nat) (cs : List Cigar)
    (wg : Id → Dig → Sig → Prop) (vr : VKey → Sig → Prop) :
    Rel env wg (RcA env lax l r e fn) vr (UeR env) r (r.couples env lax l e fn cs).1 := by
  unfold RNode.couples
  split
  · exact rel_escrowU r _ cs (fun c _ h => h)
  · rename_i ldig hl
    split
    · exact .rfl' _
    · rename_i hs
      have hs' : e.said = ldig := by simpa using hs
      refine rel_loop _ _ _ _ (.rfl' _) (fun r1 c _ hr => ?_)
      unfold attStep
      split
      · exact .rfl' _
      · rename_i h1
        split
        · exact .rfl' _
        · rename_i h2
          split
          · exact .rfl' _
          · rename_i h3
            split
            · exact .rfl' _
            · rw [hr.core.ownBad] at h2
              exact rel_addRct _ _ _ _ ⟨rfl, hs'.symm, hl, by simpa using h3, by simpa using h1, by simpa using h2⟩

theorem rel_groups {env : Env} (lax l : Bool) (r : RNode) (e : Event) (fn : Option Nat) (gs : List Group)
    (wg : Id → Dig → Sig → Prop) (rc : Id → Dig → Cigar → Prop) (ue : Entry Cigar → Prop) :
    Rel env wg rc (VrA env lax l r e fn) ue r (r.groups env lax l e fn gs).1 := by
  unfold RNode.groups
  refine rel_loop _ _ _ _ (.rfl' _) (fun r1 g _ hr => ?_)
  have h := hr.core
  unfold attGroupStep
  split
  · exact .rfl' _
  · rename_i h1
    rw [h.ownBad] at h1
    split
    · rename_i ldig k hl hk
      split
      · exact .rfl' _
      · rename_i hs
        split
        · exact rel_escrowT _ _ _
        · rename_i sdig hsd
          split
          · exact .rfl' _
          · rename_i se hse
            split
            · exact .rfl' _
            · rename_i hsaid
              split
              · exact .rfl' _
              · rename_i hv
                obtain ⟨hest, hkeys⟩ := verfers_est hv
                rw [h.kels] at hsd; rw [h.evts] at hse
                refine rel_loop _ _ _ _ (.rfl' _) (fun r2 s _ _ => rel_sigStep r2 s ?_)
                intro hsg
                rw [hkeys] at hsg
                have hs' : e.said = ldig := by simpa using hs
                exact ⟨rfl, rfl, by rw [hl, hs'], by simpa using h1, sdig, se, hsd, hse, by simpa using hsaid, hest, hsg⟩
    · exact rel_escrowT _ _ _

/-- What justifies a witness signature stored by an escrow pass: the event is waiting for witness signatures, or is the last one
logged at its number and the signature is by a current witness of the identifier. -/
def WgE (env : Env) (n : Node) (sn : Nat) (p : Id) (d : Dig) (s : Sig) : Prop :=
  ∃ e w ws, n.db.evts p d = some e ∧ ws[s.index]? = some w ∧ env.verify w s.raw e = true ∧
    (((p, sn, d) ∈ n.db.pwes ∧ pendingWits n e = .ok (some ws)) ∨
     ((n.db.kels p sn).getLast? = some d ∧ ∃ k, n.kevers p = some k ∧ ws = k.wits))

/-- What justifies a couple stored by an escrow pass. -/
def RcE (env : Env) (n : Node) (sn : Nat) (p : Id) (d : Dig) (c : Cigar) : Prop :=
  (n.db.kels p sn).getLast? = some d ∧ ∃ e k, n.db.evts p d = some e ∧ env.verify c.key c.raw e = true ∧
    n.kevers p = some k ∧ c.key ∉ k.wits

/-- What justifies a group signature stored by an escrow pass. -/
def VrE (env : Env) (n : Node) (sn : Nat) (k : VKey) (s : Sig) : Prop :=
  (n.db.kels k.pre sn).getLast? = some k.dig ∧ ∃ e, n.db.evts k.pre k.dig = some e ∧ Endorsed env n k e s

theorem findUnver_some {env : Env} {n : Node} {p : Id} {sn : Nat} {d : Dig} {m : Cigar ⊕ Sig} {s : Sig}
    (h : findUnver env n p sn d m = .ok (some s)) : WgE env n sn p d s := by
  unfold findUnver at h
  split at h
  · rename_i hp
    split at h
    · exact absurd h (by simp)
    · rename_i e he
      split at h
      · exact absurd h (by simp)
      · exact absurd h (by simp)
      · rename_i ws hws
        split at h
        · rename_i c
          split at h
          · rename_i hm
            split at h
            · exact absurd h (by simp)
            · rename_i s' hs
              obtain ⟨hr, hi⟩ := mkWig_some hs
              split at h
              · rename_i hv
                simp only [Except.ok.injEq, Option.some.injEq] at h
                subst h
                exact ⟨e, c.key, ws, he, by rw [hi]; exact getElem_idxOf hm, by rw [hr]; exact hv, .inl ⟨hp, hws⟩⟩
              · exact absurd h (by simp)
          · exact absurd h (by simp)
        · rename_i s'
          split at h
          · exact absurd h (by simp)
          · rename_i w hw
            split at h
            · exact absurd h (by simp)
            · split at h
              · rename_i hv
                simp only [Except.ok.injEq, Option.some.injEq] at h
                subst h
                exact ⟨e, w, ws, he, hw, hv, .inl ⟨hp, hws⟩⟩
              · exact absurd h (by simp)
  · exact absurd h (by simp)

theorem actW_wig {env : Env} {n : Node} {b : Bool} {x : Entry Sig} {s : Sig} (h : actW env n b x = .wig s) :
    WgE env n x.sn x.pre x.said s := by
  unfold actW at h
  split at h
  · exact absurd h (by simp)
  · split at h
    · exact absurd h (by simp)
    · exact absurd h (by simp)
    · rename_i hf
      injection h with h; subst h
      exact findUnver_some hf

theorem actU_cases {env : Env} {n : Node} (hok : EvtOk n.db) {b : Bool} {x : Entry Cigar} :
    (∀ s, actU env n b x = .wig s → WgE env n x.sn x.pre x.said s) ∧
    (actU env n b x = .rct → RcE env n x.sn x.pre x.said x.mat) := by
  generalize ha : actU env n b x = a
  unfold actU at ha
  split at ha
  · subst ha; simp
  · split at ha
    · subst ha; simp
    · rename_i s hf
      subst ha
      exact ⟨fun s' h => by injection h with h; subst h; exact findUnver_some hf, by simp⟩
    · split at ha
      · subst ha; simp
      · rename_i d hd
        split at ha
        · subst ha; simp
        · rename_i e he
          split at ha
          · subst ha; simp
          · rename_i hs
            split at ha
            · subst ha; simp
            · rename_i hv
              have hpe := hok _ _ _ he
              have hs' : x.said = d := by rw [← hpe.2]; simpa using hs
              have hv' : env.verify x.mat.key x.mat.raw e = true := by simpa using hv
              rw [hpe.1] at ha
              split at ha
              · subst ha; simp
              · rename_i k hk
                split at ha
                · rename_i hm
                  split at ha
                  · subst ha; simp
                  · rename_i s hsg
                    subst ha
                    obtain ⟨hr, hi⟩ := mkWig_some hsg
                    refine ⟨fun s' h => ?_, by simp⟩
                    injection h with h; subst h
                    exact ⟨e, x.mat.key, k.wits, by rw [hs']; exact he, by rw [hi]; exact getElem_idxOf hm, by rw [hr]; exact hv',
                      .inr ⟨by rw [hs']; exact hd, k, hk, rfl⟩⟩
                · rename_i hm
                  subst ha
                  exact ⟨by simp, fun _ => ⟨by rw [hs']; exact hd, e, k, by rw [hs']; exact he, hv', hk, hm⟩⟩

theorem actV_vrc {env : Env} {n : Node} (hok : EvtOk n.db) {b : Bool} {x : Entry Chit} (h : actV env n b x = .vrc) :
    VrE env n x.sn ⟨x.pre, x.said, x.mat.rpre, x.mat.rsn, x.mat.rdig⟩ x.mat.sig := by
  unfold actV at h
  split at h
  · exact absurd h (by simp)
  · split at h
    · exact absurd h (by simp)
    · rename_i d hd
      split at h
      · exact absurd h (by simp)
      · rename_i e he
        split at h
        · exact absurd h (by simp)
        · rename_i hs
          have hs' : x.said = d := by rw [← (hok _ _ _ he).2]; simpa using hs
          split at h
          · exact absurd h (by simp)
          · rename_i sdig hsd
            split at h
            · exact absurd h (by simp)
            · rename_i se hse
              split at h
              · exact absurd h (by simp)
              · rename_i hsaid
                split at h
                · exact absurd h (by simp)
                · rename_i v hv
                  split at h
                  · rename_i hver
                    have hne : verfers se ≠ [] := by intro h0; rw [h0] at hv; simp at hv
                    obtain ⟨hest, hkeys⟩ := verfers_est hne
                    rw [hkeys] at hv
                    exact ⟨by simp only; rw [hs']; exact hd, e, by simp only; rw [hs']; exact he, sdig, se, hsd, hse, by simpa using hsaid, hest, v, hv, hver⟩
                  · exact absurd h (by simp)

theorem rel_stepW {env : Env} (b : Bool) (r : RNode) (x : Entry Sig) (rc : Id → Dig → Cigar → Prop) (vr : VKey → Sig → Prop)
    (ue : Entry Cigar → Prop) :
    Rel env (fun p d s => p = x.pre ∧ d = x.said ∧ WgE env r.node x.sn p d s) rc vr ue r (r.stepW env b x) := by
  unfold RNode.stepW
  split
  · exact .rfl' _
  · rename_i s h
    exact (rel_addWig r _ _ _ (by exact ⟨rfl, rfl, actW_wig h⟩)).trans (rel_remW _ _)
  · exact rel_remW _ _

theorem rel_stepU {env : Env} (b : Bool) (r : RNode) (hok : EvtOk r.node.db) (x : Entry Cigar) (vr : VKey → Sig → Prop)
    (ue : Entry Cigar → Prop) :
    Rel env (fun p d s => p = x.pre ∧ d = x.said ∧ WgE env r.node x.sn p d s)
      (fun p d c => p = x.pre ∧ d = x.said ∧ c = x.mat ∧ RcE env r.node x.sn p d c) vr ue r (r.stepU env b x) := by
  unfold RNode.stepU
  split
  · exact .rfl' _
  · rename_i s h
    exact (rel_addWig r _ _ _ (by exact ⟨rfl, rfl, (actU_cases hok).1 _ h⟩)).trans (rel_remU _ _)
  · rename_i h
    exact (rel_addRct r _ _ _ (by exact ⟨rfl, rfl, rfl, (actU_cases hok).2 h⟩)).trans (rel_remU _ _)
  · exact rel_remU _ _

theorem rel_stepV {env : Env} (b : Bool) (r : RNode) (hok : EvtOk r.node.db) (x : Entry Chit) (wg : Id → Dig → Sig → Prop)
    (rc : Id → Dig → Cigar → Prop) (ue : Entry Cigar → Prop) :
    Rel env wg rc (fun k s => k = ⟨x.pre, x.said, x.mat.rpre, x.mat.rsn, x.mat.rdig⟩ ∧ s = x.mat.sig ∧ VrE env r.node x.sn k s) ue r
      (r.stepV env b x) := by
  unfold RNode.stepV
  split
  · exact .rfl' _
  · rename_i h
    exact (rel_addVrc r _ _ (by exact ⟨rfl, rfl, actV_vrc hok h⟩)).trans (rel_remV _ _)
  · exact rel_remV _ _

end Verif.Rct
