import Verif.Exc.PropsGather
import Verif.Exc.PropsTime

/-! # C108: what has been saved can be read again -/

namespace Verif.Exc

open Verif.Thold (Thold)
open Verif.Kel (Id Dig Sig)
open Verif.Krm (Tab get_pin get_put get_rem get_mem)

variable {routes : Routes} {env : Env} {now : Int} {e : Exc} {m : Msg} {a : Att}

/-! ## Order of groups -/

theorem quadLt_iff {a b : Quad} : quadLt a b = true ↔ a.1 < b.1 ∨ (a.1 = b.1 ∧ (a.2.1 < b.2.1 ∨ (a.2.1 = b.2.1 ∧ a.2.2 < b.2.2))) := by
  simp [quadLt]

theorem quadLt_irrefl {a : Quad} : ¬ quadLt a a = true := by
  rw [quadLt_iff]
  obtain ⟨(a1 : Nat), a2, (a3 : Nat)⟩ := a
  show ¬ (a1 < a1 ∨ (a1 = a1 ∧ (a2 < a2 ∨ (a2 = a2 ∧ a3 < a3))))
  omega

theorem quadLt_trans {a b c : Quad} (h1 : quadLt a b = true) (h2 : quadLt b c = true) : quadLt a c = true := by
  rw [quadLt_iff] at h1 h2 ⊢
  obtain ⟨(a1 : Nat), a2, (a3 : Nat)⟩ := a
  obtain ⟨(b1 : Nat), b2, (b3 : Nat)⟩ := b
  obtain ⟨(c1 : Nat), c2, (c3 : Nat)⟩ := c
  replace h1 : a1 < b1 ∨ (a1 = b1 ∧ (a2 < b2 ∨ (a2 = b2 ∧ a3 < b3))) := h1
  replace h2 : b1 < c1 ∨ (b1 = c1 ∧ (b2 < c2 ∨ (b2 = c2 ∧ b3 < c3))) := h2
  show a1 < c1 ∨ (a1 = c1 ∧ (a2 < c2 ∨ (a2 = c2 ∧ a3 < c3)))
  omega

theorem quadLt_total {a b : Quad} (h1 : ¬ quadLt a b = true) (h2 : b ≠ a) : quadLt b a = true := by
  rw [quadLt_iff] at h1 ⊢
  obtain ⟨(a1 : Nat), a2, (a3 : Nat)⟩ := a
  obtain ⟨(b1 : Nat), b2, (b3 : Nat)⟩ := b
  replace h1 : ¬ (a1 < b1 ∨ (a1 = b1 ∧ (a2 < b2 ∨ (a2 = b2 ∧ a3 < b3)))) := h1
  replace h2 : ¬ (b1 = a1 ∧ b2 = a2 ∧ b3 = a3) := fun ⟨h3, h4, h5⟩ => h2 (by rw [h3, h4, h5])
  show b1 < a1 ∨ (b1 = a1 ∧ (b2 < a2 ∨ (b2 = a2 ∧ b3 < a3)))
  omega

/-- The groups of a message, in order. -/
def Ordered : List Tsg → Prop
  | [] => True
  | t :: l => (∀ u ∈ l, quadLt t.1 u.1 = true) ∧ Ordered l

theorem mem_addSig {q : Quad} {s : Sig} {t : Tsg} : ∀ {l : List Tsg}, t ∈ addSig q s l → t.1 = q ∨ t ∈ l
  | [], h => Or.inl (by rw [addSig, List.mem_singleton] at h; rw [h])
  | u :: l, h => by
    unfold addSig at h
    split at h
    · rename_i hq
      rcases List.mem_cons.1 h with h1 | h1
      · exact Or.inl (by rw [h1]; exact hq)
      · exact Or.inr (List.mem_cons_of_mem _ h1)
    · split at h
      · rcases List.mem_cons.1 h with h1 | h1
        · exact Or.inl (by rw [h1])
        · exact Or.inr h1
      · rcases List.mem_cons.1 h with h1 | h1
        · exact Or.inr (h1 ▸ List.mem_cons_self)
        · exact (mem_addSig h1).imp id (List.mem_cons_of_mem _)

theorem ordered_addSig {q : Quad} {s : Sig} : ∀ {l : List Tsg}, Ordered l → Ordered (addSig q s l)
  | [], _ => ⟨by simp, trivial⟩
  | t :: l, h => by
    unfold addSig
    split
    · exact ⟨h.1, h.2⟩
    · rename_i hne
      split
      · rename_i hlt
        refine ⟨fun u hu => ?_, h⟩
        rcases List.mem_cons.1 hu with h1 | h1
        · rw [h1]; exact hlt
        · exact quadLt_trans hlt (h.1 u h1)
      · rename_i hlt
        refine ⟨fun u hu => ?_, ordered_addSig h.2⟩
        rcases mem_addSig hu with h1 | h1
        · rw [h1]; exact quadLt_total hlt hne
        · exact h.1 u h1

/-- A signature is added to the only group of its event; the others stay. -/
theorem addSig_group {q : Quad} {s : Sig} {t : Tsg} : ∀ {l : List Tsg}, Ordered l → t ∈ addSig q s l →
    (t.1 ≠ q ∧ t ∈ l) ∨ (t.1 = q ∧ s ∈ t.2 ∧ ((∃ u ∈ l, u.1 = q ∧ ∀ x ∈ u.2, x ∈ t.2) ∨ ((∀ u ∈ l, u.1 ≠ q) ∧ t.2 = [s])))
  | [], _, h => by
    rw [addSig, List.mem_singleton] at h
    subst h
    exact Or.inr ⟨rfl, by simp, Or.inr ⟨by simp, rfl⟩⟩
  | u :: l, ho, h => by
    unfold addSig at h
    split at h
    · rename_i hq
      rcases List.mem_cons.1 h with h1 | h1
      · subst h1
        refine Or.inr ⟨hq, ?_, Or.inl ⟨u, List.mem_cons_self, hq, ?_⟩⟩
        · dsimp only; split
          · assumption
          · simp
        · intro x hx
          dsimp only; split
          · exact hx
          · exact List.mem_append_left _ hx
      · refine Or.inl ⟨?_, List.mem_cons_of_mem _ h1⟩
        intro hc
        have := ho.1 t h1
        rw [hc, ← hq] at this
        exact quadLt_irrefl this
    · rename_i hne
      split at h
      · rename_i hlt
        have hno : ∀ v ∈ u :: l, v.1 ≠ q := by
          intro v hv hc
          rcases List.mem_cons.1 hv with h1 | h1
          · exact hne (h1 ▸ hc)
          · have := quadLt_trans hlt (ho.1 v h1)
            rw [hc] at this
            exact quadLt_irrefl this
        rcases List.mem_cons.1 h with h1 | h1
        · subst h1
          exact Or.inr ⟨rfl, by simp, Or.inr ⟨hno, rfl⟩⟩
        · exact Or.inl ⟨hno t h1, h1⟩
      · rcases List.mem_cons.1 h with h1 | h1
        · subst h1
          exact Or.inl ⟨hne, List.mem_cons_self⟩
        · rcases addSig_group ho.2 h1 with ⟨h2, h3⟩ | ⟨h2, h3, h4⟩
          · exact Or.inl ⟨h2, List.mem_cons_of_mem _ h3⟩
          · refine Or.inr ⟨h2, h3, ?_⟩
            rcases h4 with ⟨v, h5, h6⟩ | ⟨h5, h6⟩
            · exact Or.inl ⟨v, List.mem_cons_of_mem _ h5, h6⟩
            · refine Or.inr ⟨fun v hv => ?_, h6⟩
              rcases List.mem_cons.1 hv with h7 | h7
              · exact h7 ▸ hne
              · exact h5 v h7

/-- Every group contains one of the given ones. -/
def Covered (G : Tsg → Prop) (l : List Tsg) : Prop := ∀ t ∈ l, ∃ g, G g ∧ g.1 = t.1 ∧ ∀ s ∈ g.2, s ∈ t.2

theorem covered_fold {G : Tsg → Prop} {q : Quad} : ∀ (ss pre : List Sig) (l : List Tsg), Ordered l → G (q, pre ++ ss) →
    (∀ t ∈ l, (∃ g, G g ∧ g.1 = t.1 ∧ ∀ s ∈ g.2, s ∈ t.2) ∨ (t.1 = q ∧ ∀ s ∈ pre, s ∈ t.2)) → (pre ≠ [] → ∃ t ∈ l, t.1 = q ∧ ∀ s ∈ pre, s ∈ t.2) →
    Covered G (ss.foldl (fun l s => addSig q s l) l) ∧ Ordered (ss.foldl (fun l s => addSig q s l) l)
  | [], pre, l, ho, hg, h, _ => by
    refine ⟨fun t ht => ?_, ho⟩
    rcases h t ht with h1 | ⟨h1, h2⟩
    · exact h1
    · exact ⟨(q, pre ++ []), hg, h1.symm, by simpa using h2⟩
  | s :: ss, pre, l, ho, hg, h, hp => by
    rw [List.foldl_cons]
    have hin : ∃ t ∈ addSig q s l, t.1 = q ∧ s ∈ t.2 := by
      obtain ⟨t, h1, h2, h3⟩ := (inTsgs_addSig (l := l) (q := q) (s := s) (q' := q) (s' := s)).2 (Or.inr ⟨rfl, rfl⟩)
      exact ⟨t, h1, h2, h3⟩
    have huniq : ∀ (l : List Tsg), Ordered l → ∀ t ∈ l, ∀ u ∈ l, t.1 = u.1 → t = u := by
      intro l
      induction l with
      | nil => intro _ t ht; exact absurd ht (by simp)
      | cons x l ih =>
        intro ho t ht u hu heq
        rcases List.mem_cons.1 ht with h1 | h1 <;> rcases List.mem_cons.1 hu with h2 | h2
        · rw [h1, h2]
        · have := ho.1 u h2
          rw [← heq, h1] at this
          exact absurd this quadLt_irrefl
        · have := ho.1 t h1
          rw [heq, h2] at this
          exact absurd this quadLt_irrefl
        · exact ih ho.2 t h1 u h2 heq
    have hall : ∀ t ∈ addSig q s l, t.1 = q → ∀ x ∈ pre ++ [s], x ∈ t.2 := by
      intro t ht hq x hx
      rcases addSig_group ho ht with ⟨h1, _⟩ | ⟨_, h2, h3⟩
      · exact absurd hq h1
      · rcases List.mem_append.1 hx with h4 | h4
        · have hne : pre ≠ [] := by rintro rfl; exact absurd h4 (by simp)
          obtain ⟨v, hv, hvq, hvs⟩ := hp hne
          rcases h3 with ⟨u, hu, huq, hus⟩ | ⟨h5, _⟩
          · rw [huniq l ho v hv u hu (hvq.trans huq.symm)] at hvs
            exact hus x (hvs x h4)
          · exact absurd hvq (h5 v hv)
        · rw [List.mem_singleton.1 h4]; exact h2
    refine covered_fold ss (pre ++ [s]) _ (ordered_addSig ho) (by simpa using hg) (fun t ht => ?_) (fun _ => ?_)
    · by_cases hq : t.1 = q
      · exact Or.inr ⟨hq, hall t ht hq⟩
      · rcases addSig_group ho ht with ⟨_, h2⟩ | ⟨h2, _⟩
        · exact Or.inl ((h t h2).resolve_right (fun h3 => hq h3.1))
        · exact absurd h2 hq
    · obtain ⟨t, h1, h2, _⟩ := hin
      exact ⟨t, h1, h2, hall t h1 h2⟩

theorem covered_addTsgs {G : Tsg → Prop} : ∀ (ts l : List Tsg), Ordered l → Covered G l → (∀ t ∈ ts, G t) → Covered G (addTsgs l ts) ∧ Ordered (addTsgs l ts)
  | [], l, ho, h, _ => ⟨h, ho⟩
  | t :: ts, l, ho, h, hg => by
    have : addTsgs l (t :: ts) = addTsgs (t.2.foldl (fun l s => addSig t.1 s l) l) ts := rfl
    rw [this]
    obtain ⟨h1, h2⟩ := covered_fold (q := t.1) t.2 [] l ho (hg t List.mem_cons_self) (fun u hu => Or.inl (h u hu)) (fun h => absurd rfl h)
    exact covered_addTsgs ts _ h2 h1 (fun u hu => hg u (List.mem_cons_of_mem _ hu))

/-- If what is added contains a group of each, each group still contains one. -/
theorem covered_mono {G : Tsg → Prop} {l : List Tsg} (ho : Ordered l) (h : Covered G l) : ∀ ts, (∀ t ∈ ts, ∃ g, G g ∧ g.1 = t.1 ∧ ∀ s ∈ g.2, s ∈ t.2) →
    Covered G (addTsgs l ts) ∧ Ordered (addTsgs l ts) := by
  intro ts hts
  have := covered_addTsgs (G := fun t => ∃ g, G g ∧ g.1 = t.1 ∧ ∀ s ∈ g.2, s ∈ t.2) ts l ho (fun t ht => ⟨t, h t ht, rfl, fun s hs => hs⟩) hts
  refine ⟨fun t ht => ?_, this.2⟩
  obtain ⟨u, ⟨g, h1, h2, h3⟩, h4, h5⟩ := this.1 t ht
  exact ⟨g, h1, h2.trans h4, fun s hs => h5 s (h3 s hs)⟩

/-! ## What is stored with a message -/

/-- The group came with a message of the digest. -/
def CameGroup (l : List Step) (d : Dig) (g : Tsg) : Prop := ∃ m a, Came l m a ∧ m.said = d ∧ g ∈ a.tsgs

/-- The cigar came with a message of the digest. -/
def CameCig (l : List Step) (d : Dig) (c : Id × Nat) : Prop := ∃ m a, Came l m a ∧ m.said = d ∧ c ∈ a.cigars

structure InvR (l : List Step) (e : Exc) : Prop where
  order : ∀ d, Ordered (e.esigs.items d)
  cover : ∀ d, Covered (CameGroup l d) (e.esigs.items d)
  cigs : ∀ d, ∀ c ∈ e.ecigs.items d, CameCig l d c
  signed : ∀ d, (e.exns.get d).isSome → e.esigs.items d ≠ [] ∨ e.ecigs.items d ≠ []

theorem mem_addSet {α : Type} [DecidableEq α] {d : Dig} {x : α} : ∀ (vs : List α) (t : Tab Dig (List α)), x ∈ (addSet t d vs).items d ↔ x ∈ t.items d ∨ x ∈ vs
  | [], t => by simp [addSet]
  | v :: vs, t => by
    have : addSet t d (v :: vs) = addSet (if v ∈ t.items d then t else t.pin d (t.items d ++ [v])) d vs := rfl
    rw [this, mem_addSet vs]
    split
    · rename_i hv
      constructor
      · exact fun h => h.imp id (List.mem_cons_of_mem _)
      · rintro (h | h)
        · exact Or.inl h
        · rcases List.mem_cons.1 h with h | h
          · exact Or.inl (h ▸ hv)
          · exact Or.inr h
    · rw [items_pin, if_pos rfl, List.mem_append, List.mem_singleton, List.mem_cons, or_assoc]

theorem addSig_ne (q : Quad) (s : Sig) (l : List Tsg) : addSig q s l ≠ [] := by
  cases l with
  | nil => simp [addSig]
  | cons t l =>
    unfold addSig
    split
    · simp
    · split <;> simp

theorem foldSig_ne {q : Quad} : ∀ (ss : List Sig) (l : List Tsg), l ≠ [] ∨ ss ≠ [] → ss.foldl (fun l s => addSig q s l) l ≠ []
  | [], _, h => h.resolve_right (fun h => h rfl)
  | s :: ss, l, _ => foldSig_ne ss _ (Or.inl (addSig_ne q s l))

theorem addTsgs_ne : ∀ (ts l : List Tsg), (l ≠ [] ∨ ∃ t ∈ ts, t.2 ≠ []) → addTsgs l ts ≠ []
  | [], _, h => h.resolve_right (by simp)
  | t :: ts, l, h => by
    have : addTsgs l (t :: ts) = addTsgs (t.2.foldl (fun l s => addSig t.1 s l) l) ts := rfl
    rw [this]
    rcases h with h | ⟨u, hu, hne⟩
    · exact addTsgs_ne ts _ (Or.inl (foldSig_ne _ _ (Or.inl h)))
    · rcases List.mem_cons.1 hu with h1 | h1
      · exact addTsgs_ne ts _ (Or.inl (foldSig_ne _ _ (Or.inr (h1 ▸ hne))))
      · exact addTsgs_ne ts _ (Or.inr ⟨u, h1, hne⟩)

/-- A good group is not empty. -/
theorem good_ne {t : Tsg} (h : checkSigs env m t = .good) : t.2 ≠ [] := by
  intro hc
  obtain ⟨_, kt, keys, _, h2⟩ := checkSigs_good h
  rw [hc] at h2
  exact satisfy_nil h2

theorem proc_invR {l : List Step} {e' : Exc} {r : Except Err Unit} (h : InvR l e)
    (hg : ∀ t ∈ a.tsgs, ∃ g, CameGroup l m.said g ∧ g.1 = t.1 ∧ ∀ s ∈ g.2, s ∈ t.2) (hc : ∀ c ∈ a.cigars, CameCig l m.said c)
    (hp : Proc routes env now e m a e' r) : InvR l e' := by
  cases hp with
  | drop r => exact h
  | wait acts _ =>
    refine ⟨fun d => ?_, fun d => ?_, h.cigs, fun d hd => ?_⟩ <;> dsimp only [escrow] <;> rw [items_pin] <;> split
    · rename_i hd; subst hd; exact (covered_mono (h.order _) (h.cover _) _ hg).2
    · exact h.order d
    · rename_i hd; subst hd; exact (covered_mono (h.order _) (h.cover _) _ hg).1
    · exact h.cover d
    · rename_i hd2
      subst hd2
      exact (h.signed _ hd).imp (fun h1 => addTsgs_ne _ _ (Or.inl h1)) id
    · exact h.signed d hd
  | save acts r hau _ _ _ =>
    refine ⟨fun d => ?_, fun d => ?_, fun d c hin => ?_, fun d hd => ?_⟩ <;> dsimp only [log] at *
    · rw [items_pin]
      split
      · rename_i hd; subst hd; exact (covered_mono (h.order _) (h.cover _) _ hg).2
      · exact h.order d
    · rw [items_pin]
      split
      · rename_i hd; subst hd; exact (covered_mono (h.order _) (h.cover _) _ hg).1
      · exact h.cover d
    · by_cases hd : m.said = d
      · subst hd
        rcases (mem_addSet a.cigars e.ecigs).1 hin with h1 | h1
        · exact h.cigs _ c h1
        · exact hc c h1
      · rw [items_addSet hd] at hin
        exact h.cigs d c hin
    · by_cases hd2 : m.said = d
      · subst hd2
        rw [items_pin, if_pos rfl]
        rcases hau with ⟨h1, h2⟩ | ⟨_, h2, _⟩
        · cases hts : a.tsgs with
          | nil => exact absurd hts h1
          | cons t ts =>
            have ht : t ∈ a.tsgs := by rw [hts]; exact List.mem_cons_self
            exact Or.inl (addTsgs_ne _ _ (Or.inr ⟨t, List.mem_cons_self, good_ne (checkTsg_good (h2 t ht)).2⟩))
        · cases hcs : a.cigars with
          | nil => exact absurd hcs h2
          | cons c cs =>
            refine Or.inr (fun hnil => ?_)
            have := (mem_addSet (d := m.said) (x := c) (c :: cs) e.ecigs).2 (Or.inr List.mem_cons_self)
            rw [hnil] at this
            exact absurd this (by simp)
      · rw [items_pin, if_neg hd2, items_addSet hd2]
        refine h.signed d ?_
        rw [get_put, if_neg (fun h2 => hd2 h2.1)] at hd
        exact hd

theorem run_invR (routes : Routes) (l : List Step) : InvR l (run routes l) := by
  have := run_inv (routes := routes) (P := fun l e => InvA (routes := routes) l e ∧ InvR l e)
    ⟨run_invA routes [], ⟨fun d => trivial, fun d t ht => absurd ht (by simp [Tab.items, Tab.get]), fun d c hc => absurd hc (by simp [Tab.items, Tab.get]),
      fun d hd => absurd hd (by simp [Tab.get])⟩⟩
    (fun l s e h => ⟨h.1.mono s, ⟨h.2.order, fun d t ht => by
      obtain ⟨g, ⟨m, a, h1, h2⟩, h3⟩ := h.2.cover d t ht
      exact ⟨g, ⟨m, a, h1.mono s, h2⟩, h3⟩, fun d c hc => by
      obtain ⟨m, a, h1, h2⟩ := h.2.cigs d c hc
      exact ⟨m, a, h1.mono s, h2⟩, h.2.signed⟩⟩)
    (fun l e env now m a h => ⟨?_, proc_invR h.2 (fun t ht => ⟨t, ⟨m, a, came_last l env now m a, rfl, ht⟩, rfl, fun s hs => hs⟩)
      (fun c hc => ⟨m, a, came_last l env now m a, rfl, hc⟩) process_proc⟩)
    (fun l e0 e env now d m h0 hm h => ⟨?_, proc_invR h.2 ?_ (fun c hc => absurd hc (by simp [stored])) process_proc⟩)
    (fun l e d h => ⟨unescrow_invA d h.1, by
      obtain ⟨h1, _, h3, h4, _⟩ := unescrow_frame e d
      refine ⟨?_, ?_, ?_, ?_⟩
      · rw [h3]; exact h.2.order
      · rw [h3]; exact h.2.cover
      · rw [h4]; exact h.2.cigs
      · rw [h1, h3, h4]; exact h.2.signed⟩) l
  · exact this.2
  · exact proc_invA (x := .deliver env now m a) h.1 ⟨a, came_last l env now m a⟩
      (fun q s ⟨t, ht, h1, h2⟩ => ⟨m, a, came_last l env now m a, rfl, t, ht, h1, h2⟩) (fun _ => came_last l env now m a) process_proc
  · obtain ⟨h1, h2⟩ := h0.1.epse _ hm
    have h1 : m.said = d := h1
    subst h1
    exact proc_invA (x := .pass env now) h.1 h2 (fun q s hs => h.1.esigs m.said q s hs) (fun hc => absurd rfl hc) process_proc
  · have h1 : m.said = d := (h0.1.epse _ hm).1
    subst h1
    exact h.2.cover _

/-! ## Reading again -/

theorem checkStored_go {l : List Tsg} (h : ∀ t ∈ l, checkSigs env m t = .good) : checkStored.go env m l = .ok () := by
  induction l with
  | nil => rfl
  | cons t l ih =>
    unfold checkStored.go
    rw [h t List.mem_cons_self]
    exact ih (fun u hu => h u (List.mem_cons_of_mem _ hu))

theorem checkStored_ok (h1 : ∀ t ∈ e.esigs.items m.said, checkSigs env m t = .good) (h2 : ∀ c ∈ e.ecigs.items m.said, env.verify c.1 c.2 m = true)
    (h3 : e.esigs.items m.said ≠ [] ∨ e.ecigs.items m.said ≠ []) : checkStored env e m = .ok () := by
  unfold checkStored
  rw [checkStored_go h1]
  dsimp only
  rw [if_pos (List.all_eq_true.2 h2), if_neg (by grind)]

/-- Thresholds of key events: a number, or fractions that are not negative, one for each key. -/
def Sane (env : Env) : Prop := ∀ q keys kt, KeysAt env q keys kt → ∀ cs, kt = .wtd cs → Verif.Thold.NonNeg cs ∧ keys.length ≤ Verif.Thold.size kt

theorem satisfy_more {kt : Thold} {keys : List Id} {ss us : List Sig} (hsub : ∀ s ∈ ss, s ∈ us)
    (hkt : ∀ cs, kt = .wtd cs → Verif.Thold.NonNeg cs ∧ keys.length ≤ Verif.Thold.size kt)
    (h : Verif.Thold.satisfy kt ((verifySigs env m ss keys).map Sig.index) = true) : Verif.Thold.satisfy kt ((verifySigs env m us keys).map Sig.index) = true := by
  have hv : ∀ s ∈ verifySigs env m ss keys, s ∈ verifySigs env m us keys := fun s hs => by
    obtain ⟨h1, h2⟩ := verifySigs_mem.1 hs
    exact verifySigs_mem.2 ⟨hsub s h1, h2⟩
  cases kt with
  | num n =>
    simp only [Verif.Thold.satisfy, Verif.Thold.satisfyNum, decide_eq_true_eq, List.length_map] at h ⊢
    have := List.Nodup.length_le_of_subset (verifySigs_nodup (env := env) (m := m) (ss := ss) (keys := keys)) hv
    exact ⟨h.1, by omega⟩
  | wtd cs =>
    obtain ⟨hn, hk⟩ := hkt cs rfl
    rw [Verif.Thold.c11_weighted] at h ⊢
    rw [Verif.Thold.size_wtd] at hk
    refine ⟨?_, ?_, Verif.Thold.satisfied_mono cs hn _ _ ?_ h.2.2⟩
    · intro he
      obtain ⟨i, hi⟩ := List.exists_mem_of_ne_nil _ h.1
      obtain ⟨s, hs, _⟩ := List.mem_map.1 hi
      have := List.mem_map_of_mem (f := Sig.index) (hv s hs)
      rw [he] at this
      exact absurd this (by simp)
    · intro j hj
      obtain ⟨s, hs, rfl⟩ := List.mem_map.1 hj
      obtain ⟨_, key, h2, _⟩ := verifySigs_mem.1 hs
      obtain ⟨h3, _⟩ := List.getElem?_eq_some_iff.1 h2
      exact Nat.lt_of_lt_of_le h3 hk
    · intro i hi
      have hi : i ∈ (verifySigs env m ss keys).map Sig.index := by simpa using hi
      obtain ⟨s, hs, rfl⟩ := List.mem_map.1 hi
      simpa using ⟨s, hv s hs, rfl⟩

/-- More signatures than enough are enough. -/
theorem checkSigs_more {g t : Tsg} (hs : Sane env) (hq : g.1 = t.1) (hsub : ∀ s ∈ g.2, s ∈ t.2) (h : checkSigs env m g = .good) :
    checkSigs env m t = .good := by
  obtain ⟨⟨n, h1, h2⟩, kt, keys, h3, h4⟩ := checkSigs_good h
  rw [hq] at h1 h2 h3
  unfold checkSigs
  rw [h1]
  dsimp only
  rw [if_neg (by omega), resolve_of_keysAt h3]
  dsimp only
  rw [if_pos (satisfy_more hsub (hs _ keys kt h3) h4)]

/-- **C108 (partial)** A message that has been saved can be read again, with what is known then, if every group of signatures that ever came with it
is enough by itself and every signature without index that came with it is good.  Missing: messages that came, before or after they were saved, with
signatures that are not enough, or with bad ones of the other kind; those cannot be read (see `Verif.Exc.Demo`). -/
theorem c108_again_partial (routes : Routes) (l : List Step) (env : Env) (d : Dig) (m : Msg) (hm : (run routes l).exns.get d = some m)
    (halone : ∀ m' a, Came l m' a → m'.said = d → m' = m) (hsane : Sane env)
    (hgood : ∀ a, Came l m a → (∀ t ∈ a.tsgs, checkSigs env m t = .good) ∧ ∀ c ∈ a.cigars, env.verify c.1 c.2 m = true) :
    clone env (run routes l) d = .ok (some m) := by
  have hinv := run_invR routes l
  have hsaid := (c101_saved routes l d m hm).1
  subst hsaid
  unfold clone
  rw [hm]
  dsimp only
  rw [checkStored_ok]
  · intro t ht
    obtain ⟨g, ⟨m', a, h1, h2, h3⟩, h4, h5⟩ := hinv.cover _ t ht
    obtain rfl := halone m' a h1 h2
    exact checkSigs_more hsane h4 h5 ((hgood a h1).1 g h3)
  · intro c hc
    obtain ⟨m', a, h1, h2, h3⟩ := hinv.cigs _ c hc
    obtain rfl := halone m' a h1 h2
    exact (hgood a h1).2 c h3
  · exact hinv.signed _ (by rw [hm]; rfl)

/-- **C108 (partial)** So can one whose signatures came one by one, all for the same event, once it is saved. -/
theorem c108_gathered_partial (routes : Routes) (l : List Step) (env : Env) (now : Int) (m : Msg) (q : Quad) (keys : List Id) (kt : Thold) (good : Id → Nat → Bool)
    (hst : Steady (l ++ [.pass env now]) m q keys kt good) (hpl : Plain routes m) (hcig : ∀ a, Came l m a → a.cigars = [])
    (hkt : ∀ cs, kt = .wtd cs → Verif.Thold.NonNeg cs ∧ keys.length ≤ Verif.Thold.size kt)
    (ss : List Sig) (hnd : (ss.map Sig.index).Nodup) (hss : ∀ s ∈ ss, CameSig l m.said q s ∧ ∃ key, keys[s.index]? = some key ∧ good key s.raw = true)
    (hen : Verif.Thold.satisfy kt (ss.map Sig.index) = true) : clone env (run routes (l ++ [.pass env now])) m.said = .ok (some m) := by
  have hm := c105_gather_partial routes l env now m q keys kt good hst hpl hkt ss hnd hss hen
  have hinv := run_invR routes (l ++ [.pass env now])
  have hG := run_invG hpl _ hst
  obtain ⟨hn, hk, hg⟩ := hst.known _ (List.mem_append_right _ (List.mem_singleton.2 rfl))
  replace hn : ∃ n, env.sn q.1 = some n ∧ q.2.1 ≤ n := hn
  replace hk : KeysAt env q keys kt := hk
  replace hg : ∀ k raw, env.verify k raw m = good k raw := hg
  unfold clone
  rw [hm]
  dsimp only
  rw [checkStored_ok]
  · intro t ht
    rcases hG.single with h1 | ⟨us, h1⟩
    · rw [h1] at ht; exact absurd ht (by simp)
    · have h5 := hG.sigs
      rw [h1] at ht h5
      rw [List.mem_singleton.1 ht]
      unfold checkSigs
      obtain ⟨n, h2, h3⟩ := hn
      rw [h2]
      dsimp only
      rw [if_neg (by omega), resolve_of_keysAt hk]
      dsimp only
      rw [if_pos]
      refine Verif.Thold.c12_monotone_partial kt _ _ ?_ hnd ?_ hen
      · intro i hi
        obtain ⟨s, hs, rfl⟩ := List.mem_map.1 hi
        obtain ⟨⟨x, a, h6, h7, h8⟩, key, h9, h10⟩ := hss s hs
        obtain ⟨u, hu, _, h11⟩ := h5 s ⟨x, a, h6.mono _, h7, h8⟩
        rw [List.mem_singleton.1 hu] at h11
        exact List.mem_map.2 ⟨s, verifySigs_mem.2 ⟨h11, key, h9, by rw [hg]; exact h10⟩, rfl⟩
      · intro cs hcs
        refine ⟨(hkt cs hcs).1, fun j hj => ?_⟩
        obtain ⟨s, hs, rfl⟩ := List.mem_map.1 hj
        obtain ⟨_, key, h2, _⟩ := verifySigs_mem.1 hs
        obtain ⟨h3, _⟩ := List.getElem?_eq_some_iff.1 h2
        exact Nat.lt_of_lt_of_le h3 (hkt cs hcs).2
  · intro c hc
    obtain ⟨m', a, h1, h2, h3⟩ := hinv.cigs _ c hc
    obtain ⟨rfl, _⟩ := hst.alone m' a h1 h2
    rw [hcig a (came_pass h1)] at h3
    exact absurd h3 (by simp)
  · exact hinv.signed _ (by rw [hm]; rfl)

end Verif.Exc
