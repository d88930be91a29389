import Verif.Exc.Runs

/-! # C101, C102: only messages from their senders are saved and handled -/

namespace Verif.Exc

open Verif.Thold (Thold)
open Verif.Kel (Id Dig Sig)
open Verif.Krm (Tab get_pin get_put get_rem get_mem)

variable {routes : Routes}

theorem Came.mono {l : List Step} {m : Msg} {a : Att} (s : Step) : Came l m a → Came (l ++ [s]) m a
  | ⟨env, now, h⟩ => ⟨env, now, List.mem_append_left _ h⟩

theorem CameSig.mono {l : List Step} {d : Dig} {q : Quad} {x : Sig} (s : Step) : CameSig l d q x → CameSig (l ++ [s]) d q x
  | ⟨m, a, h, h2⟩ => ⟨m, a, h.mono s, h2⟩

theorem Authentic.mono {l : List Step} {m : Msg} (s : Step) : Authentic l m → Authentic (l ++ [s]) m
  | ⟨l1, x, l2, h, h2⟩ => ⟨l1, x, l2 ++ [s], by rw [h]; simp, h2⟩

theorem came_last (l : List Step) (env : Env) (now : Int) (m : Msg) (a : Att) : Came (l ++ [.deliver env now m a]) m a :=
  ⟨env, now, List.mem_append_right _ (List.mem_singleton.2 rfl)⟩

theorem authentic_tsgs {l : List Step} {x : Step} {m : Msg} {ts : List Tsg} (hm : ∃ a, Came (l ++ [x]) m a) (hne : ts ≠ [])
    (hg : ∀ t ∈ ts, checkTsg x.env m t = .good) (hc : ∀ q s, InTsgs ts q s → CameSig (l ++ [x]) m.said q s) : Authentic (l ++ [x]) m := by
  cases ts with
  | nil => exact absurd rfl hne
  | cons t ts =>
    obtain ⟨h1, h2⟩ := checkTsg_good (hg t List.mem_cons_self)
    obtain ⟨⟨n, hn, hl⟩, kt, keys, hk, hs⟩ := checkSigs_good h2
    have hq : t.1 = (m.sender, t.1.2.1, t.1.2.2) := by rw [← h1]
    refine ⟨l, x, [], rfl, hm, Or.inl ⟨t.1.2.1, t.1.2.2, keys, kt, verifySigs x.env m t.2 keys, ⟨n, h1 ▸ hn, hl⟩, hq ▸ hk, verifySigs_nodup, ?_, hs⟩⟩
    intro s hs
    rw [verifySigs_mem] at hs
    exact ⟨hq ▸ hc t.1 s ⟨t, List.mem_cons_self, rfl, hs.1⟩, hs.2⟩

theorem authentic_cigars {l : List Step} {x : Step} {m : Msg} {a : Att} (hm : Came (l ++ [x]) m a) (hne : a.cigars ≠ [])
    (hg : checkCigars x.env m a.cigars = true) : Authentic (l ++ [x]) m := by
  refine ⟨l, x, [], rfl, ⟨a, hm⟩, Or.inr ?_⟩
  cases hc : a.cigars with
  | nil => exact absurd hc hne
  | cons c cs =>
    unfold checkCigars at hg
    rw [hc, List.all_cons, Bool.and_eq_true, Bool.and_eq_true] at hg
    have h1 : m.sender = c.1 := by simpa using hg.1.1
    exact ⟨a, c.2, hm, by rw [hc, h1]; exact List.mem_cons_self, by rw [h1]; exact hg.1.2⟩

/-- What is stored came, what is saved or handled is authentic. -/
structure InvA (l : List Step) (e : Exc) : Prop where
  exns : ∀ x ∈ e.exns, x.2.said = x.1 ∧ Authentic l x.2
  epse : ∀ x ∈ e.epse, x.2.said = x.1 ∧ ∃ a, Came l x.2 a
  esigs : ∀ d q s, InTsgs (e.esigs.items d) q s → CameSig l d q s
  handled : ∀ m, Act.handled m ∈ e.acts → Authentic l m ∧ (e.exns.get m.said).isSome ∧ ∃ h, routes m.route = some h ∧ h.handle.isSome
  saved : ∀ d, Act.saved d ∈ e.acts → (e.exns.get d).isSome

variable {env : Env} {now : Int} {e : Exc} {m : Msg} {a : Att}

theorem InvA.mono {l : List Step} (s : Step) (h : InvA (routes := routes) l e) : InvA (routes := routes) (l ++ [s]) e :=
  ⟨fun x hx => ⟨(h.exns x hx).1, (h.exns x hx).2.mono s⟩, fun x hx => ⟨(h.epse x hx).1, (h.epse x hx).2.imp (fun _ => Came.mono s)⟩,
    fun d q x hx => (h.esigs d q x hx).mono s, fun m hm => ⟨(h.handled m hm).1.mono s, (h.handled m hm).2⟩, h.saved⟩

theorem isSome_put {ν : Type} {t : Tab Dig ν} {k k' : Dig} {v : ν} (h : (t.get k').isSome) : ((t.put k v).get k').isSome := by
  rw [get_put]
  split
  · rfl
  · exact h

theorem isSome_put_self {ν : Type} {t : Tab Dig ν} {k : Dig} {v : ν} : ((t.put k v).get k).isSome := by
  rw [get_put]
  cases h : t.get k <;> simp

/-- One delivery, of a message that came, with signatures that came. -/
theorem proc_invA {l : List Step} {x : Step} {r : Except Err Unit} {e' : Exc} (h : InvA (routes := routes) (l ++ [x]) e) (hm : ∃ a, Came (l ++ [x]) m a)
    (hs : ∀ q s, InTsgs a.tsgs q s → CameSig (l ++ [x]) m.said q s) (hc : a.cigars ≠ [] → Came (l ++ [x]) m a)
    (hp : Proc routes x.env now e m a e' r) : InvA (routes := routes) (l ++ [x]) e' := by
  cases hp with
  | drop r => exact h
  | wait acts ha =>
    refine ⟨h.exns, fun y hy => ?_, fun d q s hin => ?_, fun m' hm' => ?_, fun d hd => ?_⟩
    · rcases mem_put hy with h1 | h1
      · exact h.epse y h1
      · subst h1; exact ⟨rfl, hm⟩
    · dsimp only [escrow] at hin
      rw [items_pin] at hin
      by_cases hd : m.said = d
      · rw [if_pos hd] at hin
        rcases (inTsgs_addTsgs _ _).1 hin with h1 | h1
        · exact hd ▸ h.esigs _ _ _ h1
        · exact hd ▸ hs _ _ h1
      · rw [if_neg hd] at hin
        exact h.esigs _ _ _ hin
    · rcases List.mem_append.1 hm' with h1 | h1
      · exact h.handled m' h1
      · obtain ⟨p, n, h2⟩ := ha _ h1
        exact absurd h2 (by simp)
    · rcases List.mem_append.1 hd with h1 | h1
      · exact h.saved d h1
      · obtain ⟨p, n, h2⟩ := ha _ h1
        exact absurd h2 (by simp)
  | save acts r ha he hv hacts =>
    have hau : Authentic (l ++ [x]) m := by
      rcases ha with ⟨h1, h2⟩ | ⟨h1, h2, h3⟩
      · exact authentic_tsgs hm h1 h2 hs
      · exact authentic_cigars (hc h2) h2 h3
    refine ⟨fun y hy => ?_, h.epse, fun d q s hin => ?_, fun m' hm' => ?_, fun d hd => ?_⟩
    · rcases mem_put hy with h1 | h1
      · exact h.exns y h1
      · subst h1; exact ⟨rfl, hau⟩
    · dsimp only [log] at hin
      rw [items_pin] at hin
      by_cases hd : m.said = d
      · rw [if_pos hd] at hin
        rcases (inTsgs_addTsgs _ _).1 hin with h1 | h1
        · exact hd ▸ h.esigs _ _ _ h1
        · exact hd ▸ hs _ _ h1
      · rw [if_neg hd] at hin
        exact h.esigs _ _ _ hin
    · rcases List.mem_append.1 hm' with h1 | h1
      · rcases List.mem_append.1 h1 with h2 | h2
        · exact ⟨(h.handled m' h2).1, isSome_put (h.handled m' h2).2.1, (h.handled m' h2).2.2⟩
        · exact absurd (List.mem_singleton.1 h2) (by simp)
      · rcases hacts with h2 | ⟨h2, h3⟩
        · rw [h2] at h1; exact absurd h1 (by simp)
        · rw [h2] at h1
          have h4 := List.mem_singleton.1 h1
          injection h4 with h4
          subst h4
          exact ⟨hau, isSome_put_self, h3⟩
    · rcases List.mem_append.1 hd with h1 | h1
      · rcases List.mem_append.1 h1 with h2 | h2
        · exact isSome_put (h.saved d h2)
        · have h4 := List.mem_singleton.1 h2
          injection h4 with h4
          subst h4
          exact isSome_put_self
      · rcases hacts with h2 | ⟨h2, h3⟩
        · rw [h2] at h1; exact absurd h1 (by simp)
        · rw [h2] at h1
          exact absurd (List.mem_singleton.1 h1) (by simp)

theorem unescrow_frame (e : Exc) (d : Dig) : (unescrow e d).exns = e.exns ∧ (unescrow e d).erpy = e.erpy ∧ (unescrow e d).esigs = e.esigs ∧
    (unescrow e d).ecigs = e.ecigs ∧ (unescrow e d).essrs = e.essrs ∧ (unescrow e d).acts = e.acts ∧ (unescrow e d).epse = e.epse.rem d ∧
    (unescrow e d).epsd = e.epsd.rem d := by
  unfold unescrow
  dsimp only
  split <;> exact ⟨rfl, rfl, rfl, rfl, rfl, rfl, rfl, rfl⟩

theorem unescrow_invA {l : List Step} (d : Dig) (h : InvA (routes := routes) l e) : InvA (routes := routes) l (unescrow e d) := by
  obtain ⟨h1, _, h3, _, _, h6, h7, _⟩ := unescrow_frame e d
  refine ⟨h1 ▸ h.exns, fun x hx => h.epse x (mem_rem (h7 ▸ hx)), h3 ▸ h.esigs, ?_, ?_⟩
  · rw [h6, h1]; exact h.handled
  · rw [h6, h1]; exact h.saved

theorem run_invA (routes : Routes) (l : List Step) : InvA (routes := routes) l (run routes l) := by
  refine run_inv (P := InvA (routes := routes)) ?_ (fun l s e h => h.mono s) ?_ ?_ (fun l e d h => unescrow_invA d h) l
  · refine ⟨by simp, by simp, ?_, by simp, by simp⟩
    rintro d q s ⟨t, ht, _⟩
    exact absurd ht (by simp [Tab.items, Tab.get])
  · intro l e env now m a h
    exact proc_invA (x := .deliver env now m a) h ⟨a, came_last l env now m a⟩ (fun q s ⟨t, ht, h1⟩ => ⟨m, a, came_last l env now m a, rfl, t, ht, h1⟩)
      (fun _ => came_last l env now m a) process_proc
  · intro l e0 e env now d m h0 hm h
    obtain ⟨h1, h2⟩ := h0.epse _ hm
    dsimp only at h1 h2
    exact proc_invA (x := .pass env now) h h2 (fun q s hs => h.esigs _ _ _ (h1 ▸ hs)) (fun hne => absurd rfl hne) process_proc

/-- **C101** Whatever is saved as a peer to peer message is from its sender: at some time of the history it had come, signatures that had come with
its digest were made with the keys the sender has at one of the events known of it, and were enough; or the sender is a key itself and has signed. -/
theorem c101_saved (routes : Routes) (l : List Step) (d : Dig) (m : Msg) (h : (run routes l).exns.get d = some m) : m.said = d ∧ Authentic l m :=
  (run_invA routes l).exns _ (get_mem h)

/-- **C101** A message that waits for signatures has come. -/
theorem c101_waiting (routes : Routes) (l : List Step) (d : Dig) (m : Msg) (h : (run routes l).epse.get d = some m) : m.said = d ∧ ∃ a, Came l m a :=
  (run_invA routes l).epse _ (get_mem h)

/-- **C102** Whatever is given to a handler is from its sender, is saved, and the handler is that of its route. -/
theorem c102_handled (routes : Routes) (l : List Step) (m : Msg) (h : Act.handled m ∈ (run routes l).acts) :
    Authentic l m ∧ complete (run routes l) m.said = true ∧ ∃ x, routes m.route = some x ∧ x.handle.isSome :=
  (run_invA routes l).handled m h

/-- **C102** What is announced as saved can be asked for. -/
theorem c102_saved (routes : Routes) (l : List Step) (d : Dig) (h : Act.saved d ∈ (run routes l).acts) : complete (run routes l) d = true :=
  (run_invA routes l).saved d h

/-- **C102** A message that the handler of its route refuses, whatever is stored, is neither saved nor handled. -/
theorem c102_veto (routes : Routes) (l : List Step) (m : Msg) (h : Handler) (f : Env → Exc → Msg → List Dig → Except Err Bool) (hr : routes m.route = some h)
    (hf : h.verify = some f) (hno : ∀ env e nests, f env e m nests ≠ .ok true ∧ f env e m nests ≠ .error .attribute) :
    (∀ d, (run routes l).exns.get d ≠ some m) ∧ Act.handled m ∉ (run routes l).acts := by
  have hvet : ∀ env e nests, vet (routes m.route) env e m nests ≠ .ok true := by
    intro env e nests hc
    unfold vet at hc
    rw [hr] at hc
    dsimp only at hc
    rw [hf] at hc
    dsimp only at hc
    split at hc
    · rename_i h1; exact (hno env e nests).2 h1
    · exact (hno env e nests).1 hc
  have hproc : ∀ {env now x a r} {e e' : Exc}, ((∀ d, e.exns.get d ≠ some m) ∧ Act.handled m ∉ e.acts) → Proc routes env now e x a e' r →
      (∀ d, e'.exns.get d ≠ some m) ∧ Act.handled m ∉ e'.acts := by
    intro env now x a r e e' hi hp
    cases hp with
    | drop r => exact hi
    | wait acts hq =>
      refine ⟨hi.1, fun hin => ?_⟩
      rcases List.mem_append.1 hin with h1 | h1
      · exact hi.2 h1
      · obtain ⟨p, n, h2⟩ := hq _ h1
        exact absurd h2 (by simp)
    | save acts r _ _ hv hacts =>
      have hne : x ≠ m := fun hc => hvet _ _ _ (hc ▸ hv)
      refine ⟨fun d hd => ?_, fun hin => ?_⟩
      · dsimp only [log] at hd
        rw [get_put] at hd
        split at hd
        · exact hne (Option.some.inj hd)
        · exact hi.1 d hd
      · rcases List.mem_append.1 hin with h1 | h1
        · rcases List.mem_append.1 h1 with h1 | h1
          · exact hi.2 h1
          · exact absurd (List.mem_singleton.1 h1) (by simp)
        · rcases hacts with h2 | ⟨h2, _⟩
          · rw [h2] at h1; exact absurd h1 (by simp)
          · rw [h2] at h1
            have := List.mem_singleton.1 h1
            injection this with this
            exact hne this.symm
  refine run_inv (P := fun _ e => (∀ d, e.exns.get d ≠ some m) ∧ Act.handled m ∉ e.acts) ?_ (fun _ _ _ h => h) (fun l e env now x a hi => hproc hi process_proc)
    (fun l e0 e env now d x _ _ hi => hproc hi process_proc) (fun l e d hi => ?_) l
  · exact ⟨by simp [Tab.get], by simp⟩
  · obtain ⟨h1, _, _, _, _, h6, _⟩ := unescrow_frame e d
    rw [h1, h6]
    exact hi

end Verif.Exc
