import Verif.Exc.PropsIpex

/-! # C114: what is nested in a saved message of the protocol; C115: how often missing events are asked for -/

namespace Verif.Exc

open Verif.Kel (Id Dig Sig)
open Verif.Krm (Tab get_pin get_put get_rem get_mem)

/-! ## Specification -/

/-- The messages that the attributes of a message of the protocol name, in order. -/
def named (m : Msg) : Verb → List (Option Dig)
  | .offer => [m.acdc]
  | .grant => [m.acdc] ++ (match m.iss with | some d => [some d] | none => []) ++ (match m.anc with | some d => [some d] | none => [])
  | _ => []

/-- Queries for missing events. -/
def queries (l : List Act) : Nat := l.countP (fun x => match x with
  | .query _ _ => true
  | _ => false)

/-- Deliveries of a history. -/
def deliveries (l : List Step) : Nat := l.countP (fun x => match x with
  | .deliver .. => true
  | _ => false)

/-! ## Lemmas -/

variable {routes : Routes} {env : Env} {now : Int} {e : Exc} {m : Msg} {a : Att}

/-- Histories, where a message that waits is only processed with a time it began to. -/
theorem run_inv_timed {P : List Step → Exc → Prop} (h0 : P [] {}) (mono : ∀ l s e, P l e → P (l ++ [s]) e)
    (hd : ∀ l e env now m a, P l e → P (l ++ [.deliver env now m a]) (process routes env now e m a).1)
    (hp : ∀ l e0 e env now d m, P (l ++ [.pass env now]) e0 → (d, m) ∈ e0.epse → P (l ++ [.pass env now]) e → (e.epsd.get d).isSome →
      P (l ++ [.pass env now]) (process routes env now e m (stored e d)).1)
    (hu : ∀ l e d, P l e → P l (unescrow e d)) (l : List Step) : P l (run routes l) := by
  refine history_ind (P := fun l => P l (run routes l)) h0 (fun l s ih => ?_) l
  rw [run_append]
  cases s with
  | deliver env now m a => exact hd _ _ _ _ _ _ ih
  | pass env now =>
    have h := mono l (.pass env now) _ ih
    show P _ (processEscrow routes env now (run routes l))
    unfold processEscrow
    have key : ∀ (w : List (Dig × Msg)) (e : Exc), (∀ x ∈ w, x ∈ (run routes l).epse) → P (l ++ [.pass env now]) e →
        P (l ++ [.pass env now]) (w.foldl (fun e x => processWaiting routes env now e x.1 x.2) e) := by
      intro w
      induction w with
      | nil => intro e _ he; exact he
      | cons x w ihw =>
        intro e hw he
        rw [List.foldl_cons]
        refine ihw _ (fun y hy => hw y (List.mem_cons_of_mem _ hy)) ?_
        unfold processWaiting
        cases ht : e.epsd.get x.1 with
        | none => exact hu _ _ _ he
        | some t =>
          have hx := hp l _ e env now x.1 x.2 h (hw x List.mem_cons_self) he (by rw [ht]; rfl)
          dsimp only
          split
          · exact hu _ _ _ he
          · split
            · rename_i e' hq; rw [hq] at hx; exact hx
            · rename_i e' r _ hq; rw [hq] at hx; exact hu _ _ _ hx
    exact key _ _ (fun x hx => hx) h

theorem items_pinSet (t : Tab Dig (List Dig)) (d d' : Dig) (vs : List Dig) :
    (pinSet t d vs).items d' = if d = d' ∧ vs ≠ [] then Verif.Kel.oset vs else t.items d' := by
  unfold pinSet
  by_cases hv : vs = []
  · rw [if_pos hv, if_neg (by simp [hv])]
  · rw [if_neg hv, items_pin]
    by_cases hd : d = d' <;> simp [hd, hv]

theorem artifacts_named {v : Verb} {nests : List Dig} (h : artifacts m nests v = true) : nests.map some = named m v := by
  cases v
  case offer =>
    simp only [artifacts] at h
    cases hm : m.acdc with
    | none => rw [hm] at h; exact absurd h (by simp)
    | some d =>
      rw [hm] at h
      match nests, h with
      | [n], h =>
        have : n = d := by simpa using h
        subst this
        simp [named, hm]
      | [], h => exact absurd h (by simp)
      | _ :: _ :: _, h => exact absurd h (by simp)
  case grant =>
    have h : nests.map some = m.acdc :: ((if m.iss.isSome then [m.iss] else []) ++ if m.anc.isSome then [m.anc] else []) := by
      simpa [artifacts] using h
    rw [h]
    unfold named
    cases m.iss <;> cases m.anc <;> rfl
  all_goals
    have : nests = [] := by simpa [artifacts] using h
    simp [this, named]

theorem ipex_prefix {r : List Char} {v : Verb} (h : ipexVerb r = some v) : startsWith r "/ipex".toList = true := by
  unfold ipexVerb at h
  unfold startsWith
  split at h
  · split at h
    · rename_i a b c hs hc
      obtain ⟨rfl, rfl⟩ := hc
      have : ∀ (l : List Char) (x : List Char) (y : List (List Char)), splitSlash l = x :: y → x.isPrefixOf l = true ∧ (y = [] → l = x) ∧ (∀ z w, y = z :: w → ∃ l', l = x ++ '/' :: l' ∧ splitSlash l' = y) := by
        intro l
        induction l with
        | nil => intro x y hq; simp [splitSlash] at hq; obtain ⟨rfl, rfl⟩ := hq; simp
        | cons c l ih =>
          intro x y hq
          unfold splitSlash at hq
          split at hq
          · rename_i hc
            injection hq with h1 h2
            subst h1
            subst hc
            refine ⟨rfl, fun h3 => ?_, fun z w h3 => ⟨l, rfl, h2⟩⟩
            subst h3
            exact absurd h2 (by cases l <;> simp [splitSlash] <;> (repeat' split) <;> simp)
          · cases hl : splitSlash l with
            | nil => exact absurd hl (by cases l <;> simp [splitSlash] <;> (repeat' split) <;> simp)
            | cons x' y' =>
              rw [hl] at hq
              simp only [List.cons.injEq] at hq
              obtain ⟨rfl, rfl⟩ := hq
              obtain ⟨g1, g2, g3⟩ := ih x' y' hl
              refine ⟨by simpa [List.isPrefixOf] using g1, fun h3 => by rw [g2 h3], fun z w h3 => ?_⟩
              obtain ⟨l', h4, h5⟩ := g3 z w h3
              exact ⟨l', by rw [h4]; rfl, h5⟩
      obtain ⟨_, _, g3⟩ := this r [] _ hs
      obtain ⟨l', rfl, h5⟩ := g3 _ _ rfl
      obtain ⟨g1, _, _⟩ := this l' _ _ h5
      rw [List.nil_append]
      show (('/' :: "ipex".toList).isPrefixOf ('/' :: l')) = true
      simpa [List.isPrefixOf] using g1
    · exact absurd h (by simp)
  · exact absurd h (by simp)

theorem given_ipex {v : Verb} (h : ipexVerb m.route = some v) (nests : List Dig) : given m nests = nests := by
  unfold given
  rw [ipex_prefix h]
  simp

/-- What a message was saved with is what it names. -/
theorem vetted_nests (hu : Uses routes ipex2) {v : Verb} (hv : ipexVerb m.route = some v) {nests : List Dig}
    (h : vet (routes m.route) env e m (given m nests) = .ok true) : nests.map some = named m v := by
  rw [hu _ v hv, given_ipex hv] at h
  obtain ⟨w, h1, h2, _⟩ := verify2_true (vet_true (f := verify2) rfl verify2_attr h)
  rw [hv] at h1
  exact artifacts_named ((Option.some.inj h1) ▸ h2)

/-- Nested messages that came together for a digest. -/
def CameNests (l : List Step) (d : Dig) (p : List Dig → Prop) : Prop := ∃ x a, Came l x a ∧ x.said = d ∧ p a.nests

theorem CameNests.mono {l : List Step} {d : Dig} {p : List Dig → Prop} (s : Step) : CameNests l d p → CameNests (l ++ [s]) d p
  | ⟨x, a, h, h2⟩ => ⟨x, a, h.mono s, h2⟩

structure InvN (routes : Routes) (l : List Step) (e : Exc) : Prop where
  epse : ∀ x ∈ e.epse, x.2.said = x.1
  items : ∀ d, e.enst.items d ≠ [] → CameNests l d (fun ns => ∀ n, n ∈ ns ↔ n ∈ e.enst.items d)
  waits : ∀ d, (e.epsd.get d).isSome → (e.epse.get d).isSome ∧ CameNests l d (fun ns => ∀ n ∈ ns, n ∈ e.enst.items d)
  saved : Uses routes ipex2 → ∀ d m v, e.exns.get d = some m → ipexVerb m.route = some v → CameNests l d (fun ns => ∀ n, n ∈ ns ↔ some n ∈ named m v)
  asks : queries e.acts ≤ deliveries l

theorem InvN.mono {l : List Step} (s : Step) (h : InvN routes l e) : InvN routes (l ++ [s]) e :=
  ⟨h.epse, fun d hd => (h.items d hd).mono s, fun d hd => ⟨(h.waits d hd).1, (h.waits d hd).2.mono s⟩,
    fun hu d m v h1 h2 => (h.saved hu d m v h1 h2).mono s, by
      have := h.asks
      unfold deliveries at *
      rw [List.countP_append]
      omega⟩

theorem queries_append (a b : List Act) : queries (a ++ b) = queries a + queries b := List.countP_append ..

theorem accept_queries : queries (accept routes env e m a).1.acts = queries e.acts := by
  unfold accept
  split
  · rfl
  · split
    · rfl
    · rfl
    · unfold callHandler
      repeat' split
      all_goals
        simp only [queries_append]
        simp [queries]

theorem process_queries : queries (process routes env now e m a).1.acts ≤ queries e.acts + (if (e.epse.get m.said).isSome then 0 else 1) := by
  unfold process
  split
  · split
    · rw [accept_queries]; omega
    · dsimp only; omega
    · rename_i t _
      cases hs : e.epse.get m.said with
      | some y =>
        have hf : (escrow now e m a.tsgs a).2 = false := by simp [escrow, hs]
        dsimp only
        rw [hf]
        simp [escrow]
      | none =>
        have hf : (escrow now e m a.tsgs a).2 = true := by simp [escrow, hs]
        dsimp only
        rw [hf, if_pos rfl]
        dsimp only
        rw [queries_append]
        have : queries (escrow now e m a.tsgs a).1.acts = queries e.acts := rfl
        rw [this]
        cases t <;> simp [queries]
  · split
    · split
      · rw [accept_queries]; omega
      · dsimp only; omega
    · show queries e.acts ≤ _
      omega

/-- One delivery, with nested messages that came. -/
theorem proc_invN {l : List Step} {r : Except Err Unit} {e' : Exc} (h : InvN routes l e)
    (hc : CameNests l m.said (fun ns => ∀ n, n ∈ ns ↔ n ∈ a.nests)) (hp : Proc routes env now e m a e' r) (hq : queries e'.acts ≤ deliveries l) : InvN routes l e' := by
  have hpin : ∀ d, (pinSet e.enst m.said a.nests).items d ≠ [] → CameNests l d (fun ns => ∀ n, n ∈ ns ↔ n ∈ (pinSet e.enst m.said a.nests).items d) := by
    intro d hd
    rw [items_pinSet] at hd ⊢
    by_cases hq : m.said = d ∧ a.nests ≠ []
    · rw [if_pos hq] at hd ⊢
      obtain ⟨x, b, h1, h2, h3⟩ := hc
      exact ⟨x, b, h1, h2.trans hq.1, fun n => by rw [h3 n, Verif.Kel.mem_oset]⟩
    · rw [if_neg hq] at hd ⊢
      exact h.items d hd
  have hself : CameNests l m.said (fun ns => ∀ n ∈ ns, n ∈ (pinSet e.enst m.said a.nests).items m.said) := by
    obtain ⟨x, b, h1, h2, h3⟩ := hc
    refine ⟨x, b, h1, h2, fun n hn => ?_⟩
    have := (h3 n).1 hn
    rw [items_pinSet, if_pos ⟨rfl, fun hq => by rw [hq] at this; exact absurd this (by simp)⟩, Verif.Kel.mem_oset]
    exact this
  have hwait : ∀ d, CameNests l d (fun ns => ∀ n ∈ ns, n ∈ e.enst.items d) → CameNests l d (fun ns => ∀ n ∈ ns, n ∈ (pinSet e.enst m.said a.nests).items d) := by
    intro d hd
    by_cases hq : m.said = d
    · subst hq; exact hself
    · rw [items_pinSet, if_neg (fun hq' => hq hq'.1)]; exact hd
  cases hp with
  | drop r => exact h
  | wait acts ha =>
    refine ⟨fun x hx => ?_, hpin, fun d hd => ?_, h.saved, hq⟩
    · rcases mem_put hx with h1 | h1
      · exact h.epse x h1
      · subst h1; rfl
    · by_cases hm : m.said = d
      · subst hm
        exact ⟨isSome_put_self, hself⟩
      · replace hd : ((e.epsd.put m.said now).get d).isSome := hd
        rw [get_put, if_neg (fun hq' => hm hq'.1)] at hd
        obtain ⟨h1, h2⟩ := h.waits d hd
        exact ⟨isSome_put h1, hwait d h2⟩
  | save acts r _ _ hv _ =>
    refine ⟨h.epse, hpin, fun d hd => ⟨(h.waits d hd).1, hwait d (h.waits d hd).2⟩, fun hu d x v hx hxv => ?_, hq⟩
    rcases get_put_some hx with h1 | ⟨rfl, rfl, _⟩
    · exact h.saved hu d x v h1 hxv
    · have h1 := vetted_nests hu hxv hv
      obtain ⟨y, b, g1, g2, g3⟩ := hc
      refine ⟨y, b, g1, g2, fun n => ?_⟩
      rw [g3 n, ← h1]
      simp

theorem unescrow_invN {l : List Step} (d : Dig) (h : InvN routes l e) : InvN routes l (unescrow e d) := by
  obtain ⟨h1, _, _, _, _, h6, h7, h8⟩ := unescrow_frame e d
  have hen : ∀ d', d' ≠ d → (unescrow e d).enst.items d' = e.enst.items d' := by
    intro d' hd
    unfold unescrow
    dsimp only
    split
    · rfl
    · unfold Tab.items
      rw [get_rem, if_neg (Ne.symm hd)]
  refine ⟨fun x hx => h.epse x (mem_rem (h7 ▸ hx)), fun d' hd => ?_, fun d' hd => ?_, h1 ▸ h.saved, h6 ▸ h.asks⟩
  · by_cases hq : d' = d
    · subst hq
      have : (unescrow e d').enst.items d' = e.enst.items d' ∨ (unescrow e d').enst.items d' = [] := by
        unfold unescrow
        dsimp only
        split
        · exact Or.inl rfl
        · unfold Tab.items
          rw [get_rem, if_pos rfl]
          exact Or.inr rfl
      rcases this with hr | hr
      · rw [hr] at hd ⊢; exact h.items d' hd
      · exact absurd hr hd
    · rw [hen d' hq] at hd ⊢
      exact h.items d' hd
  · rw [h8, get_rem] at hd
    by_cases hq : d = d'
    · rw [if_pos hq] at hd; exact absurd hd (by simp)
    · rw [if_neg hq] at hd
      rw [h7, get_rem, if_neg hq, hen d' (Ne.symm hq)]
      exact h.waits d' hd

theorem run_invN (routes : Routes) (l : List Step) : InvN routes l (run routes l) := by
  refine run_inv_timed (P := InvN routes) ?_ (fun l s e h => h.mono s) ?_ ?_ (fun l e d h => unescrow_invN d h) l
  · exact ⟨by simp, by simp [Tab.items, Tab.get], by simp [Tab.get], by simp [Tab.get], Nat.zero_le _⟩
  · intro l e env now m a h
    refine proc_invN (h.mono (.deliver env now m a)) ⟨m, a, came_last l env now m a, rfl, fun n => Iff.rfl⟩ process_proc ?_
    have h1 := process_queries (routes := routes) (env := env) (now := now) (e := e) (m := m) (a := a)
    have h2 := h.asks
    unfold deliveries at *
    rw [List.countP_append]
    simp only [List.countP_singleton, if_true]
    have : (if (e.epse.get m.said).isSome = true then 0 else 1) ≤ 1 := by split <;> omega
    omega
  · intro l e0 e env now d m h0 hm h ht
    have hsaid : m.said = d := h0.epse _ hm
    obtain ⟨h1, h2⟩ := h.waits d ht
    refine proc_invN h ?_ process_proc ?_
    · rw [hsaid]
      by_cases hq : e.enst.items d = []
      · obtain ⟨x, b, g1, g2, g3⟩ := h2
        refine ⟨x, b, g1, g2, fun n => ?_⟩
        show n ∈ b.nests ↔ n ∈ e.enst.items d
        rw [hq]
        rw [hq] at g3
        exact ⟨fun hn => g3 n hn, fun hn => absurd hn (by simp)⟩
      · exact h.items d hq
    · have h3 := process_queries (routes := routes) (env := env) (now := now) (e := e) (m := m) (a := stored e d)
      rw [hsaid, if_pos h1] at h3
      have := h.asks
      omega

/-- **C114** A saved message of the protocol came with exactly the messages nested in it that its attributes name: a grant with the credential and the
issuance and anchor it names, an offer with the credential, the others with none (second version). -/
theorem c114_nested (hu : Uses routes ipex2) (l : List Step) {d : Dig} {m : Msg} {v : Verb} (h : (run routes l).exns.get d = some m)
    (hv : ipexVerb m.route = some v) : ∃ x a, Came l x a ∧ x.said = d ∧ ∀ n, n ∈ a.nests ↔ some n ∈ named m v :=
  (run_invN routes l).saved hu d m v h hv

/-- **C115** Missing events are asked for at most once for every delivery, however often the messages that wait are looked at. -/
theorem c115_asked (routes : Routes) (l : List Step) : queries (run routes l).acts ≤ deliveries l := (run_invN routes l).asks

end Verif.Exc
