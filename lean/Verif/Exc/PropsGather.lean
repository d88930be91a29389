import Verif.Exc.PropsAuth
import Verif.Thold.Props

/-! # C105: signatures that come one by one add up -/

namespace Verif.Exc

open Verif.Thold (Thold)
open Verif.Kel (Id Dig Sig)
open Verif.Krm (Tab get_pin get_put get_rem get_mem)

variable {routes : Routes} {env : Env} {now : Int} {e : Exc} {m : Msg} {a : Att}

/-- The message and its signatures, which are all said to be made with the keys of one event of its sender, come in any number of deliveries; those
keys are known all the time, and the messages that wait are not looked at later than ten seconds after any of the deliveries. -/
structure Steady (l : List Step) (m : Msg) (q : Quad) (keys : List Id) (kt : Thold) (good : Id → Nat → Bool) : Prop where
  own : q.1 = m.sender
  known : ∀ x ∈ l, (∃ n, x.env.sn q.1 = some n ∧ q.2.1 ≤ n) ∧ KeysAt x.env q keys kt ∧ ∀ k raw, x.env.verify k raw m = good k raw
  alone : ∀ m' a, Came l m' a → m'.said = m.said → m' = m ∧ a.tsgs ≠ [] ∧ ∀ t ∈ a.tsgs, t.1 = q
  soon : ∀ l1 env now l2, l = l1 ++ .pass env now :: l2 → ∀ env' now' a, Step.deliver env' now' m a ∈ l1 → now - now' ≤ 10000000

/-- Nothing but signatures is wanting: there is no ESSR attachment, and the handler, if any, does not refuse the message. -/
def Plain (routes : Routes) (m : Msg) : Prop := m.essr = none ∧ ∀ env e nests, vet (routes m.route) env e m nests = .ok true

theorem resolve_of_keysAt {q : Quad} {keys : List Id} {kt : Thold} (h : KeysAt env q keys kt) : resolve env q = .ok (kt, keys) := by
  unfold resolve
  rcases h with ⟨h1, h2⟩ | ⟨h1, h2, h3⟩
  · rw [if_pos h1, h2]
    simp
  · rw [if_neg (by simp [h1]), h2, h3]

/-- What is stored of one digest. -/
def at_ (e : Exc) (d : Dig) : Option Msg × Option Msg × Option Int × List Tsg := (e.exns.get d, e.epse.get d, e.epsd.get d, e.esigs.items d)

theorem put_other {ν : Type} {t : Tab Dig ν} {k d : Dig} {v : ν} (h : k ≠ d) : (t.put k v).get d = t.get d := by
  rw [get_put, if_neg (fun h2 => h h2.1)]

theorem rem_other {ν : Type} {t : Tab Dig ν} {k d : Dig} (h : k ≠ d) : (t.rem k).get d = t.get d := by rw [get_rem, if_neg h]

theorem proc_at {e' : Exc} {r : Except Err Unit} {d : Dig} (hd : m.said ≠ d) (hp : Proc routes env now e m a e' r) : at_ e' d = at_ e d := by
  cases hp with
  | drop r => rfl
  | wait acts _ =>
    unfold at_
    simp only [escrow, put_other hd, items_pin, if_neg hd]
  | save acts r _ _ _ _ =>
    unfold at_
    simp only [log, put_other hd, items_pin, if_neg hd]

theorem unescrow_at {d d' : Dig} (hd : d' ≠ d) : at_ (unescrow e d') d = at_ e d := by
  obtain ⟨h1, _, h3, _, _, _, h7, h8⟩ := unescrow_frame e d'
  unfold at_
  rw [h1, h3, h7, h8, rem_other hd, rem_other hd]

/-- A delivery of the message either is good or waits. -/
theorem process_sure {q : Quad} {keys : List Id} {kt : Thold} (ho : q.1 = m.sender) (hn : ∃ n, env.sn q.1 = some n ∧ q.2.1 ≤ n)
    (hk : KeysAt env q keys kt) (hpl : Plain routes m) (ht : ∀ t ∈ a.tsgs, t.1 = q) (hc : a.tsgs = [] → a.cigars = []) :
    (∃ acts, process routes env now e m a = ({ (escrow now e m a.tsgs a).1 with acts := acts }, .error .missing) ∧
      (∀ t ∈ a.tsgs, a.tsgs = [t] → Verif.Thold.satisfy kt ((verifySigs env m t.2 keys).map Sig.index) = false)) ∨
    ((process routes env now e m a).1.exns = e.exns.put m.said m ∧
      (process routes env now e m a).1.esigs = e.esigs.pin m.said (addTsgs (e.esigs.items m.said) a.tsgs) ∧
      (process routes env now e m a).1.ecigs = addSet e.ecigs m.said a.cigars) := by
  have hchk : ∀ t ∈ a.tsgs, checkTsg env m t = if Verif.Thold.satisfy kt ((verifySigs env m t.2 keys).map Sig.index) then .good else .wait := by
    intro t h
    obtain ⟨n, h1, h2⟩ := hn
    have hq := ht t h
    unfold checkTsg checkSigs
    rw [if_neg (by rw [hq, ho]; simp), hq, h1]
    dsimp only
    rw [if_neg (by omega), resolve_of_keysAt hk]
  have hgo : ∀ ts, (∀ t ∈ ts, t ∈ a.tsgs) → ∀ c o, checkTsgs env m ts = (c, o) → c = .good ∨ c = .wait := by
    intro ts
    induction ts with
    | nil =>
      intro _ c o h
      simp only [checkTsgs, Prod.mk.injEq] at h
      exact Or.inl h.1.symm
    | cons t ts ih =>
      intro hsub c o h
      have h1 := hchk t (hsub t List.mem_cons_self)
      unfold checkTsgs at h
      rw [h1] at h
      by_cases hs : Verif.Thold.satisfy kt ((verifySigs env m t.2 keys).map Sig.index) = true
      · simp only [if_pos hs] at h
        exact ih (fun u hu => hsub u (List.mem_cons_of_mem _ hu)) c o h
      · simp only [if_neg hs, Prod.mk.injEq] at h
        exact Or.inr h.1.symm
  unfold process
  by_cases hts : a.tsgs ≠ []
  · rw [if_pos hts]
    rcases hcs : checkTsgs env m a.tsgs with ⟨c, o⟩
    rcases hgo a.tsgs (fun t h => h) c o hcs with rfl | rfl
    · right
      dsimp only
      unfold accept
      rw [if_neg (by simp [essrCheck, hpl.1]), hpl.2]
      dsimp only
      unfold callHandler
      cases routes m.route with
      | none => exact ⟨rfl, rfl, rfl⟩
      | some h =>
        dsimp only
        cases h.handle <;> exact ⟨rfl, rfl, rfl⟩
    · left
      dsimp only
      refine ⟨if (escrow now e m a.tsgs a).2 then (escrow now e m a.tsgs a).1.acts ++ (o.map (fun t => Act.query t.1.1 t.1.2.1)).toList else (escrow now e m a.tsgs a).1.acts, ?_, ?_⟩
      · by_cases hf : (escrow now e m a.tsgs a).2 = true
        · rw [if_pos hf, if_pos hf]
        · rw [if_neg hf, if_neg hf]
      · intro t h h1
        rw [h1] at hcs
        unfold checkTsgs at hcs
        rw [hchk t h] at hcs
        by_cases hs : Verif.Thold.satisfy kt ((verifySigs env m t.2 keys).map Sig.index) = true
        · simp [hs, checkTsgs] at hcs
        · simpa using hs
  · left
    rw [if_neg hts]
    have hts : a.tsgs = [] := by simpa using hts
    rw [if_neg (by simp [hc hts])]
    refine ⟨(escrow now e m [] a).1.acts, ?_, ?_⟩
    · rw [hts]
    · intro t h
      rw [hts] at h
      exact absurd h (by simp)

theorem satisfy_nil {kt : Thold} (h : Verif.Thold.satisfy kt [] = true) : False := by
  cases kt with
  | num n =>
    simp only [Verif.Thold.satisfy, Verif.Thold.satisfyNum, decide_eq_true_eq, List.length_nil] at h
    omega
  | wtd cs => simp [Verif.Thold.satisfy, Verif.Thold.satisfyWtd] at h

theorem addSig_single {q : Quad} {s : Sig} {l : List Tsg} (h : l = [] ∨ ∃ ss, l = [(q, ss)]) : addSig q s l = [] ∨ ∃ ss, addSig q s l = [(q, ss)] := by
  rcases h with rfl | ⟨ss, rfl⟩
  · exact Or.inr ⟨[s], rfl⟩
  · refine Or.inr ⟨if s ∈ ss then ss else ss ++ [s], ?_⟩
    simp [addSig]

theorem addTsgs_single {q : Quad} : ∀ (ts l : List Tsg), (∀ t ∈ ts, t.1 = q) → (l = [] ∨ ∃ ss, l = [(q, ss)]) →
    addTsgs l ts = [] ∨ ∃ ss, addTsgs l ts = [(q, ss)]
  | [], l, _, h => h
  | t :: ts, l, ht, h => by
    have : addTsgs l (t :: ts) = addTsgs (t.2.foldl (fun l s => addSig t.1 s l) l) ts := rfl
    rw [this]
    refine addTsgs_single ts _ (fun u hu => ht u (List.mem_cons_of_mem _ hu)) ?_
    rw [ht t List.mem_cons_self]
    have key : ∀ (ss : List Sig) (l : List Tsg), (l = [] ∨ ∃ ss, l = [(q, ss)]) → ss.foldl (fun l s => addSig q s l) l = [] ∨ ∃ us, ss.foldl (fun l s => addSig q s l) l = [(q, us)] := by
      intro ss
      induction ss with
      | nil => intro l h; exact h
      | cons s ss ih => intro l h; exact ih _ (addSig_single h)
    exact key t.2 l h

/-- The message is saved or waits with all signatures that came. -/
structure InvG (l : List Step) (m : Msg) (q : Quad) (e : Exc) : Prop where
  single : e.esigs.items m.said = [] ∨ ∃ ss, e.esigs.items m.said = [(q, ss)]
  sigs : ∀ s, CameSig l m.said q s → InTsgs (e.esigs.items m.said) q s
  before : (¬ ∃ a, Came l m a) → e.epsd.get m.said = none ∧ e.epse.get m.said = none
  after : (∃ a, Came l m a) → (e.exns.get m.said).isSome ∨
    ((e.epse.get m.said).isSome ∧ ∃ t env a, e.epsd.get m.said = some t ∧ Step.deliver env t m a ∈ l)

theorem InvG.congr {l : List Step} {q : Quad} {e' : Exc} (h : InvG l m q e) (ha : at_ e' m.said = at_ e m.said) : InvG l m q e' := by
  unfold at_ at ha
  simp only [Prod.mk.injEq] at ha
  obtain ⟨h1, h2, h3, h4⟩ := ha
  refine ⟨h4 ▸ h.single, h4 ▸ h.sigs, ?_, ?_⟩
  · rw [h2, h3]; exact h.before
  · rw [h1, h2, h3]; exact h.after

theorem deliver_invG {l : List Step} {q : Quad} {keys : List Id} {kt : Thold} {good : Id → Nat → Bool} {m' : Msg}
    (hst : Steady (l ++ [.deliver env now m' a]) m q keys kt good) (hpl : Plain routes m) (h : InvG l m q e) :
    InvG (l ++ [.deliver env now m' a]) m q (process routes env now e m' a).1 := by
  by_cases hd : m'.said = m.said
  · obtain ⟨rfl, hne, hq⟩ := hst.alone m' a (came_last l env now m' a) hd
    obtain ⟨hn, hk, _⟩ := hst.known _ (List.mem_append_right _ (List.mem_singleton.2 rfl))
    replace hn : ∃ n, env.sn q.1 = some n ∧ q.2.1 ≤ n := hn
    replace hk : KeysAt env q keys kt := hk
    have hsig : ∀ s, CameSig (l ++ [.deliver env now m' a]) m'.said q s → CameSig l m'.said q s ∨ InTsgs a.tsgs q s := by
      rintro s ⟨m2, a2, ⟨env2, now2, h1⟩, h2, h3⟩
      rcases List.mem_append.1 h1 with h4 | h4
      · exact Or.inl ⟨m2, a2, ⟨env2, now2, h4⟩, h2, h3⟩
      · have h5 := List.mem_singleton.1 h4
        injection h5 with _ _ _ h6
        exact Or.inr (h6 ▸ h3)
    rcases process_sure (routes := routes) (now := now) (e := e) hst.own hn hk hpl hq (fun h => absurd h hne) with ⟨acts, h1, _⟩ | h1
    · rw [h1]
      refine ⟨?_, fun s hs => ?_, fun h2 => absurd ⟨a, came_last l env now m' a⟩ h2, fun _ => ?_⟩
      · dsimp only [escrow]
        rw [items_pin, if_pos rfl]
        exact addTsgs_single _ _ hq h.single
      · dsimp only [escrow]
        rw [items_pin, if_pos rfl, inTsgs_addTsgs]
        exact (hsig s hs).imp (h.sigs s) id
      · by_cases hc : ∃ a, Came l m' a
        · rcases h.after hc with h2 | ⟨h2, t, env2, a2, h3, h4⟩
          · exact Or.inl h2
          · refine Or.inr ⟨isSome_put h2, t, env2, a2, ?_, List.mem_append_left _ h4⟩
            dsimp only [escrow]
            rw [get_put, if_neg (by rw [h3]; simp)]
            exact h3
        · obtain ⟨h2, h3⟩ := h.before hc
          refine Or.inr ⟨isSome_put_self, now, env, a, ?_, List.mem_append_right _ (List.mem_singleton.2 rfl)⟩
          dsimp only [escrow]
          rw [get_put, if_pos ⟨rfl, h2⟩]
    · refine ⟨?_, fun s hs => ?_, fun h2 => absurd ⟨a, came_last l env now m' a⟩ h2, fun _ => Or.inl ?_⟩
      · rw [h1.2.1, items_pin, if_pos rfl]
        exact addTsgs_single _ _ hq h.single
      · rw [h1.2.1, items_pin, if_pos rfl, inTsgs_addTsgs]
        exact (hsig s hs).imp (h.sigs s) id
      · rw [h1.1]; exact isSome_put_self
  · have hc := proc_at (routes := routes) (e := e) hd (process_proc (env := env) (now := now) (a := a))
    have hback : ∀ x b, Came (l ++ [.deliver env now m' a]) x b → x.said = m.said → Came l x b := by
      rintro x b ⟨env2, now2, h1⟩ hx
      rcases List.mem_append.1 h1 with h4 | h4
      · exact ⟨env2, now2, h4⟩
      · have h5 := List.mem_singleton.1 h4
        injection h5 with _ _ h6 _
        rw [h6] at hx
        exact absurd hx hd
    refine InvG.congr (e := e) ⟨h.single, ?_, fun h2 => h.before (fun ⟨a, h3⟩ => h2 ⟨a, h3.mono _⟩), fun h2 => ?_⟩ hc
    · rintro s ⟨x, c, h6, h7, h8⟩
      exact h.sigs s ⟨x, c, hback x c h6 h7, h7, h8⟩
    · obtain ⟨b, hb⟩ := h2
      rcases h.after ⟨b, hback m b hb rfl⟩ with h2 | ⟨h2, t, env2, a2, h3, h4⟩
      · exact Or.inl h2
      · exact Or.inr ⟨h2, t, env2, a2, h3, List.mem_append_left _ h4⟩

/-- A pass over messages that wait, as far as this message is concerned. -/
theorem waiting_invG {l : List Step} {q : Quad} {keys : List Id} {kt : Thold} (ho : q.1 = m.sender) (hn : ∃ n, env.sn q.1 = some n ∧ q.2.1 ≤ n)
    (hk : KeysAt env q keys kt) (hsoon : ∀ env' now' a, Step.deliver env' now' m a ∈ l → now - now' ≤ 10000000) (hpl : Plain routes m)
    (hcame : ∃ a, Came l m a) {d : Dig} {x : Msg} (hx : x.said = d) (hxm : d = m.said → x = m) (h : InvG l m q e) :
    InvG l m q (processWaiting routes env now e d x) := by
  by_cases hd : d = m.said
  · obtain rfl := hxm hd
    subst hd
    have hq : ∀ t ∈ e.esigs.items x.said, t.1 = q := by
      intro t ht
      rcases h.single with h1 | ⟨ss, h1⟩
      · rw [h1] at ht; exact absurd ht (by simp)
      · rw [h1] at ht; rw [List.mem_singleton.1 ht]
    have hproc : ((process routes env now e x (stored e x.said)).1.esigs.items x.said = [] ∨ ∃ ss, (process routes env now e x (stored e x.said)).1.esigs.items x.said = [(q, ss)]) ∧
        (∀ s, CameSig l x.said q s → InTsgs ((process routes env now e x (stored e x.said)).1.esigs.items x.said) q s) ∧
        ((e.exns.get x.said).isSome → ((process routes env now e x (stored e x.said)).1.exns.get x.said).isSome) := by
      have hp := process_proc (routes := routes) (env := env) (now := now) (e := e) (m := x) (a := stored e x.said)
      generalize (process routes env now e x (stored e x.said)).1 = e' at hp
      generalize (process routes env now e x (stored e x.said)).2 = r at hp
      cases hp with
      | drop r => exact ⟨h.single, h.sigs, id⟩
      | wait acts _ =>
        dsimp only [escrow]
        rw [items_pin, if_pos rfl]
        exact ⟨addTsgs_single _ _ hq h.single, fun s hs => (inTsgs_addTsgs _ _).2 (Or.inl (h.sigs s hs)), id⟩
      | save acts r _ _ _ _ =>
        dsimp only [log]
        rw [items_pin, if_pos rfl]
        exact ⟨addTsgs_single _ _ hq h.single, fun s hs => (inTsgs_addTsgs _ _).2 (Or.inl (h.sigs s hs)), isSome_put⟩
    rcases h.after hcame with h2 | ⟨h2, t, env2, a2, h3, h4⟩
    · -- already saved
      have hp3 := hproc.2.2 h2
      rcases processWaiting_cases (routes := routes) (env := env) (now := now) (e := e) (m := x) x.said with h6 | h6 | h6
      · rw [h6]
        refine ⟨?_, ?_, fun h7 => absurd hcame h7, fun _ => Or.inl ?_⟩
        · rw [(unescrow_frame e x.said).2.2.1]; exact h.single
        · rw [(unescrow_frame e x.said).2.2.1]; exact h.sigs
        · rw [(unescrow_frame e x.said).1]; exact h2
      · rw [h6]; exact ⟨hproc.1, hproc.2.1, fun h7 => absurd hcame h7, fun _ => Or.inl hp3⟩
      · rw [h6]
        refine ⟨?_, ?_, fun h7 => absurd hcame h7, fun _ => Or.inl ?_⟩
        · rw [(unescrow_frame _ x.said).2.2.1]; exact hproc.1
        · rw [(unescrow_frame _ x.said).2.2.1]; exact hproc.2.1
        · rw [(unescrow_frame _ x.said).1]; exact hp3
    · have hw : processWaiting routes env now e x.said x = match process routes env now e x (stored e x.said) with | (e, .error .missing) => e | (e, _) => unescrow e x.said := by
        unfold processWaiting
        rw [h3]
        dsimp only
        have := hsoon env2 t a2 h4
        rw [if_neg (by omega)]
        rfl
      rw [hw]
      rcases process_sure (routes := routes) (now := now) (e := e) (a := stored e x.said) ho hn hk hpl hq (fun _ => rfl) with ⟨acts, h6, _⟩ | h6
      · rw [h6] at hproc ⊢
        refine ⟨hproc.1, hproc.2.1, fun h7 => absurd hcame h7, fun _ => Or.inr ⟨isSome_put h2, t, env2, a2, ?_, h4⟩⟩
        dsimp only [escrow]; rw [get_put, if_neg (by rw [h3]; simp)]; exact h3
      · have hsv : ((process routes env now e x (stored e x.said)).1.exns.get x.said).isSome := by rw [h6.1]; exact isSome_put_self
        rcases hr : process routes env now e x (stored e x.said) with ⟨e', r⟩
        rw [hr] at hsv hproc
        dsimp only at hsv hproc
        have hun : InvG l x q (unescrow e' x.said) := by
          refine ⟨?_, ?_, fun h7 => absurd hcame h7, fun _ => Or.inl ?_⟩
          · rw [(unescrow_frame e' x.said).2.2.1]; exact hproc.1
          · rw [(unescrow_frame e' x.said).2.2.1]; exact hproc.2.1
          · rw [(unescrow_frame e' x.said).1]; exact hsv
        have hsame : InvG l x q e' := ⟨hproc.1, hproc.2.1, fun h7 => absurd hcame h7, fun _ => Or.inl hsv⟩
        cases r with
        | ok u => exact hun
        | error y => cases y <;> first | exact hun | exact hsame
  · refine h.congr ?_
    have hd' : x.said ≠ m.said := by rw [hx]; exact hd
    have hp := proc_at hd' (process_proc (routes := routes) (env := env) (now := now) (e := e) (m := x) (a := stored e d))
    rcases processWaiting_cases (routes := routes) (env := env) (now := now) (e := e) (m := x) d with h6 | h6 | h6
    · rw [h6, unescrow_at hd]
    · rw [h6, hp]
    · rw [h6, unescrow_at hd, hp]

theorem steady_mono {l : List Step} {q : Quad} {keys : List Id} {kt : Thold} {good : Id → Nat → Bool} {s : Step} (h : Steady (l ++ [s]) m q keys kt good) :
    Steady l m q keys kt good :=
  ⟨h.own, fun x hx => h.known x (List.mem_append_left _ hx), fun m' a hc => h.alone m' a (hc.mono s),
    fun l1 env now l2 hl => h.soon l1 env now (l2 ++ [s]) (by rw [hl]; simp)⟩

theorem came_pass {l : List Step} (h : Came (l ++ [.pass env now]) m a) : Came l m a := by
  obtain ⟨env2, now2, h1⟩ := h
  rcases List.mem_append.1 h1 with h2 | h2
  · exact ⟨env2, now2, h2⟩
  · exact absurd (List.mem_singleton.1 h2) (by simp)

/-- A pass, as far as the message is concerned; if its signatures are enough, it is saved. -/
theorem pass_invG {l : List Step} {q : Quad} {keys : List Id} {kt : Thold} {good : Id → Nat → Bool}
    (hst : Steady (l ++ [.pass env now]) m q keys kt good) (hpl : Plain routes m) (ha : InvA (routes := routes) l e) (h : InvG l m q e) :
    InvG (l ++ [.pass env now]) m q (processEscrow routes env now e) ∧
    ((∃ a, Came l m a) → (∀ ss, (∀ s, CameSig l m.said q s → s ∈ ss) → Verif.Thold.satisfy kt ((verifySigs env m ss keys).map Sig.index) = true) →
      ((processEscrow routes env now e).exns.get m.said).isSome) := by
  obtain ⟨hn, hk, _⟩ := hst.known _ (List.mem_append_right _ (List.mem_singleton.2 rfl))
  replace hn : ∃ n, env.sn q.1 = some n ∧ q.2.1 ≤ n := hn
  replace hk : KeysAt env q keys kt := hk
  have hsoon := hst.soon l env now [] rfl
  have hsub : ∀ x ∈ e.epse, x.2.said = x.1 ∧ (x.1 = m.said → x.2 = m ∧ ∃ a, Came l m a) := by
    intro x hx
    obtain ⟨h1, a, h2⟩ := ha.epse x hx
    refine ⟨h1, fun h3 => ?_⟩
    obtain ⟨h4, _⟩ := hst.alone x.2 a (h2.mono _) (h1.trans h3)
    exact ⟨h4, a, h4 ▸ h2⟩
  have hlift : ∀ e', InvG l m q e' → InvG (l ++ [.pass env now]) m q e' := by
    intro e' h'
    refine ⟨h'.single, ?_, fun h1 => h'.before (fun ⟨a, h2⟩ => h1 ⟨a, h2.mono _⟩), fun ⟨a, h1⟩ => ?_⟩
    · rintro s ⟨x, c, h6, h7, h8⟩
      exact h'.sigs s ⟨x, c, came_pass h6, h7, h8⟩
    · rcases h'.after ⟨a, came_pass h1⟩ with h2 | ⟨h2, t, env2, a2, h3, h4⟩
      · exact Or.inl h2
      · exact Or.inr ⟨h2, t, env2, a2, h3, List.mem_append_left _ h4⟩
  have hone : ∀ e' d x, (x.said = d) → (d = m.said → x = m ∧ ∃ a, Came l m a) → InvG l m q e' → InvG l m q (processWaiting routes env now e' d x) := by
    intro e' d x h1 h2 h3
    by_cases hd : d = m.said
    · exact waiting_invG hst.own hn hk hsoon hpl (h2 hd).2 h1 (fun h => (h2 h).1) h3
    · refine h3.congr ?_
      have hd' : x.said ≠ m.said := by rw [h1]; exact hd
      have hp := proc_at hd' (process_proc (routes := routes) (env := env) (now := now) (e := e') (m := x) (a := stored e' d))
      rcases processWaiting_cases (routes := routes) (env := env) (now := now) (e := e') (m := x) d with h6 | h6 | h6
      · rw [h6, unescrow_at hd]
      · rw [h6, hp]
      · rw [h6, unescrow_at hd, hp]
  have hfold : ∀ (ws : List (Dig × Msg)) e', (∀ x ∈ ws, x ∈ e.epse) → InvG l m q e' → InvG l m q (ws.foldl (fun e x => processWaiting routes env now e x.1 x.2) e') := by
    intro ws
    induction ws with
    | nil => intro e' _ h'; exact h'
    | cons x ws ih =>
      intro e' hs h'
      have hx := hsub x (hs x List.mem_cons_self)
      exact ih _ (fun y hy => hs y (List.mem_cons_of_mem _ hy)) (hone e' x.1 x.2 hx.1 hx.2 h')
  refine ⟨hlift _ (hfold e.epse e (fun _ h => h) h), fun hc hen => ?_⟩
  have hkeep : ∀ (ws : List (Dig × Msg)) (e' : Exc), (e'.exns.get m.said).isSome → ((ws.foldl (fun e x => processWaiting routes env now e x.1 x.2) e').exns.get m.said).isSome := by
    intro ws
    induction ws with
    | nil => intro e' h'; exact h'
    | cons x ws ih =>
      intro e' h'
      refine ih _ ?_
      show ((processWaiting routes env now e' x.1 x.2).exns.get m.said).isSome
      have hproc : ((process routes env now e' x.2 (stored e' x.1)).1.exns.get m.said).isSome := by
        have hp := process_proc (routes := routes) (env := env) (now := now) (e := e') (m := x.2) (a := stored e' x.1)
        generalize (process routes env now e' x.2 (stored e' x.1)).1 = e2 at hp
        generalize (process routes env now e' x.2 (stored e' x.1)).2 = r at hp
        cases hp with
        | drop r => exact h'
        | wait acts _ => exact h'
        | save acts r _ _ _ _ => exact isSome_put h'
      rcases processWaiting_cases (routes := routes) (env := env) (now := now) (e := e') (m := x.2) x.1 with h6 | h6 | h6
      · rw [h6, (unescrow_frame _ _).1]; exact h'
      · rw [h6]; exact hproc
      · rw [h6, (unescrow_frame _ _).1]; exact hproc
  rcases h.after hc with h1 | ⟨h1, _⟩
  · exact hkeep e.epse e h1
  · obtain ⟨x, hx⟩ := Option.isSome_iff_exists.1 h1
    have hmem := get_mem hx
    obtain ⟨ws1, ws2, hws⟩ := List.append_of_mem hmem
    obtain ⟨hsaid, hxm⟩ := hsub _ hmem
    have hxe : x = m := (hxm rfl).1
    subst hxe
    unfold processEscrow
    rw [hws, List.foldl_append, List.foldl_cons]
    refine hkeep ws2 _ ?_
    have hmid := hfold ws1 e (fun y hy => by rw [hws]; exact List.mem_append_left _ hy) h
    generalize ws1.foldl (fun e x => processWaiting routes env now e x.1 x.2) e = e1 at hmid
    dsimp only
    have h5 := hmid.sigs
    rcases hmid.after hc with h2 | ⟨h2, t, env2, a2, h3, h4⟩
    · exact hkeep [(x.said, x)] e1 h2
    · have hw : processWaiting routes env now e1 x.said x = match process routes env now e1 x (stored e1 x.said) with | (e, .error .missing) => e | (e, _) => unescrow e x.said := by
        unfold processWaiting
        rw [h3]
        dsimp only
        have := hsoon env2 t a2 h4
        rw [if_neg (by omega)]
        rfl
      have hq : ∀ t ∈ e1.esigs.items x.said, t.1 = q := by
        intro t ht
        rcases hmid.single with h1 | ⟨ss, h1⟩
        · rw [h1] at ht; exact absurd ht (by simp)
        · rw [h1] at ht; rw [List.mem_singleton.1 ht]
      have hsv : ((process routes env now e1 x (stored e1 x.said)).1.exns.get x.said).isSome := by
        rcases process_sure (routes := routes) (now := now) (e := e1) (a := stored e1 x.said) hst.own hn hk hpl hq (fun _ => rfl) with ⟨acts, _, h6⟩ | h6
        · exfalso
          obtain ⟨a, env3, now3, h7⟩ := hc
          rcases hmid.single with h8 | ⟨ss, h8⟩
          · -- nothing came: then nothing is enough
            have := hen [] (fun s hs => by
              obtain ⟨t, ht, _⟩ := h5 s hs
              rw [h8] at ht
              exact absurd ht (by simp))
            exact satisfy_nil this
          · have h9 := h6 (q, ss) (by show _ ∈ e1.esigs.items x.said; rw [h8]; exact List.mem_singleton.2 rfl) h8
            rw [hen ss (fun s hs => by
              obtain ⟨t, ht, _, h10⟩ := h5 s hs
              rw [h8] at ht
              rw [List.mem_singleton.1 ht] at h10
              exact h10)] at h9
            exact absurd h9 (by simp)
        · rw [h6.1]; exact isSome_put_self
      rw [hw]
      rcases hr : process routes env now e1 x (stored e1 x.said) with ⟨e', r⟩
      rw [hr] at hsv
      dsimp only at hsv
      cases r with
      | ok u => dsimp only; rw [(unescrow_frame _ _).1]; exact hsv
      | error y => cases y <;> dsimp only <;> first | exact hsv | (rw [(unescrow_frame _ _).1]; exact hsv)

theorem run_invG {q : Quad} {keys : List Id} {kt : Thold} {good : Id → Nat → Bool} (hpl : Plain routes m) (l : List Step) :
    Steady l m q keys kt good → InvG l m q (run routes l) := by
  induction l using history_ind with
  | h0 =>
    intro _
    refine ⟨Or.inl rfl, ?_, fun _ => ⟨rfl, rfl⟩, fun ⟨a, env, now, h⟩ => absurd h (by simp)⟩
    rintro s ⟨x, c, ⟨_, _, h⟩, _⟩
    exact absurd h (by simp)
  | h1 l s ih =>
    intro hs
    rw [run_append]
    cases s with
    | deliver env now m' a => exact deliver_invG hs hpl (ih (steady_mono hs))
    | pass env now => exact (pass_invG hs hpl (run_invA routes l) (ih (steady_mono hs))).1

/-- **C105** Signatures of a message that come with different deliveries add up: if those that came are enough, the next look at the messages that
wait saves it, or it has been saved before.  (All deliveries name the same event of the sender, whose keys are known; the threshold is a number or
has fractions that are not negative, and the indexes of signatures are those of keys.) -/
theorem c105_gather_partial (routes : Routes) (l : List Step) (env : Env) (now : Int) (m : Msg) (q : Quad) (keys : List Id) (kt : Thold) (good : Id → Nat → Bool)
    (hst : Steady (l ++ [.pass env now]) m q keys kt good) (hpl : Plain routes m)
    (hkt : ∀ cs, kt = .wtd cs → Verif.Thold.NonNeg cs ∧ keys.length ≤ Verif.Thold.size kt)
    (ss : List Sig) (hnd : (ss.map Sig.index).Nodup) (hss : ∀ s ∈ ss, CameSig l m.said q s ∧ ∃ key, keys[s.index]? = some key ∧ good key s.raw = true)
    (hen : Verif.Thold.satisfy kt (ss.map Sig.index) = true) : (run routes (l ++ [.pass env now])).exns.get m.said = some m := by
  have hpass := (pass_invG hst hpl (run_invA routes l) (run_invG hpl l (steady_mono hst))).2
  have hcame : ∃ a, Came l m a := by
    cases ss with
    | nil => exact absurd hen satisfy_nil
    | cons s ss =>
      obtain ⟨⟨m', a, h1, h2, _⟩, _⟩ := hss s List.mem_cons_self
      obtain ⟨rfl, _⟩ := hst.alone m' a (h1.mono _) h2
      exact ⟨a, h1⟩
  have hg := (hst.known _ (List.mem_append_right _ (List.mem_singleton.2 rfl))).2.2
  replace hg : ∀ k raw, env.verify k raw m = good k raw := hg
  have hs := hpass hcame (fun us hus => by
    refine Verif.Thold.c12_monotone_partial kt _ _ ?_ hnd ?_ hen
    · intro i hi
      obtain ⟨s, hs, rfl⟩ := List.mem_map.1 hi
      obtain ⟨h1, key, h2, h3⟩ := hss s hs
      exact List.mem_map.2 ⟨s, verifySigs_mem.2 ⟨hus s h1, key, h2, by rw [hg]; exact h3⟩, rfl⟩
    · intro cs hcs
      refine ⟨(hkt cs hcs).1, fun j hj => ?_⟩
      obtain ⟨s, hs, rfl⟩ := List.mem_map.1 hj
      obtain ⟨_, key, h2, _⟩ := verifySigs_mem.1 hs
      obtain ⟨h3, _⟩ := List.getElem?_eq_some_iff.1 h2
      exact Nat.lt_of_lt_of_le h3 (hkt cs hcs).2)
  rw [run_append]
  obtain ⟨x, hx⟩ := Option.isSome_iff_exists.1 hs
  have hx' : (run routes (l ++ [.pass env now])).exns.get m.said = some x := by rw [run_append]; exact hx
  obtain ⟨h1, l1, y, l2, h2, ⟨a, h3⟩, _⟩ := c101_saved routes _ _ _ hx'
  have hc : Came (l ++ [.pass env now]) x a := by
    obtain ⟨env2, now2, h4⟩ := h3
    refine ⟨env2, now2, ?_⟩
    rw [h2]
    rcases List.mem_append.1 h4 with h5 | h5
    · exact List.mem_append_left _ h5
    · exact List.mem_append_right _ (List.mem_cons.2 (Or.inl (List.mem_singleton.1 h5)))
  obtain ⟨rfl, _⟩ := hst.alone x a hc h1
  exact hx

end Verif.Exc
