import Verif.Mgr.Ingest

/-!
# What the inputs do to the key sets of identifiers

`Eff` lists all that inputs which are `safe` can do to situations, key sets and private keys, complete calls and interrupted ones.
-/

namespace Verif.Mgr

open Verif.Kel (upd)

/-- Nothing is stored for an identifier that is not taken. -/
def Known (ks : Ks) : Prop := ∀ p, (ks.prms.at' p ≠ none ∨ ks.sits p ≠ none ∨ ∃ j, ks.pubs p j ≠ none) → ks.pres p ≠ none

/-- What is stored for `p` is as before. -/
structure Rest (ks ks' : Ks) (p : Nat) : Prop where
  sits : ks'.sits p = ks.sits p
  prms : ks'.prms.at' p = none ↔ ks.prms.at' p = none
  pubs : ks'.pubs p = ks.pubs p

/-- Private keys only come from those stored. -/
def Came (N : List Nat) (ks ks' : Ks) : Prop := ∀ k, ks'.pris.at' k ≠ none → ks.pris.at' k ≠ none ∨ k ∈ N

/-- Effects. `x` is the input with its result, `N` the keys the call stores. -/
inductive Eff (N : List Nat) (ks ks' : Ks) (x : Inp × Option Res) : Prop
  | quiet (rest : ∀ p, Rest ks ks' p) (came : Came N ks ks') (kept : ∀ k, ks.pris.at' k ≠ none → ks'.pris.at' k ≠ none)
      (told : ∀ f p k, Told.next f x p = some k → f p = some k ∨
        (Repeats x ∧ ∃ s, ks.prms.at' p ≠ none ∧ ks.sits p = some s ∧ ∀ k ∈ s.new.pubs, ks.pris.at' k ≠ none))
      (shown : ∀ g, Shown.next g x = g)
  | began (pre : Nat) (pubs nxts : List Nat) (hN : N = pubs ++ nxts) (fresh : ks.pres pre = none) (taken : ks'.pres pre ≠ none)
      (rest : ∀ p, p ≠ pre → Rest ks ks' p)
      (sits : ks'.sits pre = none ∨ ks'.sits pre = some ⟨.empty, ⟨pubs, 0, 0⟩, ⟨nxts, 1, pubs.length⟩⟩) (later : ∀ j, 1 < j → ks'.pubs pre j = none)
      (came : Came N ks ks') (kept : ∀ k, ks.pris.at' k ≠ none → ks'.pris.at' k ≠ none)
      (whole : ((∃ c k, x.1 = .crash c k) ∧ (∀ f, Told.next f x = f) ∧ ∀ g, Shown.next g x = g) ∨
        (ks'.prms.at' pre ≠ none ∧ ks'.sits pre ≠ none ∧ (∀ k ∈ N, ks'.pris.at' k ≠ none) ∧
          (∀ f p, p ≠ pre → Told.next f x p = f p) ∧ ∀ g, Shown.next g x = upd g pre [pubs]))
  | turned (pre : Nat) (ps : Sit) (nxts : List Nat) (erase : Bool) (prms : ks.prms.at' pre ≠ none) (sits : ks.sits pre = some ps)
      (hN : (N = nxts) ∨ (N = [] ∧ ks.pubs pre (ps.nxt.ridx + 1) = some nxts)) (read : ∀ k ∈ ps.nxt.pubs, ks.pris.at' k ≠ none)
      (rest : ∀ p, p ≠ pre → Rest ks ks' p) (prms' : ks'.prms.at' pre ≠ none)
      (sits' : ∃ kx, ks'.sits pre = some ⟨ps.new, ps.nxt, ⟨nxts, ps.nxt.ridx + 1, kx⟩⟩) (later : ∀ j, j ≠ ps.nxt.ridx + 1 → ks'.pubs pre j = ks.pubs pre j)
      (came : Came N ks ks') (kept : ∀ k, k ∉ ps.old.pubs → ks.pris.at' k ≠ none → ks'.pris.at' k ≠ none)
      (told : ∀ f p, p ≠ pre → Told.next f x p = f p)
      (whole : ((∃ c k, x.1 = .crash c k) ∧ (∀ f, Told.next f x pre = none) ∧ ∀ g, Shown.next g x = g) ∨
        ((∀ k ∈ N, k ∉ ps.old.pubs → ks'.pris.at' k ≠ none) ∧ (erase = true → ∀ k ∈ ps.old.pubs, ks'.pris.at' k = none) ∧
          (∀ g, Shown.next g x = upd g pre (ps.nxt.pubs :: g pre)) ∧
          ((∃ a, x.1 = .call (.rotate pre a) ∧ a.erase = erase) ∨ ∃ adv, x.1 = .call (.replay pre adv erase))))
  | took (pre : Nat) (all : List (List Nat)) (i : Nat) (s : Sit) (hN : N = all.flatten) (fresh : ks.pres pre = none) (taken : ks'.pres pre ≠ none)
      (rest : ∀ p, p ≠ pre → Rest ks ks' p) (prms : ks'.prms.at' pre ≠ none) (sits : ks'.sits pre = some s) (pubs : ∀ j, ks'.pubs pre j = all[j]?)
      (old : if i = 0 then s.old.pubs = [] else all[i - 1]? = some s.old.pubs) (new : all[i]? = some s.new.pubs) (nxt : all[i + 1]? = some s.nxt.pubs)
      (ridx : s.nxt.ridx = i + 1) (came : Came N ks ks') (kept : ∀ k, ks.pris.at' k ≠ none → ks'.pris.at' k ≠ none)
      (whole : ∀ k ∈ N, ks'.pris.at' k ≠ none) (told : ∀ f, Told.next f x = f) (shown : ∀ g, Shown.next g x = g)
  | moved (old new : Nat) (sit : Sit) (ne : old ≠ new) (pold : ks.pres old ≠ none) (pnew : ks.pres new = none) (taken : ks'.pres new ≠ none)
      (prms : ks.prms.at' old ≠ none) (sits : ks.sits old = some sit) (prms' : ks'.prms.at' new ≠ none) (sits' : ks'.sits new = some sit)
      (gone : ks'.prms.at' old = none) (pubs : ∀ j l, ks'.pubs new j = some l → ks.pubs old j = some l)
      (rest : ∀ p, p ≠ old → p ≠ new → Rest ks ks' p) (pris : ∀ k, ks'.pris.at' k = ks.pris.at' k)
      (told : ∀ f, Told.next f x = upd (upd f new (f old)) old none) (shown : ∀ g, Shown.next g x = upd (upd g new (g old)) old [])

/-! ## Frames -/

theorem Rest.of {ks : Ks} {ws : List Wr} {p : Nat} (h : ∀ w ∈ ws, w.sitKey ≠ some p ∧ w.prmKey ≠ some p ∧ w.pubKey ≠ some p) : Rest ks (ks.applyAll ws) p :=
  ⟨applyAll_sits fun w hw => (h w hw).1, by rw [applyAll_prms fun w hw => (h w hw).2.1], applyAll_pubs fun w hw => (h w hw).2.2⟩

theorem Rest.other {ks : Ks} {ws : List Wr} {pre : Nat} (h : ∀ w ∈ ws, ∀ q, (w.sitKey = some q ∨ w.prmKey = some q ∨ w.pubKey = some q) → q = pre) (p : Nat)
    (hp : p ≠ pre) : Rest ks (ks.applyAll ws) p :=
  Rest.of fun w hw => ⟨fun hc => hp (h w hw p (.inl hc)), fun hc => hp (h w hw p (.inr (.inl hc))), fun hc => hp (h w hw p (.inr (.inr hc)))⟩

theorem prms_kept {ks : Ks} {ws : List Wr} {p : Nat} (h : ks.prms.at' p ≠ none) (hr : Wr.prmsRem p ∉ ws) : (ks.applyAll ws).prms.at' p ≠ none := by
  refine applyAll_ind (P := fun k => k.prms.at' p ≠ none) (fun w hw k hkk => ?_) h
  by_cases hp : w.prmKey = some p
  · cases w with
    | prms q x => simp only [Wr.prmKey, Option.some.injEq] at hp; subst hp; simp [Ks.apply, tbl_pin_at]
    | prmsRem q => simp only [Wr.prmKey, Option.some.injEq] at hp; subst hp; exact absurd hw hr
    | _ => simp [Wr.prmKey] at hp
  · rw [apply_prms hp]; exact hkk

theorem Rest.reforms {ks : Ks} {ws : List Wr} (h : ∀ w ∈ ws, w.reforms ks) (p : Nat) : Rest ks (ks.applyAll ws) p := by
  have s := Same.reforms (p := p) h
  refine ⟨s.sits, ⟨fun hn => ?_, fun hn => ?_⟩, s.pubs⟩
  · cases hc : ks.prms.at' p with
    | none => rfl
    | some a => exact absurd hn (prms_kept (by rw [hc]; simp) fun hm => absurd (h _ hm) (by simp [Wr.reforms]))
  · cases hc : (ks.applyAll ws).prms.at' p with
    | none => rfl
    | some a => obtain ⟨b, hb, _⟩ := s.prms a hc; rw [hn] at hb; simp at hb

theorem came_of {ks : Ks} {ws : List Wr} (h : ∀ k v, Wr.prisPin k v ∈ ws → ks.pris.at' k ≠ none) : Came (storedKeys ws) ks (ks.applyAll ws) := by
  intro k hk
  have gen : ∀ (ws : List Wr) (ks : Ks), (ks.applyAll ws).pris.at' k ≠ none → ks.pris.at' k ≠ none ∨ k ∈ storedKeys ws ∨ ∃ v, Wr.prisPin k v ∈ ws := by
    intro ws
    induction ws with
    | nil => intro ks h; exact .inl h
    | cons w ws ih =>
      intro ks h
      rcases ih _ h with h | h | ⟨v, h⟩
      · by_cases hw : w.priKey = some k
        · cases w with
          | prisPut q v =>
            simp only [Wr.priKey, Option.some.injEq] at hw; subst hw
            exact .inr (.inl (mem_storedKeys.2 ⟨v, List.mem_cons_self ..⟩))
          | prisPin q v =>
            simp only [Wr.priKey, Option.some.injEq] at hw; subst hw
            exact .inr (.inr ⟨v, List.mem_cons_self ..⟩)
          | prisRem q =>
            simp only [Wr.priKey, Option.some.injEq] at hw; subst hw
            have h : upd ks.pris.at' q none q ≠ none := h
            simp at h
          | _ => simp [Wr.priKey] at hw
        · rw [apply_pris hw] at h; exact .inl h
      · obtain ⟨v, hv⟩ := mem_storedKeys.1 h
        exact .inr (.inl (mem_storedKeys.2 ⟨v, List.mem_cons_of_mem _ hv⟩))
      · exact .inr (.inr ⟨v, List.mem_cons_of_mem _ h⟩)
  rcases gen ws ks hk with h1 | h1 | ⟨v, h1⟩
  · exact .inl h1
  · exact .inr h1
  · exact .inl (h k v h1)

theorem Came.mono {N N' : List Nat} {ks ks' : Ks} (h : Came N ks ks') (hs : ∀ k ∈ N, k ∈ N') : Came N' ks ks' :=
  fun k hk => (h k hk).imp id (hs k)

theorem came_take {ks : Ks} {ws : List Wr} (h : ∀ k v, Wr.prisPin k v ∉ ws) (k : Nat) : Came (storedKeys ws) ks (ks.applyAll (ws.take k)) :=
  (came_of fun q v hv => absurd (List.mem_of_mem_take hv) (h q v)).mono fun q hq => by
    obtain ⟨v, hv⟩ := mem_storedKeys.1 hq
    exact mem_storedKeys.2 ⟨v, List.mem_of_mem_take hv⟩

theorem turns_nopin {p : Nat} {enc : Option Nat} {ws : List Wr} (h : ∀ w ∈ ws, w.turns p enc) (k : Nat) (v : Sec) : Wr.prisPin k v ∉ ws :=
  fun hm => absurd (h _ hm) (by simp [Wr.turns])

theorem about_nopin {p : Nat} {enc : Option Nat} {ws : List Wr} (h : ∀ w ∈ ws, w.about p enc) (k : Nat) (v : Sec) : Wr.prisPin k v ∉ ws :=
  fun hm => absurd (h _ hm) (by simp [Wr.about])

theorem about_norem {p : Nat} {enc : Option Nat} {ws : List Wr} (h : ∀ w ∈ ws, w.about p enc) (k : Nat) : Wr.prisRem k ∉ ws :=
  fun hm => absurd (h _ hm) (by simp [Wr.about])

/-! ## The effects -/

/-- What the caller sees of a result. -/
def Inp.seen (r : Res) : Inp → Option Res
  | .call _ => some r
  | .crash _ _ => none

theorem eff_noWrites {N : List Nat} {ks : Ks} {x : Inp × Option Res}
    (told : ∀ f p k, Told.next f x p = some k → f p = some k ∨
        (Repeats x ∧ ∃ s, ks.prms.at' p ≠ none ∧ ks.sits p = some s ∧ ∀ k ∈ s.new.pubs, ks.pris.at' k ≠ none))
    (shown : ∀ g, Shown.next g x = g) : Eff N ks ks x :=
  .quiet (fun _ => ⟨rfl, Iff.rfl, rfl⟩) (fun _ h => .inl h) (fun _ h => h) told shown

theorem incept_whole {env : Env} {ks : Ks} (hk : Known ks) {mem : Mem} {a : InceptArgs} (hc : (incept env ks mem a).2 ≠ .error .code) :
    (∃ e, incept env ks mem a = ([], .error e)) ∨ ∃ pidx cr pubs nxts, ks.pres (pubs.headD 0) = none ∧ cr.algo ≠ .other ∧ pubs ≠ [] ∧
      incept env ks mem a = (inceptAll mem.enc cr pidx (pubs.headD 0) pubs nxts, .ok ⟨pubs, nxts.map env.dig⟩) := by
  rcases incept_cases env ks mem a with ⟨e, he⟩ | ⟨t, pidx, cr, icodes, ncodes, _, _, hcr, _, _, he⟩
  · exact .inl ⟨e, he⟩
  rw [he] at hc ⊢
  generalize cr.create env a.rnd icodes pidx 0 0 a.tr a.temp = pubs at hc ⊢
  generalize cr.create env (fun i => a.rnd (icodes.length + i)) ncodes pidx 1 icodes.length a.tr a.temp = nxts at hc ⊢
  have o := inceptWr_out env ks mem cr pidx pubs nxts
  cases hr : (inceptWr env ks mem cr pidx pubs nxts).2 with
  | ok k =>
    obtain ⟨rfl, h1, h2, h3, h4⟩ := o.ok k hr
    refine .inr ⟨pidx, cr, pubs, nxts, o.fresh (by rw [h2]; simp [inceptAll]), makeCreator_known hcr, h1, ?_⟩
    rw [← h2, ← hr]
  | error e =>
    left
    refine ⟨e, ?_⟩
    revert hc hr
    unfold inceptWr
    split
    · intro _ h; rw [← h]
    rename_i pre rest
    split
    · intro _ h; rw [← h]
    rename_i hp
    have hp : ks.pres pre = none := by simpa using hp
    split
    · rename_i h; exact absurd hp (hk pre (.inl (by intro h'; rw [h'] at h; simp at h)))
    split
    · rename_i h; exact absurd hp (hk pre (.inr (.inl (by intro h'; rw [h'] at h; simp at h))))
    rcases putPris_cases env mem.enc (pre :: rest) with ⟨h1, _⟩ | ⟨j, _, h1, _⟩
    · rw [h1]
      rcases putPris_cases env mem.enc nxts with ⟨h2, _⟩ | ⟨j, _, h2, _⟩
      · rw [h2]; intro _ h; simp at h
      · rw [h2]; intro h; simp at h
    · rw [h1]; intro h; simp at h

theorem storedKeys_inceptAll {enc : Option Nat} {cr : Creator} {pidx pre : Nat} {pubs nxts : List Nat} :
    storedKeys (inceptAll enc cr pidx pre pubs nxts) = pubs ++ nxts := by
  unfold inceptAll
  simp only [storedKeys_append, storedKeys_puts]
  simp [storedKeys]

theorem applyAll_sits_or (ks : Ks) (ws : List Wr) (p : Nat) :
    (ks.applyAll ws).sits p = ks.sits p ∨ (∃ s, Wr.sits p s ∈ ws ∧ (ks.applyAll ws).sits p = some s) ∨ Wr.sitsRem p ∈ ws := by
  induction ws generalizing ks with
  | nil => exact .inl rfl
  | cons w ws ih =>
    rcases ih (ks.apply w) with h | ⟨s, h1, h2⟩ | h
    · by_cases hk : w.sitKey = some p
      · cases w with
        | sits q s =>
          simp only [Wr.sitKey, Option.some.injEq] at hk; subst hk
          refine .inr (.inl ⟨s, List.mem_cons_self .., ?_⟩)
          rw [applyAll_cons, h]; simp [Ks.apply]
        | sitsRem q => simp only [Wr.sitKey, Option.some.injEq] at hk; subst hk; exact .inr (.inr (List.mem_cons_self ..))
        | _ => simp [Wr.sitKey] at hk
      · left; rw [applyAll_cons, h, apply_sits hk]
    · exact .inr (.inl ⟨s, List.mem_cons_of_mem _ h1, h2⟩)
    · exact .inr (.inr (List.mem_cons_of_mem _ h))

theorem applyAll_pubs_val {ks : Ks} {ws : List Wr} {p j : Nat} {l : List Nat} (h : (ks.applyAll ws).pubs p j = some l) :
    ks.pubs p j = some l ∨ Wr.pubsPut p j l ∈ ws := by
  induction ws generalizing ks with
  | nil => exact .inl h
  | cons w ws ih =>
    rcases ih h with h | h
    · by_cases hk : w.pubKey = some p
      · cases w with
        | pubsPut q ri l' =>
          simp only [Wr.pubKey, Option.some.injEq] at hk
          subst hk
          simp only [Ks.apply] at h
          split at h
          · exact .inl h
          · have h : upd ks.pubs q (upd (ks.pubs q) ri (some l')) q j = some l := h
            rw [upd_same] at h
            by_cases hj : j = ri
            · subst hj; rw [upd_same] at h; simp at h; subst h; exact .inr (List.mem_cons_self ..)
            · rw [upd_ne _ _ hj] at h; exact .inl h
        | _ => simp [Wr.pubKey] at hk
      · rw [apply_pubs hk] at h; exact .inl h
    · exact .inr (List.mem_cons_of_mem _ h)

theorem inceptAll_sitsW {enc : Option Nat} {cr : Creator} {pidx pre q : Nat} {pubs nxts : List Nat} {s : Sit}
    (h : Wr.sits q s ∈ inceptAll enc cr pidx pre pubs nxts) : s = ⟨.empty, ⟨pubs, 0, 0⟩, ⟨nxts, 1, pubs.length⟩⟩ := by
  unfold inceptAll at h
  simp only [List.mem_append, List.mem_cons, List.not_mem_nil, or_false, reduceCtorEq, false_or, Wr.sits.injEq] at h
  rcases h with (h | h) | h
  · exact h.2
  · obtain ⟨k, _, he⟩ := mem_puts h; cases he
  · obtain ⟨k, _, he⟩ := mem_puts h; cases he

theorem inceptAll_pubsW {enc : Option Nat} {cr : Creator} {pidx pre q j : Nat} {pubs nxts l : List Nat}
    (h : Wr.pubsPut q j l ∈ inceptAll enc cr pidx pre pubs nxts) : j ≤ 1 := by
  unfold inceptAll at h
  simp only [List.mem_append, List.mem_cons, List.not_mem_nil, or_false, reduceCtorEq, false_or, Wr.pubsPut.injEq] at h
  rcases h with ((h | h) | h) | h
  · obtain ⟨k, _, he⟩ := mem_puts h; cases he
  · omega
  · obtain ⟨k, _, he⟩ := mem_puts h; cases he
  · omega

/-- Some of the writes of an inception. -/
theorem eff_began {ks : Ks} (hk : Known ks) {enc : Option Nat} {cr : Creator} {pidx : Nat} {pubs nxts : List Nat} (hp : ks.pres (pubs.headD 0) = none)
    {x : Inp × Option Res} (k : Nat)
    (whole : ((∃ c k, x.1 = .crash c k) ∧ (∀ f, Told.next f x = f) ∧ ∀ g, Shown.next g x = g) ∨
      ((inceptAll enc cr pidx (pubs.headD 0) pubs nxts).take k = inceptAll enc cr pidx (pubs.headD 0) pubs nxts ∧
        (∀ f p, p ≠ pubs.headD 0 → Told.next f x p = f p) ∧ ∀ g, Shown.next g x = upd g (pubs.headD 0) [pubs])) :
    Eff (storedKeys (inceptAll enc cr pidx (pubs.headD 0) pubs nxts)) ks (ks.applyAll ((inceptAll enc cr pidx (pubs.headD 0) pubs nxts).take k)) x := by
  generalize hpre : pubs.headD 0 = pre at *
  by_cases h0 : (inceptAll enc cr pidx pre pubs nxts).take k = []
  · rw [h0, applyAll_nil]
    rcases whole with ⟨_, w2, w3⟩ | ⟨w1, _, _⟩
    · exact eff_noWrites (fun f p k h => .inl (by rw [w2] at h; exact h)) w3
    · rw [h0] at w1; simp [inceptAll] at w1
  · have hab : ∀ w ∈ (inceptAll enc cr pidx pre pubs nxts).take k, w.about pre enc := fun w hw => mem_inceptAll (List.mem_of_mem_take hw)
    have hhead : Wr.pres pre pre ∈ (inceptAll enc cr pidx pre pubs nxts).take k := by
      obtain ⟨w, hw⟩ := List.exists_mem_of_ne_nil _ h0
      exact mem_take_head hw
    refine .began pre pubs nxts storedKeys_inceptAll hp (pres_written hhead) (Rest.other fun w hw q hq => about_keys (hab w hw) hq) ?_ (fun j hj => ?_)
      (came_take (about_nopin fun w hw => mem_inceptAll hw) k) (fun q hq => applyAll_pris_kept hq (about_norem hab q)) ?_
    · rcases applyAll_sits_or ks ((inceptAll enc cr pidx pre pubs nxts).take k) pre with h | ⟨s, h1, h2⟩ | h
      · left; rw [h]
        cases hs : ks.sits pre with
        | none => rfl
        | some s => exact absurd hp (hk pre (.inr (.inl (by rw [hs]; simp))))
      · right; rw [h2, inceptAll_sitsW (List.mem_of_mem_take h1)]
      · exact absurd (hab _ h) (by simp [Wr.about])
    · cases hs : (ks.applyAll ((inceptAll enc cr pidx pre pubs nxts).take k)).pubs pre j with
      | none => rfl
      | some l =>
        rcases applyAll_pubs_val hs with h | h
        · exact absurd hp (hk pre (.inr (.inr ⟨j, by rw [h]; simp⟩)))
        · have := inceptAll_pubsW (List.mem_of_mem_take h); omega
    · rcases whole with w | ⟨w1, w2, w3⟩
      · exact .inl w
      · refine .inr ⟨?_, ?_, fun q hq => ?_, w2, w3⟩
        · rw [w1, inceptAll_prms]; simp
        · rw [w1, inceptAll_sits]; simp
        · rw [w1]; exact applyAll_pris_stored hq (about_norem (fun w hw => mem_inceptAll hw) q)

theorem storedKeys_rotateAll {enc : Option Nat} {pre : Nat} {ps : Sit} {nxts : List Nat} {erase : Bool} : storedKeys (rotateAll enc pre ps nxts erase) = nxts := by
  unfold rotateAll
  simp only [storedKeys_append, storedKeys_puts]
  have : storedKeys (if erase then ps.old.pubs.map Wr.prisRem else []) = [] := by
    rw [List.eq_nil_iff_forall_not_mem]
    intro k hk
    obtain ⟨v, hv⟩ := mem_storedKeys.1 hk
    split at hv
    · obtain ⟨q, _, hq⟩ := List.mem_map.1 hv; cases hq
    · simp at hv
  rw [this]
  simp [storedKeys]

theorem removed {ks : Ks} {l : List Nat} {k : Nat} (h : k ∈ l) : (ks.applyAll (l.map .prisRem)).pris.at' k = none := by
  induction l generalizing ks with
  | nil => simp at h
  | cons a l ih =>
    by_cases hm : k ∈ l
    · exact ih hm
    · have : k = a := by simpa [hm] using h
      subst this
      rw [List.map_cons, applyAll_cons, applyAll_pris]
      · show upd ks.pris.at' k none k = none
        simp
      · intro w hw
        obtain ⟨q, hq, rfl⟩ := List.mem_map.1 hw
        simp [Wr.priKey]
        rintro rfl; exact hm hq

theorem rotateAll_rem {enc : Option Nat} {pre : Nat} {ps : Sit} {nxts : List Nat} {erase : Bool} {k : Nat}
    (h : Wr.prisRem k ∈ rotateAll enc pre ps nxts erase) : k ∈ ps.old.pubs := by
  unfold rotateAll at h
  simp only [List.mem_append, List.mem_cons, List.not_mem_nil, or_false, reduceCtorEq, false_or] at h
  rcases h with h | h
  · obtain ⟨k, _, he⟩ := mem_puts h; cases he
  · split at h
    · obtain ⟨q, hq, he⟩ := List.mem_map.1 h; cases he; exact hq
    · simp at h

/-- Some of the writes of a rotation. -/
theorem eff_rotated {env : Env} {ks : Ks} (hk : Kept ks) {mem : Mem} {pre : Nat} {a : RotateArgs} {prm : Prm} {ps : Sit} {v nxts : List Nat}
    (h : RotateOut env ks mem pre a prm ps v nxts (rotate env ks mem pre a)) (hc : (rotate env ks mem pre a).2 ≠ .error .code) (i : Inp)
    (k : Nat) (hi : i = .crash (.rotate pre a) k ∨ (i = .call (.rotate pre a) ∧ (rotate env ks mem pre a).1.take k = (rotate env ks mem pre a).1)) :
    Eff (storedKeys (rotate env ks mem pre a).1) ks (ks.applyAll ((rotate env ks mem pre a).1.take k))
      (i, i.seen (.ofKeys (rotate env ks mem pre a).2)) := by
  have hpart := rotate_part h k
  rcases h.outcome with ⟨h1, h2⟩ | ⟨h1, _⟩
  · rw [h2] at hpart hi ⊢
    rw [h1]
    have hv := (readPris_ok hk h.read)
    by_cases h0 : (rotateAll mem.enc pre ps nxts a.erase).take k = []
    · rw [h0, applyAll_nil]
      rcases hi with rfl | ⟨rfl, hi⟩
      · refine eff_noWrites (fun f p k hf => .inl ?_) fun g => rfl
        have hf : upd f pre none p = some k := hf
        by_cases hp : p = pre
        · subst hp; simp at hf
        · rw [upd_ne _ _ hp] at hf; exact hf
      · rw [h0] at hi; simp [rotateAll] at hi
    · obtain ⟨hsit, hpubs⟩ := hpart.resolve_left h0
      have ht : ∀ w ∈ (rotateAll mem.enc pre ps nxts a.erase).take k, w.turns pre mem.enc := fun w hw => rotateAll_turns (List.mem_of_mem_take hw)
      refine .turned pre ps nxts a.erase (by rw [h.hprm]; simp) h.hsit (.inl storedKeys_rotateAll) hv.2
        (Rest.other fun w hw q hq => turns_keys (ht w hw) hq) (by rw [turns_prms ht, h.hprm]; simp) ⟨_, hsit⟩ hpubs
        (came_take (turns_nopin fun w hw => rotateAll_turns hw) k)
        (fun q hq hp => applyAll_pris_kept hp fun hm => hq (rotateAll_rem (List.mem_of_mem_take hm))) (fun f p hp => ?_) ?_
      · rcases hi with rfl | ⟨rfl, _⟩ <;> exact upd_ne _ _ hp
      · rcases hi with rfl | ⟨rfl, hi⟩
        · exact .inl ⟨⟨_, _, rfl⟩, fun f => upd_same _ _ _, fun g => rfl⟩
        · refine .inr ⟨fun q hq hqo => ?_, fun he q hq => ?_, fun g => ?_, .inl ⟨a, rfl, rfl⟩⟩
          · rw [hi]; exact applyAll_pris_stored hq fun hm => hqo (rotateAll_rem hm)
          · rw [hi]; unfold rotateAll; rw [applyAll_append, if_pos he]; exact removed hq
          · show upd g pre (v :: g pre) = _
            rw [hv.1]
  · exact absurd h1 hc

theorem replayAll_turns {pre : Nat} {ps : Sit} {pubs : List Nat} {erase : Bool} {w : Wr} (h : w ∈ replayAll pre ps pubs erase) : w.turns pre none := by
  unfold replayAll at h
  rcases List.mem_cons.1 h with rfl | h
  · rfl
  · split at h
    · obtain ⟨q, _, rfl⟩ := List.mem_map.1 h; trivial
    · simp at h

theorem replayAll_rem {pre : Nat} {ps : Sit} {pubs : List Nat} {erase : Bool} {k : Nat}
    (h : Wr.prisRem k ∈ replayAll pre ps pubs erase) : k ∈ ps.old.pubs := by
  unfold replayAll at h
  rcases List.mem_cons.1 h with h | h
  · cases h
  · split at h
    · obtain ⟨q, hq, he⟩ := List.mem_map.1 h; cases he; exact hq
    · simp at h

theorem storedKeys_replayAll {pre : Nat} {ps : Sit} {pubs : List Nat} {erase : Bool} : storedKeys (replayAll pre ps pubs erase) = [] := by
  rw [List.eq_nil_iff_forall_not_mem]
  intro k hk
  obtain ⟨v, hv⟩ := mem_storedKeys.1 hk
  unfold replayAll at hv
  rcases List.mem_cons.1 hv with h | h
  · cases h
  · split at h
    · obtain ⟨q, hq, he⟩ := List.mem_map.1 h; cases he
    · simp at h

/-- Some of the writes of a replay that advances. -/
theorem eff_replayed {env : Env} {ks : Ks} (hk : Kept ks) {mem : Mem} {pre : Nat} {er : Bool} {prm : Prm} {ps : Sit} {v pubs : List Nat}
    (h1 : ks.prms.at' pre = some prm) (h2 : ks.sits pre = some ps) (h3 : ks.pubs pre (ps.nxt.ridx + 1) = some pubs) (h4 : readPris env ks mem ps.nxt.pubs = .ok v)
    (i : Inp) (k : Nat) (hi : i = .crash (.replay pre true er) k ∨ (i = .call (.replay pre true er) ∧ (replayAll pre ps pubs er).take k = replayAll pre ps pubs er)) :
    Eff (storedKeys (replayAll pre ps pubs er)) ks (ks.applyAll ((replayAll pre ps pubs er).take k))
      (i, i.seen (.keys ⟨v, pubs.map env.dig⟩)) := by
  have hv := readPris_ok hk h4
  by_cases h0 : (replayAll pre ps pubs er).take k = []
  · rw [h0, applyAll_nil]
    rcases hi with rfl | ⟨rfl, hi⟩
    · refine eff_noWrites (fun f p k hf => .inl ?_) fun g => rfl
      have hf : upd f pre none p = some k := hf
      by_cases hp : p = pre
      · subst hp; simp at hf
      · rw [upd_ne _ _ hp] at hf; exact hf
    · rw [h0] at hi; simp [replayAll] at hi
  · have ht : ∀ w ∈ (replayAll pre ps pubs er).take k, w.turns pre none := fun w hw => replayAll_turns (List.mem_of_mem_take hw)
    have hsit : (ks.applyAll ((replayAll pre ps pubs er).take k)).sits pre =
        some ⟨ps.new, ps.nxt, ⟨pubs, ps.nxt.ridx + 1, ps.nxt.kidx + ps.nxt.pubs.length⟩⟩ := by
      cases k with
      | zero => simp at h0
      | succ k =>
        unfold replayAll
        rw [List.take_succ_cons, applyAll_cons, applyAll_sits]
        · simp [Ks.apply]
        · intro w hw
          have hw := List.mem_of_mem_take hw
          split at hw
          · obtain ⟨q, _, rfl⟩ := List.mem_map.1 hw; simp [Wr.sitKey]
          · simp at hw
    have hpub : ∀ j, (ks.applyAll ((replayAll pre ps pubs er).take k)).pubs pre j = ks.pubs pre j := by
      intro j
      rw [applyAll_pubs]
      intro w hw
      have hw := List.mem_of_mem_take hw
      unfold replayAll at hw
      rcases List.mem_cons.1 hw with rfl | hw
      · simp [Wr.pubKey]
      · split at hw
        · obtain ⟨q, _, rfl⟩ := List.mem_map.1 hw; simp [Wr.pubKey]
        · simp at hw
    refine .turned pre ps pubs er (by rw [h1]; simp) h2 (.inr ⟨storedKeys_replayAll, h3⟩) hv.2
      (Rest.other fun w hw q hq => turns_keys (ht w hw) hq) (by rw [turns_prms ht, h1]; simp) ⟨_, hsit⟩ (fun j _ => hpub j)
      (came_take (turns_nopin fun w hw => replayAll_turns hw) k)
      (fun q hq hp => applyAll_pris_kept hp fun hm => hq (replayAll_rem (List.mem_of_mem_take hm))) (fun f p hp => ?_) ?_
    · rcases hi with rfl | ⟨rfl, _⟩ <;> exact upd_ne _ _ hp
    · rcases hi with rfl | ⟨rfl, hi⟩
      · exact .inl ⟨⟨_, _, rfl⟩, fun f => upd_same _ _ _, fun g => rfl⟩
      · refine .inr ⟨fun q hq => by rw [storedKeys_replayAll] at hq; simp at hq, fun he q hq => ?_, fun g => ?_, .inr ⟨true, rfl⟩⟩
        · rw [hi]; unfold replayAll; rw [applyAll_cons, if_pos he]; exact removed hq
        · show upd g pre (v :: g pre) = _
          rw [hv.1]

theorem movePubs_ok {ks : Ks} {old new : Nat} (h : ∀ j, ks.pubs new j = none) : ∀ n i, (movePubs ks old new n i).2 = .ok ()
  | 0, _ => rfl
  | n + 1, i => by
    unfold movePubs
    split
    · rfl
    · rw [h i]; exact movePubs_ok h n (i + 1)

theorem eff_moved {ks : Ks} (hk : Known ks) {old new : Nat} {prm : Prm} {sit : Sit} {wp : List Wr} (m : MoveOut ks old new prm sit wp (move ks old new)) :
    Eff (storedKeys (move ks old new).1) ks (ks.applyAll (move ks old new).1) (.call (.move old new), some (.ofUnit (move ks old new).2)) := by
  have hnone : ∀ j, ks.pubs new j = none := fun j => by
    cases h : ks.pubs new j with
    | none => rfl
    | some l => exact absurd m.pnew (hk new (.inr (.inr ⟨j, by rw [h]; simp⟩)))
  have hprms := moved_prms m
  obtain ⟨hs1, hs2, hs3⟩ := move_sits m
  have hwp : ∀ {w : Wr}, w ∈ wp → ∃ j l, ks.pubs old j = some l ∧ w = .pubsPut new j l := by
    intro w hw
    rw [m.hwp] at hw
    exact movePubs_mem hw
  have ho : move ks old new = ([Wr.prms new prm, .prmsRem old, .sits new sit, .sitsRem old] ++ wp ++ [.pres old new, .pres new new], .ok ()) := by
    rcases m.outcome with ⟨_, ho⟩ | ⟨e, he, _⟩
    · exact ho
    · rw [movePubs_ok hnone] at he; simp at he
  rw [ho] at hprms hs1 hs2 hs3 ⊢
  dsimp only at *
  have hmem : ∀ {w : Wr}, w ∈ [Wr.prms new prm, .prmsRem old, .sits new sit, .sitsRem old] ++ wp ++ [.pres old new, .pres new new] →
      w = .prms new prm ∨ w = .prmsRem old ∨ w = .sits new sit ∨ w = .sitsRem old ∨ (∃ j l, ks.pubs old j = some l ∧ w = .pubsPut new j l) ∨
        w = .pres old new ∨ w = .pres new new := by
    intro w hw
    simp only [List.mem_append, List.mem_cons, List.not_mem_nil, or_false] at hw
    rcases hw with ((h | h | h | h) | h) | h | h
    · exact .inl h
    · exact .inr (.inl h)
    · exact .inr (.inr (.inl h))
    · exact .inr (.inr (.inr (.inl h)))
    · exact .inr (.inr (.inr (.inr (.inl (hwp h)))))
    · exact .inr (.inr (.inr (.inr (.inr (.inl h)))))
    · exact .inr (.inr (.inr (.inr (.inr (.inr h)))))
  refine .moved old new sit m.ne m.pold m.pnew ?_ (by rw [m.hprm]; simp) m.hsit (by rw [hprms]; simp) hs1 ?_ (fun j l hj => ?_) (fun p h1 h2 => ?_) (fun k => ?_)
    (fun f => ?_) (fun g => ?_)
  · exact pres_written (by simp : Wr.pres new new ∈ _)
  · have hb : (((ks.apply (.prms new prm)).apply (.prmsRem old))).prms.at' old = none := by
      show upd (upd ks.prms.at' new (some prm)) old none old = none
      simp
    rw [show [Wr.prms new prm, .prmsRem old, .sits new sit, .sitsRem old] ++ wp ++ [.pres old new, .pres new new] =
      [Wr.prms new prm, .prmsRem old] ++ ([.sits new sit, .sitsRem old] ++ wp ++ [.pres old new, .pres new new]) by simp, applyAll_append, applyAll_prms]
    · exact hb
    · intro w hw
      simp only [List.mem_append, List.mem_cons, List.not_mem_nil, or_false] at hw
      rcases hw with ((rfl | rfl) | h) | rfl | rfl
      · simp [Wr.prmKey]
      · simp [Wr.prmKey]
      · obtain ⟨j, l, _, rfl⟩ := hwp h; simp [Wr.prmKey]
      · simp [Wr.prmKey]
      · simp [Wr.prmKey]
  · rcases applyAll_pubs_val hj with h | h
    · rw [hnone] at h; simp at h
    · rcases hmem h with h | h | h | h | ⟨j', l', h', h⟩ | h | h <;> cases h
      exact h'
  · refine Rest.of fun w hw => ?_
    rcases hmem hw with rfl | rfl | rfl | rfl | ⟨j', l', h', rfl⟩ | rfl | rfl <;> simp [Wr.sitKey, Wr.prmKey, Wr.pubKey] <;> omega
  · refine congrFun (funext fun k => applyAll_pris fun w hw => ?_) k
    rcases hmem hw with rfl | rfl | rfl | rfl | ⟨j', l', h', rfl⟩ | rfl | rfl <;> simp [Wr.priKey]
  · show (if old = new then f else _) = _
    rw [if_neg m.ne]
  · show (if old = new then g else _) = _
    rw [if_neg m.ne]

theorem eff_took {ks : Ks} (hk : Known ks) {a : IngestArgs} {pre : Nat} {all : List (List Nat)} {s : Sit} {ws : List Wr} (o : IngestOut ks a pre all s ws)
    (r : Option Res) : Eff (storedKeys ws) ks (ks.applyAll ws) (.call (.ingest a), r) := by
  have hnone : ∀ j, ks.pubs pre j = none := fun j => by
    cases h : ks.pubs pre j with
    | none => rfl
    | some l => exact absurd o.pres (hk pre (.inr (.inr ⟨j, by rw [h]; simp⟩)))
  obtain ⟨prm, pidx, rest, hw, _, _⟩ := o.first
  refine .took pre all a.iridx s o.stored o.pres (pres_written (v := pre) (by rw [hw]; simp)) (Rest.other fun w hw q hq => about_keys (o.about w hw) hq) ?_ o.sits (o.pubs hnone)
    o.old o.new o.nxt o.ridx (came_of fun k v h => absurd h (about_nopin o.about k v)) (fun k hkk => applyAll_pris_kept hkk (about_norem o.about k))
    (fun k hkk => applyAll_pris_stored hkk (about_norem o.about k)) (fun f => rfl) (fun g => rfl)
  exact prms_written (v := prm) (by rw [hw]; simp) fun hm => absurd (o.about _ hm) (by simp [Wr.about])

/-- All effects of safe inputs. -/
theorem safe_eff {env : Env} {n : Node} (hk : Kept n.ks) (hkn : Known n.ks) (henc : EncInv env n) {i : Inp} (hs : i.safe env n) :
    Eff (storedKeys (exec env n i.of).1) n.ks (n.step env i).1.ks (i, (n.step env i).2) := by
  obtain ⟨hp, hcode, hing⟩ := hs
  -- inputs told nothing of
  have reform : ∀ c, (∀ w ∈ (exec env n c).1, w.reforms n.ks) → (∀ f, Told.next f (.call c, some (exec env n c).2.2) = f) →
      (∀ g, Shown.next g (.call c, some (exec env n c).2.2) = g) →
      Eff (storedKeys (exec env n c).1) n.ks (n.ks.applyAll (exec env n c).1) (.call c, some (exec env n c).2.2) := by
    intro c hr ht hsh
    exact .quiet (Rest.reforms hr) (came_of fun k v h => (hr _ h).1) (fun k hkk => applyAll_pris_kept hkk fun hm => absurd (hr _ hm) (by simp [Wr.reforms]))
      (fun f p k h => .inl (by rw [ht] at h; exact h)) hsh
  cases i with
  | call c =>
    show Eff _ n.ks (n.ks.applyAll (exec env n c).1) (.call c, some (exec env n c).2.2)
    cases c with
    | openM s a p g x t => exact reform _ (fun w hw => openMgr_reforms hk hw) (fun f => rfl) fun g => rfl
    | updateAeid a s =>
      exact reform _ (fun w hw => by obtain ⟨mem, _, hw⟩ := withMgr_wr hw; exact updateAeid_reforms hk hw) (fun f => rfl) fun g => rfl
    | sign a b c =>
      exact reform _ (fun w hw => by obtain ⟨mem, _, hw⟩ := withMgr_wr hw; simp at hw) (fun f => rfl) fun g => rfl
    | incept a =>
      revert hcode
      show (exec env n (.incept a)).2.2 ≠ _ → Eff (storedKeys (exec env n (.incept a)).1) _ _ _
      refine exec_some (env := env) (P := fun ws r => r ≠ .err .code → Eff (storedKeys ws) n.ks (n.ks.applyAll ws) (.call (.incept a), some r))
        (fun _ => eff_noWrites (fun f p k h => .inl h) fun g => rfl) fun mem _ hcode => ?_
      dsimp only at hcode ⊢
      rcases incept_whole hkn (env := env) (mem := mem) (a := a) (fun h => hcode (by rw [h]; rfl)) with ⟨e, he⟩ | ⟨pidx, cr, pubs, nxts, h1, _, h2, he⟩
      · rw [he]; exact eff_noWrites (fun f p k h => .inl h) fun g => rfl
      · rw [he]
        have := eff_began hkn (enc := mem.enc) (cr := cr) (pidx := pidx) (nxts := nxts) h1 (x := (.call (.incept a), some (.keys ⟨pubs, nxts.map env.dig⟩)))
          (inceptAll mem.enc cr pidx (pubs.headD 0) pubs nxts).length (.inr ⟨List.take_length, fun f p hp => upd_ne _ _ hp, fun g => rfl⟩)
        rw [List.take_length] at this
        exact this
    | rotate pre a =>
      revert hcode
      show (exec env n (.rotate pre a)).2.2 ≠ _ → Eff (storedKeys (exec env n (.rotate pre a)).1) _ _ _
      refine exec_some (env := env) (P := fun ws r => r ≠ .err .code → Eff (storedKeys ws) n.ks (n.ks.applyAll ws) (.call (.rotate pre a), some r))
        (fun _ => eff_noWrites (fun f p k h => .inl h) fun g => rfl) fun mem _ hcode => ?_
      dsimp only at hcode ⊢
      rcases rotate_cases env n.ks mem pre a with ⟨e, he⟩ | ⟨prm, ps, v, nxts, o⟩
      · rw [he] at hcode ⊢
        refine eff_noWrites (fun f p k h => .inl ?_) fun g => rfl
        cases e <;> first | exact h | exact absurd rfl hcode
      · have := eff_rotated hk o (fun h => hcode (by rw [h]; rfl)) (.call (.rotate pre a)) (rotate env n.ks mem pre a).1.length (.inr ⟨rfl, List.take_length⟩)
        rw [List.take_length] at this
        exact this
    | replay pre adv er =>
      show Eff (storedKeys (exec env n (.replay pre adv er)).1) _ _ _
      refine exec_some (env := env) (P := fun ws r => Eff (storedKeys ws) n.ks (n.ks.applyAll ws) (.call (.replay pre adv er), some r))
        (eff_noWrites (fun f p k h => .inl h) fun g => by cases adv <;> rfl) fun mem _ => ?_
      dsimp only
      rcases replay_cases env n.ks mem pre adv er with ⟨e, he⟩ | ⟨prm, ps, v, h1, h2, ⟨rfl, pubs, h4, h5, he⟩ | ⟨rfl, h5, he⟩⟩
      · rw [he]; exact eff_noWrites (fun f p k h => .inl h) fun g => by cases adv <;> rfl
      · rw [he]
        have := eff_replayed hk h1 h2 h4 h5 (er := er) (.call (.replay pre true er)) (replayAll pre ps pubs er).length (.inr ⟨rfl, List.take_length⟩)
        rw [List.take_length] at this
        exact this
      · rw [he]
        refine eff_noWrites (fun f p k h => ?_) fun g => rfl
        have h : upd f pre (some ⟨v, ps.nxt.pubs.map env.dig⟩) p = some k := h
        by_cases hpp : p = pre
        · subst hpp
          exact .inr ⟨⟨_, _, _, rfl⟩, ps, by rw [h1]; simp, h2, (readPris_ok hk h5).2⟩
        · rw [upd_ne _ _ hpp] at h; exact .inl h
    | ingest a =>
      show Eff (storedKeys (exec env n (.ingest a)).1) _ _ _
      have hmgr := henc.mgr
      revert hmgr
      have hkk := @exec_some env n (fun mem => ((ingest env n.ks mem a).1, mem, .ofIngest (ingest env n.ks mem a).2))
        (fun ws r => (∀ mem, n.mem = some mem → n.ks.salt ≠ none ∧ mem.enc = n.ks.aeid.map env.boxA ∧ Fits env n.ks.aeid mem.seed ∧ mem.dec = mem.seed) →
          Eff (storedKeys ws) n.ks (n.ks.applyAll ws) (.call (.ingest a), some r))
        (fun _ => eff_noWrites (fun f p k h => .inl h) fun g => rfl) fun mem hm hmgr => ?_
      · exact hkk
      dsimp only
      have hnone : mem.enc = none := by
        rw [(hmgr mem hm).2.1]
        have hp : n.ks.aeid = none := hp
        rw [hp]; rfl
      rcases ingest_out (env := env) (ks := n.ks) hnone (a := a) with ⟨e, he, hw⟩ | h
      · have hpin : ∀ k v, Wr.prisPin k v ∉ (ingest env n.ks mem a).1 := fun k v hm => by
          obtain ⟨q, _, _, hta⟩ := ingest_takes (env := env) (ks := n.ks) (mem := mem) (a := a)
          rcases hta _ hm with h | h <;> exact absurd h (by simp [Wr.about])
        exact .quiet (fun p => Rest.of fun w hm => by rw [(hw w hm).1, (hw w hm).2.1, (hw w hm).2.2.1]; simp) (came_of fun k v h => absurd h (hpin k v))
          (fun k hkk => applyAll_pris_kept hkk fun hm => (hw _ hm).2.2.2 k rfl) (fun f p k h => .inl h) fun g => rfl
      · obtain ⟨pre, all, s, hr, o⟩ := h (hing a rfl)
        exact eff_took hkn o _
    | move old new =>
      show Eff (storedKeys (exec env n (.move old new)).1) _ _ _
      refine exec_some (env := env) (P := fun ws r => Eff (storedKeys ws) n.ks (n.ks.applyAll ws) (.call (.move old new), some r))
        (eff_noWrites (fun f p k h => .inl h) fun g => rfl) fun mem _ => ?_
      dsimp only
      rcases move_cases n.ks old new with ⟨r, hr, hrr⟩ | ⟨prm, sit, wp, m⟩
      · rw [hr]
        cases r with
        | error e => exact eff_noWrites (fun f p k h => .inl h) fun g => rfl
        | ok u =>
          have he := hrr rfl
          subst he
          refine eff_noWrites (fun f p k h => .inl ?_) fun g => ?_
          · have h : (if old = old then f else _) p = some k := h
            rw [if_pos rfl] at h; exact h
          · show (if old = old then g else _) = g
            rw [if_pos rfl]
      · exact eff_moved hkn m
  | crash c k =>
    show Eff _ n.ks (n.ks.applyAll ((exec env n c).1.take k)) (.crash c k, none)
    cases c with
    | openM s a p g x t => exact absurd hp (by simp [Inp.proper])
    | updateAeid a s => exact absurd hp (by simp [Inp.proper])
    | ingest a => exact absurd hp (by simp [Inp.proper])
    | move a b => exact absurd hp (by simp [Inp.proper])
    | sign a b c =>
      have : (exec env n (.sign a b c)).1 = [] := by
        rcases withMgr_cases n (fun mem => ([], mem, .ofSigs (sign env n.ks mem a b c))) with ⟨_, he⟩ | ⟨mem, _, he⟩ <;> simp only [exec, he]
      rw [this, List.take_nil]
      exact eff_noWrites (fun f p k h => .inl h) fun g => rfl
    | incept a =>
      revert hcode
      show (exec env n (.incept a)).2.2 ≠ _ → Eff (storedKeys (exec env n (.incept a)).1) _ _ _
      refine exec_some (env := env) (P := fun ws r => r ≠ .err .code → Eff (storedKeys ws) n.ks (n.ks.applyAll (ws.take k)) (.crash (.incept a) k, none))
        (fun _ => by rw [List.take_nil]; exact eff_noWrites (fun f p k h => .inl h) fun g => rfl) fun mem _ hcode => ?_
      dsimp only at hcode ⊢
      rcases incept_whole hkn (env := env) (mem := mem) (a := a) (fun h => hcode (by rw [h]; rfl)) with ⟨e, he⟩ | ⟨pidx, cr, pubs, nxts, h1, _, h2, he⟩
      · rw [he, List.take_nil]; exact eff_noWrites (fun f p k h => .inl h) fun g => rfl
      · rw [he]
        exact eff_began hkn h1 k (.inl ⟨⟨_, _, rfl⟩, fun f => rfl, fun g => rfl⟩)
    | rotate pre a =>
      revert hcode
      show (exec env n (.rotate pre a)).2.2 ≠ _ → Eff (storedKeys (exec env n (.rotate pre a)).1) _ _ _
      have hq : ∀ N, Eff N n.ks n.ks (.crash (.rotate pre a) k, none) := fun N =>
        eff_noWrites (fun f p k h => .inl (by
          have h : upd f pre none p = some k := h
          by_cases hpp : p = pre
          · subst hpp; simp at h
          · rw [upd_ne _ _ hpp] at h; exact h)) fun g => rfl
      refine exec_some (env := env) (P := fun ws r => r ≠ .err .code → Eff (storedKeys ws) n.ks (n.ks.applyAll (ws.take k)) (.crash (.rotate pre a) k, none))
        (fun _ => by rw [List.take_nil]; exact hq _) fun mem _ hcode => ?_
      dsimp only at hcode ⊢
      rcases rotate_cases env n.ks mem pre a with ⟨e, he⟩ | ⟨prm, ps, v, nxts, o⟩
      · rw [he, List.take_nil]; exact hq _
      · exact eff_rotated hk o (fun h => hcode (by rw [h]; rfl)) (.crash (.rotate pre a) k) k (.inl rfl)
    | replay pre adv er =>
      show Eff (storedKeys (exec env n (.replay pre adv er)).1) _ _ _
      have hq : ∀ N, Eff N n.ks n.ks (.crash (.replay pre adv er) k, none) := fun N =>
        eff_noWrites (fun f p k h => .inl (by
          have h : upd f pre none p = some k := h
          by_cases hpp : p = pre
          · subst hpp; simp at h
          · rw [upd_ne _ _ hpp] at h; exact h)) fun g => by cases adv <;> rfl
      refine exec_some (env := env) (P := fun ws r => Eff (storedKeys ws) n.ks (n.ks.applyAll (ws.take k)) (.crash (.replay pre adv er) k, none))
        (by rw [List.take_nil]; exact hq _) fun mem _ => ?_
      dsimp only
      rcases replay_cases env n.ks mem pre adv er with ⟨e, he⟩ | ⟨prm, ps, v, h1, h2, ⟨rfl, pubs, h4, h5, he⟩ | ⟨rfl, h5, he⟩⟩
      · rw [he, List.take_nil]; exact hq _
      · rw [he]; exact eff_replayed hk h1 h2 h4 h5 (er := er) (.crash (.replay pre true er) k) k (.inl rfl)
      · rw [he, List.take_nil]; exact hq _

end Verif.Mgr
