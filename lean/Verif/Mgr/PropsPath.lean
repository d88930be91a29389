import Verif.Mgr.Same

/-!
# C72: keys derived from a salt are never used twice
-/

namespace Verif.Mgr

open Verif.Kel (upd)

/-! ## Paths -/

theorem hexAux_fuel : ∀ (f g n : Nat), n < f → n < g → hexAux f n = hexAux g n
  | 0, _, _, h, _ => by omega
  | _ + 1, 0, _, _, h => by omega
  | f + 1, g + 1, n, hf, hg => by
    unfold hexAux
    split
    · rfl
    · rw [hexAux_fuel f g (n / 16) (by omega) (by omega)]

theorem hex_eq (n : Nat) : hex n = if n < 16 then [hexDigit n] else hex (n / 16) ++ [hexDigit (n % 16)] := by
  unfold hex
  conv => lhs; unfold hexAux
  split
  · rfl
  · rw [hexAux_fuel n (n / 16 + 1) (n / 16) (by omega) (by omega)]

theorem hex_ne (n : Nat) : hex n ≠ [] := by
  rw [hex_eq]; split <;> simp

theorem hexDigit_inj {a b : Nat} (ha : a < 16) (hb : b < 16) (h : hexDigit a = hexDigit b) : a = b := by
  have : ∀ a < 16, ∀ b < 16, hexDigit a = hexDigit b → a = b := by decide
  exact this a ha b hb h

theorem hex_inj : ∀ (n m : Nat), hex n = hex m → n = m := by
  intro n
  induction n using Nat.strongRecOn with
  | ind n ih =>
    intro m h
    rw [hex_eq n, hex_eq m] at h
    by_cases hn : n < 16 <;> by_cases hm : m < 16
    · rw [if_pos hn, if_pos hm] at h
      simp at h
      exact hexDigit_inj hn hm h
    · rw [if_pos hn, if_neg hm] at h
      have h1 := congrArg List.length h
      have h2 := List.length_pos_iff.2 (hex_ne (m / 16))
      simp only [List.length_cons, List.length_nil, List.length_append] at h1
      omega
    · rw [if_neg hn, if_pos hm] at h
      have h1 := congrArg List.length h
      have h2 := List.length_pos_iff.2 (hex_ne (n / 16))
      simp only [List.length_cons, List.length_nil, List.length_append] at h1
      omega
    · rw [if_neg hn, if_neg hm] at h
      obtain ⟨h1, h2⟩ := List.append_inj' h rfl
      have := ih (n / 16) (by omega) (m / 16) h1
      have := hexDigit_inj (a := n % 16) (b := m % 16) (by omega) (by omega) (by simpa using h2)
      omega

theorem hex_mono : ∀ (m n : Nat), n ≤ m → (hex n).length ≤ (hex m).length := by
  intro m
  induction m using Nat.strongRecOn with
  | ind m ih =>
    intro n h
    rw [hex_eq n]
    split
    · exact List.length_pos_iff.2 (hex_ne m)
    · rw [hex_eq m, if_neg (by omega)]
      have := ih (m / 16) (by omega) (n / 16) (by omega)
      simp; omega

/-- Within a sequence of keys, where both indices grow, paths differ. -/
theorem path_inj {st : List Char} {px r k r' k' : Nat} (hr : r ≤ r') (hk : k ≤ k') (h : path st px r k = path st px r' k') : r = r' ∧ k = k' := by
  unfold path at h
  rw [List.append_assoc, List.append_assoc] at h
  have h := List.append_cancel_left h
  have h1 := hex_mono _ _ hr
  have h2 := hex_mono _ _ hk
  have hl := congrArg List.length h
  simp at hl
  obtain ⟨h3, h4⟩ := List.append_inj h (by omega)
  exact ⟨hex_inj _ _ h3, hex_inj _ _ h4⟩

/-- Paths of sequences with indices of the same number of digits differ. -/
theorem path_across {px px' r k r' k' : Nat} (hl : (hex px).length = (hex px').length) (h : path [] px r k = path [] px' r' k') : px = px' := by
  unfold path at h
  simp only [if_true, List.append_assoc] at h
  exact hex_inj _ _ (List.append_inj h hl).1

/-! ## Sequences -/

/-- Key `key` is derived from salt `x` with the path for rotation `r` and key `k` of the sequence. -/
def Derived (env : Env) (x : Nat) (prm : Prm) (r k key : Nat) : Prop :=
  ∃ c t ti te, key = env.derive x (path prm.stem prm.pidx r k) c t ti te

/-- Derivation never gives the same key for different paths. -/
def Env.NoCollision (env : Env) : Prop :=
  ∀ x p p' c c' t t' ti ti' te te', env.derive x p c t ti te = env.derive x p' c' t' ti' te' → p = p'

theorem Derived.inj {env : Env} (hc : env.NoCollision) {x : Nat} {prm : Prm} {r k r' k' key : Nat} (h : Derived env x prm r k key)
    (h' : Derived env x prm r' k' key) (hr : r ≤ r') (hk : k ≤ k') : r = r' ∧ k = k' := by
  obtain ⟨c, t, ti, te, rfl⟩ := h
  obtain ⟨c', t', ti', te', he⟩ := h'
  exact path_inj hr hk (hc _ _ _ _ _ _ _ _ _ _ _ he)

/-- The keys shown so far are different, derived with indices below those of the next keys, which are derived with theirs; nothing is stored beyond. -/
structure Seq (env : Env) (prm : Prm) (s : Sit) (sh : List (List Nat)) (pubs : Nat → Option (List Nat)) : Prop where
  salted : ∃ x t, prm.salt = some t ∧ t.holds x ∧
    (∀ key ∈ sh.flatten, ∃ r k, r < s.nxt.ridx ∧ k < s.nxt.kidx ∧ Derived env x prm r k key) ∧
    (∀ i key, s.nxt.pubs[i]? = some key → Derived env x prm s.nxt.ridx (s.nxt.kidx + i) key)
  nodup : sh.flatten.Nodup
  none : ∀ j, s.nxt.ridx < j → pubs j = none

theorem holds_inj {s : Sec} {x y : Nat} (h : s.holds x) (h' : s.holds y) : x = y := by
  rcases h with rfl | ⟨b, rfl⟩ <;> rcases h' with h' | ⟨b', h'⟩ <;> simp at h'
  · exact h'
  · exact h'.2

theorem Seq.like {env : Env} {a b : Prm} {s : Sit} {sh : List (List Nat)} {pubs : Nat → Option (List Nat)} (h : Seq env b s sh pubs) (hl : a.like b) :
    Seq env a s sh pubs := by
  rcases hl with rfl | ⟨s1, t1, y, h1, h2, h3, rfl⟩
  · exact h
  · obtain ⟨x, t, g1, g2, g3, g4⟩ := h.salted
    rw [h1] at g1; simp at g1; subst g1
    have := holds_inj h2 g2
    subst this
    exact ⟨⟨y, t1, rfl, h3, g3, g4⟩, h.nodup, h.none⟩

theorem Prm.like.algo {a b : Prm} (h : a.like b) : a.algo = b.algo := by
  rcases h with rfl | ⟨_, _, _, _, _, _, rfl⟩ <;> rfl

theorem pairwise_idx {l : List Nat} (h : ∀ (i j key : Nat), l[i]? = some key → l[j]? = some key → i ≤ j → i = j) : l.Nodup := by
  rw [List.Nodup, List.pairwise_iff_getElem]
  intro i j hi hj hij he
  have := h i j l[j] (by rw [List.getElem?_eq_getElem hi, he]) (List.getElem?_eq_getElem hj) (by omega)
  omega

/-- The next keys are different from each other and from those shown. -/
theorem Seq.next {env : Env} (hc : env.NoCollision) {prm : Prm} {s : Sit} {sh : List (List Nat)} {pubs : Nat → Option (List Nat)}
    (h : Seq env prm s sh pubs) : (s.nxt.pubs ++ sh.flatten).Nodup := by
  obtain ⟨x, t, g1, g2, g3, g4⟩ := h.salted
  rw [List.nodup_append]
  refine ⟨pairwise_idx fun i j key hi hj hij => ?_, h.nodup, fun a ha b hb hab => ?_⟩
  · have := (Derived.inj hc (g4 i key hi) (g4 j key hj) (Nat.le_refl _) (by omega)).2
    omega
  · subst hab
    obtain ⟨i, hi⟩ := List.mem_iff_getElem?.1 ha
    obtain ⟨r, k, hr, hk, hd⟩ := g3 a hb
    have := (Derived.inj hc hd (g4 i a hi) (by omega) (by omega)).1
    omega

/-- A rotation, shown or not. -/
theorem Seq.turn {env : Env} (hc : env.NoCollision) {prm : Prm} {s : Sit} {sh sh' : List (List Nat)} {pubs pubs' : Nat → Option (List Nat)}
    (h : Seq env prm s sh pubs) {nxts : List Nat} (hsh : sh' = sh ∨ sh' = s.nxt.pubs :: sh) (hp : ∀ j, s.nxt.ridx + 1 < j → pubs' j = pubs j)
    (hn : ∀ x t, prm.salt = some t → t.holds x → ∀ i key, nxts[i]? = some key → Derived env x prm (s.nxt.ridx + 1) (s.nxt.kidx + s.nxt.pubs.length + i) key) :
    Seq env prm ⟨s.new, s.nxt, ⟨nxts, s.nxt.ridx + 1, s.nxt.kidx + s.nxt.pubs.length⟩⟩ sh' pubs' := by
  have hnd := h.next hc
  obtain ⟨x, t, g1, g2, g3, g4⟩ := h.salted
  refine ⟨⟨x, t, g1, g2, fun key hk => ?_, hn x t g1 g2⟩, ?_, fun j hj => ?_⟩
  · have old : key ∈ sh.flatten → ∃ r k, r < s.nxt.ridx + 1 ∧ k < s.nxt.kidx + s.nxt.pubs.length ∧ Derived env x prm r k key := by
      intro hk
      obtain ⟨r, k, h1, h2, h3⟩ := g3 key hk
      exact ⟨r, k, by omega, by omega, h3⟩
    rcases hsh with rfl | rfl
    · exact old hk
    · rw [List.flatten_cons, List.mem_append] at hk
      rcases hk with hk | hk
      · obtain ⟨i, hi⟩ := List.mem_iff_getElem?.1 hk
        have hil : i < s.nxt.pubs.length := by
          rcases Nat.lt_or_ge i s.nxt.pubs.length with g | g
          · exact g
          · rw [List.getElem?_eq_none g] at hi; simp at hi
        exact ⟨s.nxt.ridx, s.nxt.kidx + i, by show _ < s.nxt.ridx + 1; omega, by show _ < s.nxt.kidx + s.nxt.pubs.length; omega, g4 i key hi⟩
      · exact old hk
  · rcases hsh with rfl | rfl
    · exact h.nodup
    · rw [List.flatten_cons]; exact hnd
  · dsimp only at hj
    rw [hp j hj]; exact h.none j (by omega)

theorem create_derived {env : Env} {cr : Creator} {x : Nat} (hx : cr.salt = some x) {rnd : Nat → Nat} {codes : List Nat} {prm : Prm}
    (hs : cr.stem = prm.stem) {r k : Nat} {tr temp : Bool} {i key : Nat} (h : (cr.create env rnd codes prm.pidx r k tr temp)[i]? = some key) :
    Derived env x prm r (k + i) key := by
  unfold Creator.create at h
  rw [List.getElem?_mapIdx, hx] at h
  cases hc : codes[i]? with
  | none => rw [hc] at h; simp at h
  | some c =>
    rw [hc] at h
    simp at h
    exact ⟨c, tr, cr.tier, temp, by rw [← h, hs]⟩

theorem makeCreator_salty {algo : Option Algo} {t : Option Sec} {st : List Char} {ti : Option Nat} {rs : Nat} {cr : Creator}
    (h : makeCreator algo t st ti rs = .ok cr) (hs : cr.algo = .salty) : cr.stem = st ∧ ∃ x, cr.salt = some x ∧ ∀ y, t = some (.plain y) → x = y := by
  unfold makeCreator at h
  split at h
  · simp at h; subst h; simp at hs
  · split at h
    · simp at h; subst h; exact ⟨rfl, rs, rfl, by simp⟩
    · rename_i y
      simp at h; subst h; exact ⟨rfl, y, rfl, by simp⟩
    · simp at h
  · simp at h

theorem makeCreator_algo {algo : Algo} {t : Option Sec} {st : List Char} {ti : Option Nat} {rs : Nat} {cr : Creator}
    (h : makeCreator (some algo) t st ti rs = .ok cr) : cr.algo = algo := by
  unfold makeCreator at h
  split at h
  · rename_i he; simp at h he; subst h; exact he.symm
  · rename_i he
    split at h
    · simp at h he; subst h; exact he.symm
    · simp at h he; subst h; exact he.symm
    · simp at h
  · simp at h

/-- The next keys of a rotation are derived from the salt of the sequence. -/
theorem RotateOut.derived {env : Env} {ks : Ks} {mem : Mem} {pre : Nat} {a : RotateArgs} {prm : Prm} {ps : Sit} {v nxts : List Nat}
    {o : List Wr × Except Err Keys} (h : RotateOut env ks mem pre a prm ps v nxts o) (hs : prm.algo = .salty) {x : Nat} {t : Sec} (ht : prm.salt = some t)
    (hx : t.holds x) {i key : Nat} (hi : nxts[i]? = some key) : Derived env x prm (ps.nxt.ridx + 1) (ps.nxt.kidx + ps.nxt.pubs.length + i) key := by
  obtain ⟨t', cr, ncodes, h1, h2, _, h4⟩ := h.made
  have hcr : cr.algo = .salty := by rw [makeCreator_algo h2]; exact hs
  obtain ⟨hst, y, hy, hyt⟩ := makeCreator_salty h2 hcr
  have hxy : y = x := by
    apply hyt
    unfold prmSalt at h1
    rw [ht] at h1
    dsimp only at h1
    split at h1
    · split at h1
      · simp at h1
      · split at h1
        · rename_i z hz
          simp at h1; subst h1
          rw [unlock_holds hz hx]
        · simp at h1
    · split at h1
      · simp at h1; subst h1
        rcases hx with hx | ⟨b, hx⟩ <;> simp at hx
        rw [hx]
      · simp at h1
  subst hxy
  rw [h4] at hi
  exact create_derived hy hst hi

/-! ## The invariant -/

def SeqInv (env : Env) (f : Nat → Bool) (sh : Nat → List (List Nat)) (ks : Ks) : Prop :=
  ∀ p, f p = true → Claimed ks p ∧ ∀ prm s, ks.prms.at' p = some prm → ks.sits p = some s → prm.algo = .salty → Seq env prm s (sh p) (ks.pubs p)

theorem SeqInv.same {env : Env} {f : Nat → Bool} {sh sh' : Nat → List (List Nat)} {ks ks' : Ks} {p : Nat} (h : SeqInv env f sh ks) (hp : f p = true)
    (hs : Same ks ks' p) (hc : Claimed ks' p) (hsh : sh' p = sh p) :
    Claimed ks' p ∧ ∀ prm s, ks'.prms.at' p = some prm → ks'.sits p = some s → prm.algo = .salty → Seq env prm s (sh' p) (ks'.pubs p) := by
  refine ⟨hc, fun prm s h1 h2 h3 => ?_⟩
  obtain ⟨b, hb, hl⟩ := hs.prms prm h1
  rw [hs.sits] at h2
  rw [hs.pubs, hsh]
  exact ((h p hp).2 b s hb h2 (hl.algo ▸ h3)).like hl

theorem claimed_take {env : Env} {n : Node} (hk : Kept n.ks) {p : Nat} (h : Claimed n.ks p) (c : Call) (k : Nat) :
    Claimed (n.ks.applyAll ((exec env n c).1.take k)) p :=
  h.applyAll fun _ hq => exec_rem hk _ (List.mem_of_mem_take hq)

/-- Some writes of a rotation: none, or the new situation and perhaps the new key set. -/
theorem rotate_part {env : Env} {ks : Ks} {mem : Mem} {pre : Nat} {a : RotateArgs} {prm : Prm} {ps : Sit} {v nxts : List Nat}
    {o : List Wr × Except Err Keys} (h : RotateOut env ks mem pre a prm ps v nxts o) (k : Nat) :
    o.1.take k = [] ∨ ((ks.applyAll (o.1.take k)).sits pre = some ⟨ps.new, ps.nxt, ⟨nxts, ps.nxt.ridx + 1, ps.nxt.kidx + ps.nxt.pubs.length⟩⟩ ∧
      ∀ j, j ≠ ps.nxt.ridx + 1 → (ks.applyAll (o.1.take k)).pubs pre j = ks.pubs pre j) := by
  have hsub : o.1.take k <+: rotateAll mem.enc pre ps nxts a.erase := (List.take_prefix k o.1).trans h.part
  generalize o.1.take k = ws at hsub
  cases ws with
  | nil => exact .inl rfl
  | cons w ws =>
    obtain ⟨rest, hr⟩ := hsub
    have hw : w = Wr.sits pre ⟨ps.new, ps.nxt, ⟨nxts, ps.nxt.ridx + 1, ps.nxt.kidx + ps.nxt.pubs.length⟩⟩ ∧
        ws ++ rest = puts mem.enc nxts ++ [.pubsPut pre (ps.nxt.ridx + 1) nxts] ++ (if a.erase then ps.old.pubs.map .prisRem else []) := by
      simp only [rotateAll, List.cons_append, List.nil_append, List.cons.injEq] at hr
      exact hr
    obtain ⟨rfl, hws⟩ := hw
    have hmem : ∀ w ∈ ws, w.sitKey = none ∧ ∀ j l, w = .pubsPut pre j l → j = ps.nxt.ridx + 1 := by
      intro w hw
      have hw : w ∈ ws ++ rest := List.mem_append_left _ hw
      rw [hws] at hw
      simp only [List.mem_append, List.mem_cons, List.not_mem_nil, or_false] at hw
      rcases hw with (hw | rfl) | hw
      · obtain ⟨k, _, rfl⟩ := mem_puts hw; exact ⟨rfl, by simp⟩
      · exact ⟨rfl, by simp_all⟩
      · split at hw
        · obtain ⟨k, _, rfl⟩ := List.mem_map.1 hw; exact ⟨rfl, by simp⟩
        · simp at hw
    refine .inr ⟨?_, fun j hj => ?_⟩
    · rw [applyAll_cons, applyAll_sits fun w hw => by rw [(hmem w hw).1]; simp]
      simp [Ks.apply]
    · rw [applyAll_cons]
      refine applyAll_ind (P := fun k => k.pubs pre j = ks.pubs pre j) (fun w hw k' hk' => ?_) rfl
      by_cases hkk : w.pubKey = some pre
      · cases w with
        | pubsPut q ri l =>
          simp only [Wr.pubKey, Option.some.injEq] at hkk
          subst hkk
          have := (hmem _ hw).2 ri l rfl
          simp only [Ks.apply]
          split
          · exact hk'
          · show upd k'.pubs q (upd (k'.pubs q) ri (some l)) q j = _
            rw [upd_same, upd_ne _ _ (by omega)]; exact hk'
        | _ => simp [Wr.pubKey] at hkk
      · rw [apply_pubs hkk]; exact hk'

/-- Parameters of `p` are as before after writes of a rotation or replay. -/
theorem turns_prms {ks : Ks} {ws : List Wr} {pre p : Nat} {enc : Option Nat} (h : ∀ w ∈ ws, w.turns pre enc) : (ks.applyAll ws).prms.at' p = ks.prms.at' p :=
  applyAll_prms fun w hw => by rw [(h w hw).prmKey]; simp

theorem SeqInv.turned {env : Env} (hnc : env.NoCollision) {ks : Ks} {mem : Mem} {f : Nat → Bool} {sh : Nat → List (List Nat)} (h : SeqInv env f sh ks) {pre : Nat}
    (hf : f pre = true) (a : RotateArgs) (k : Nat) (sh' : List (List Nat))
    (hsh : sh' = sh pre ∨ ∃ v nx, (rotate env ks mem pre a).2 = .ok ⟨v, nx⟩ ∧ sh' = v :: sh pre ∧ (rotate env ks mem pre a).1.take k ≠ [])
    (hk : Kept ks) :
    ∀ prm s, (ks.applyAll ((rotate env ks mem pre a).1.take k)).prms.at' pre = some prm → (ks.applyAll ((rotate env ks mem pre a).1.take k)).sits pre = some s →
      prm.algo = .salty → Seq env prm s sh' ((ks.applyAll ((rotate env ks mem pre a).1.take k)).pubs pre) := by
  intro prm s h1 h2 h3
  rw [turns_prms fun w hw => rotate_turns (List.mem_of_mem_take hw)] at h1
  have same : (rotate env ks mem pre a).1.take k = [] → Seq env prm s sh' ((ks.applyAll ((rotate env ks mem pre a).1.take k)).pubs pre) := by
    intro hn
    rw [hn] at h2 ⊢
    rcases hsh with rfl | ⟨_, _, _, _, hne⟩
    · exact (h pre hf).2 prm s h1 h2 h3
    · exact absurd hn hne
  rcases rotate_cases env ks mem pre a with ⟨e, he⟩ | ⟨prm', ps, v, nxts, o⟩
  · exact same (by rw [he]; simp)
  · rcases rotate_part o k with hn | ⟨hs, hp⟩
    · exact same hn
    · rw [hs] at h2
      simp at h2; subst h2
      have hprm := o.hprm
      rw [h1] at hprm; simp at hprm; subst hprm
      refine ((h pre hf).2 prm ps h1 o.hsit h3).turn hnc ?_ (fun j hj => hp j (by omega)) fun x t ht hx i key hi => o.derived h3 ht hx hi
      rcases hsh with hsh | ⟨v', nx, hr, hsh, _⟩
      · exact .inl hsh
      · right
        rcases o.outcome with ⟨ho, _⟩ | ⟨ho, _⟩ <;> rw [ho] at hr <;> simp at hr
        rw [hsh, ← hr.1, (readPris_ok hk o.read).1]

theorem SeqInv.replayed {env : Env} {ks : Ks} {mem : Mem} {f : Nat → Bool} {sh : Nat → List (List Nat)} (h : SeqInv env f sh ks) {pre : Nat}
    (hf : f pre = true) (adv er : Bool) :
    (adv = true → (∀ prm, ks.prms.at' pre = some prm → prm.algo = .salty) → ∃ e, replay env ks mem pre adv er = ([], .error e)) ∧
      (adv = false → (replay env ks mem pre adv er).1 = []) := by
  rcases replay_cases env ks mem pre adv er with ⟨e, he⟩ | ⟨prm, ps, v, h1, h2, ⟨rfl, pubs, h4, _⟩ | ⟨rfl, _, he⟩⟩
  · exact ⟨fun _ _ => ⟨e, he⟩, fun _ => by rw [he]⟩
  · refine ⟨fun _ hs => ?_, by simp⟩
    have := ((h pre hf).2 prm ps h1 h2 (hs prm h1)).none (ps.nxt.ridx + 1) (by omega)
    rw [h4] at this; simp at this
  · exact ⟨by simp, fun _ => by rw [he]⟩

theorem inceptAll_pubs {ks : Ks} {enc : Option Nat} {cr : Creator} {pidx pre : Nat} {pubs nxts : List Nat} {j : Nat} (hj : 1 < j) :
    (ks.applyAll (inceptAll enc cr pidx pre pubs nxts)).pubs pre j = ks.pubs pre j := by
  cases h : ks.pubs pre j with
  | none =>
    cases hn : (ks.applyAll (inceptAll enc cr pidx pre pubs nxts)).pubs pre j with
    | none => rfl
    | some l =>
      exfalso
      have hne : (ks.applyAll (inceptAll enc cr pidx pre pubs nxts)).pubs pre j ≠ none := by rw [hn]; simp
      rcases applyAll_pubs_or hne with hne | ⟨l', hm⟩
      · exact hne h
      · simp only [inceptAll, List.mem_append, List.mem_cons, List.not_mem_nil, or_false, reduceCtorEq, Wr.pubsPut.injEq, false_or] at hm
        rcases hm with ((hm | hm) | hm) | hm
        · obtain ⟨k, _, he⟩ := mem_puts hm; cases he
        · omega
        · obtain ⟨k, _, he⟩ := mem_puts hm; cases he
        · omega
  | some l =>
    refine applyAll_ind (P := fun k => k.pubs pre j = some l) (fun w _ k hk => ?_) h
    by_cases hkk : w.pubKey = some pre
    · cases w with
      | pubsPut q ri l' =>
        simp only [Wr.pubKey, Option.some.injEq] at hkk
        subst hkk
        simp only [Ks.apply]
        split
        · exact hk
        · rename_i hn
          show upd k.pubs q (upd (k.pubs q) ri (some l')) q j = _
          rw [upd_same]
          by_cases hjr : j = ri
          · subst hjr; rw [hk] at hn; simp at hn
          · rw [upd_ne _ _ hjr]; exact hk
      | _ => simp [Wr.pubKey] at hkk
    · rw [apply_pubs hkk]; exact hk

theorem inceptAll_prms (ks : Ks) (enc : Option Nat) (cr : Creator) (pidx pre : Nat) (pubs nxts : List Nat) :
    (ks.applyAll (inceptAll enc cr pidx pre pubs nxts)).prms.at' pre = some ⟨pidx, cr.algo, cr.salt.map (lock enc), cr.stem, cr.tier⟩ := by
  unfold inceptAll
  rw [List.append_assoc, List.append_assoc, List.append_assoc, applyAll_append, applyAll_prms]
  · simp [Ks.apply, tbl_pin_at]
  · intro w hw
    simp only [List.mem_append, List.mem_cons, List.not_mem_nil, or_false] at hw
    rcases hw with hw | rfl | hw | rfl
    · obtain ⟨k, _, rfl⟩ := mem_puts hw; simp [Wr.prmKey]
    · simp [Wr.prmKey]
    · obtain ⟨k, _, rfl⟩ := mem_puts hw; simp [Wr.prmKey]
    · simp [Wr.prmKey]

theorem Claimed.noPubs {ks : Ks} (h : Tidy ks) {p : Nat} (hp : ks.pres p = none) (hr : ks.prms.at' p = none) (j : Nat) : ks.pubs p j = none := by
  cases hj : ks.pubs p j with
  | none => rfl
  | some l =>
    rcases h p j (by rw [hj]; simp) with hc | hc
    · exact absurd hp hc
    · exact absurd hr hc

/-- A new sequence. -/
theorem seq_incept {env : Env} (hnc : env.NoCollision) {ks : Ks} (htidy : Tidy ks) {mem : Mem} {a : InceptArgs} {k : Keys} (hr : (incept env ks mem a).2 = .ok k) :
    ∀ prm s, (ks.applyAll (incept env ks mem a).1).prms.at' (k.verfers.headD 0) = some prm → (ks.applyAll (incept env ks mem a).1).sits (k.verfers.headD 0) = some s →
      prm.algo = .salty → Seq env prm s [k.verfers] ((ks.applyAll (incept env ks mem a).1).pubs (k.verfers.headD 0)) := by
  rcases incept_cases env ks mem a with ⟨e, hi⟩ | ⟨t, pidx, cr, icodes, ncodes, _, _, hcr, _, _, hi⟩
  · rw [hi] at hr; simp at hr
  · rw [hi] at hr ⊢
    generalize hpubs : cr.create env a.rnd icodes pidx 0 0 a.tr a.temp = pubs at hr ⊢
    generalize hnxts : cr.create env (fun i => a.rnd (icodes.length + i)) ncodes pidx 1 icodes.length a.tr a.temp = nxts at hr ⊢
    have o := inceptWr_out env ks mem cr pidx pubs nxts
    obtain ⟨rfl, hne, hw, hprm, hsit⟩ := o.ok k hr
    have hfresh : ks.pres (pubs.headD 0) = none := o.fresh (by rw [hw]; simp [inceptAll])
    dsimp only
    rw [hw]
    intro prm s h1 h2 h3
    rw [inceptAll_prms] at h1
    rw [inceptAll_sits] at h2
    simp only [Option.some.injEq] at h1 h2
    subst h1; subst h2
    have hlen : pubs.length = icodes.length := by rw [← hpubs]; simp [Creator.create]
    obtain ⟨hst, x, hx, _⟩ := makeCreator_salty hcr h3
    have hp : ∀ i key, pubs[i]? = some key → Derived env x ⟨pidx, cr.algo, cr.salt.map (lock mem.enc), cr.stem, cr.tier⟩ 0 (0 + i) key := by
      intro i key hik
      rw [← hpubs] at hik
      exact create_derived (prm := ⟨pidx, cr.algo, cr.salt.map (lock mem.enc), cr.stem, cr.tier⟩) hx rfl hik
    have hn : ∀ i key, nxts[i]? = some key → Derived env x ⟨pidx, cr.algo, cr.salt.map (lock mem.enc), cr.stem, cr.tier⟩ 1 (pubs.length + i) key := by
      intro i key hik
      rw [← hnxts] at hik
      rw [hlen]
      exact create_derived (prm := ⟨pidx, cr.algo, cr.salt.map (lock mem.enc), cr.stem, cr.tier⟩) hx rfl hik
    refine ⟨⟨x, lock mem.enc x, by simp [hx], lock_holds _ _, fun key hk => ?_, hn⟩, ?_, fun j hj => ?_⟩
    · simp at hk
      obtain ⟨i, hi⟩ := List.mem_iff_getElem?.1 hk
      have hil : i < pubs.length := by
        rcases Nat.lt_or_ge i pubs.length with g | g
        · exact g
        · rw [List.getElem?_eq_none g] at hi; simp at hi
      exact ⟨0, 0 + i, by simp, by simpa using hil, hp i key hi⟩
    · simp only [List.flatten_cons, List.flatten_nil, List.append_nil]
      exact pairwise_idx fun i j key hi hj hij => by
        have := (Derived.inj hnc (hp i key hi) (hp j key hj) (Nat.le_refl _) (by omega)).2
        omega
    · rw [inceptAll_pubs (by simpa using hj)]
      exact Claimed.noPubs htidy hfresh hprm j

theorem moved_pubs {ks : Ks} {old new : Nat} {prm : Prm} {sit : Sit} {wp : List Wr} {o : List Wr × Except Err Unit} (m : MoveOut ks old new prm sit wp o)
    (hn : ∀ j, ks.pubs new j = none) {j : Nat} (hj : ks.pubs old j = none) : (ks.applyAll o.1).pubs new j = none := by
  cases h : (ks.applyAll o.1).pubs new j with
  | none => rfl
  | some l =>
    exfalso
    have hne : (ks.applyAll o.1).pubs new j ≠ none := by rw [h]; simp
    rcases applyAll_pubs_or hne with hne | ⟨l', hm⟩
    · exact hne (hn j)
    · have : Wr.pubsPut new j l' ∈ wp := by
        rcases m.outcome with ⟨_, ho⟩ | ⟨e, _, ho⟩ <;> rw [ho] at hm <;> simpa using hm
      rw [m.hwp] at this
      obtain ⟨i, l2, hi, he⟩ := movePubs_mem this
      simp at he
      rw [he.1, hi] at hj
      simp at hj

theorem moved_prms {ks : Ks} {old new : Nat} {prm : Prm} {sit : Sit} {wp : List Wr} {o : List Wr × Except Err Unit} (m : MoveOut ks old new prm sit wp o) :
    (ks.applyAll o.1).prms.at' new = some prm := by
  have hwp : ∀ {w : Wr}, w ∈ wp → w.prmKey = none := by
    intro w hw
    rw [m.hwp] at hw
    obtain ⟨j, l, _, rfl⟩ := movePubs_mem hw
    rfl
  have base : ((((ks.apply (.prms new prm)).apply (.prmsRem old)).apply (.sits new sit)).apply (.sitsRem old)).prms.at' new = some prm := by
    show upd (upd ks.prms.at' new (some prm)) old none new = _
    rw [upd_ne _ _ (Ne.symm m.ne), upd_same]
  rcases m.outcome with ⟨_, ho⟩ | ⟨e, _, ho⟩ <;> rw [ho]
  · rw [List.append_assoc, applyAll_append, applyAll_prms]
    · exact base
    · intro w hw
      simp only [List.mem_append, List.mem_cons, List.not_mem_nil, or_false] at hw
      rcases hw with hw | rfl | rfl
      · rw [hwp hw]; simp
      · simp [Wr.prmKey]
      · simp [Wr.prmKey]
  · rw [applyAll_append, applyAll_prms]
    · exact base
    · intro w hw; rw [hwp hw]; simp

/-- Some of the writes of a move leave sequences under their old name as they were, or without parameters or situation. -/
theorem move_part {ks : Ks} {old new : Nat} (ws : List Wr) (hs : ∀ w ∈ ws, w ∈ (move ks old new).1) :
    (∀ a, (ks.applyAll ws).prms.at' old = some a → ks.prms.at' old = some a) ∧ (∀ s, (ks.applyAll ws).sits old = some s → ks.sits old = some s) ∧
      (ks.applyAll ws).pubs old = ks.pubs old := by
  rcases move_cases ks old new with ⟨r, hr, _⟩ | ⟨prm, sit, wp, o⟩
  · have : ws = [] := by
      cases ws with
      | nil => rfl
      | cons w ws => have := hs w (List.mem_cons_self ..); rw [hr] at this; simp at this
    subst this
    exact ⟨fun _ h => h, fun _ h => h, rfl⟩
  · have hwp : ∀ {w : Wr}, w ∈ wp → ∃ j l, w = .pubsPut new j l := by
      intro w hw
      rw [o.hwp] at hw
      obtain ⟨j, l, _, rfl⟩ := movePubs_mem hw
      exact ⟨j, l, rfl⟩
    have hall : ∀ w ∈ ws, (∀ v, w ≠ .prms old v) ∧ (∀ v, w ≠ .sits old v) ∧ w.pubKey ≠ some old := by
      intro w hw
      have hw := hs w hw
      have hne : new ≠ old := Ne.symm o.ne
      rcases o.outcome with ⟨_, ho⟩ | ⟨e, _, ho⟩ <;> rw [ho] at hw <;>
        simp only [List.mem_append, List.mem_cons, List.not_mem_nil, or_false] at hw
      · rcases hw with ((rfl | rfl | rfl | rfl) | h) | rfl | rfl
        all_goals first | (obtain ⟨j, l, rfl⟩ := hwp h; simp [Wr.pubKey, hne]) | simp [Wr.pubKey, hne]
      · rcases hw with (rfl | rfl | rfl | rfl) | h
        all_goals first | (obtain ⟨j, l, rfl⟩ := hwp h; simp [Wr.pubKey, hne]) | simp [Wr.pubKey, hne]
    refine ⟨fun a ha => ?_, fun s hsi => ?_, applyAll_pubs fun w hw => (hall w hw).2.2⟩
    · rcases applyAll_prms_or ha with h | h
      · exact h
      · exact absurd rfl ((hall _ h).1 a)
    · revert hsi
      refine applyAll_ind (P := fun k => k.sits old = some s → ks.sits old = some s) (fun w hw k hk hsi => ?_) id
      by_cases hq : w.sitKey = some old
      · cases w with
        | sits q v => simp only [Wr.sitKey, Option.some.injEq] at hq; subst hq; exact absurd rfl ((hall _ hw).2.1 v)
        | sitsRem q =>
          simp only [Wr.sitKey, Option.some.injEq] at hq; subst hq
          have hsi : upd k.sits q none q = some s := hsi
          simp at hsi
        | _ => simp [Wr.sitKey] at hq
      · rw [apply_sits hq] at hsi; exact hk hsi

theorem SeqInv.step {env : Env} (hnc : env.NoCollision) {n : Node} {f : Nat → Bool} {sh : Nat → List (List Nat)} (hk : Kept n.ks) (ht : Tidy n.ks)
    (h : SeqInv env f sh n.ks) (i : Inp) :
    SeqInv env (Made.next f (i, (n.step env i).2)) (Shown.next sh (i, (n.step env i).2)) (n.step env i).1.ks := by
  -- inputs that do not concern a sequence
  have quiet : ∀ (c : Call) (k : Nat) (sh' : Nat → List (List Nat)) (p : Nat), f p = true → ¬ c.on p → sh' p = sh p →
      Claimed (n.ks.applyAll ((exec env n c).1.take k)) p ∧ ∀ prm s, (n.ks.applyAll ((exec env n c).1.take k)).prms.at' p = some prm →
        (n.ks.applyAll ((exec env n c).1.take k)).sits p = some s → prm.algo = .salty →
        Seq env prm s (sh' p) ((n.ks.applyAll ((exec env n c).1.take k)).pubs p) := by
    intro c k sh' p h2 h1 h3
    exact h.same h2 (exec_same hk (h p h2).1 h1 fun w hw => List.mem_of_mem_take hw) (claimed_take hk (h p h2).1 c k) h3
  have crash : ∀ (c : Call) (k : Nat), SeqInv env f sh (n.ks.applyAll ((exec env n c).1.take k)) := by
    intro c k p hp
    by_cases hon : c.on p
    · refine ⟨claimed_take hk (h p hp).1 c k, ?_⟩
      cases c with
      | rotate q a =>
        have hon : q = p := hon
        subst hon
        rcases withMgr_cases n (fun mem => ((rotate env n.ks mem q a).1, mem, .ofKeys (rotate env n.ks mem q a).2)) with ⟨hm, he⟩ | ⟨mem, hm, he⟩ <;>
          have he : exec env n (.rotate q a) = _ := he <;> rw [he]
        · rw [List.take_nil]; exact (h q hp).2
        · exact h.turned hnc hp a k (sh q) (.inl rfl) hk
      | replay q adv er =>
        have hon : q = p := hon
        subst hon
        rcases withMgr_cases n (fun mem => ((replay env n.ks mem q adv er).1, mem, .ofKeys (replay env n.ks mem q adv er).2)) with ⟨hm, he⟩ | ⟨mem, hm, he⟩ <;>
          have he : exec env n (.replay q adv er) = _ := he <;> rw [he]
        · rw [List.take_nil]; exact (h q hp).2
        · dsimp only
          intro prm s h1 h2 h3
          rw [turns_prms fun w hw => replay_turns (List.mem_of_mem_take hw)] at h1
          have hnil : (replay env n.ks mem q adv er).1 = [] := by
            obtain ⟨g1, g2⟩ := h.replayed (mem := mem) hp adv er
            cases adv with
            | false => exact g2 rfl
            | true =>
              obtain ⟨e, he⟩ := g1 rfl fun prm' hp' => by rw [h1] at hp'; simp at hp'; subst hp'; exact h3
              rw [he]
          rw [hnil, List.take_nil] at h2 ⊢
          exact (h q hp).2 prm s h1 h2 h3
      | move old new =>
        have hon : old = p := hon
        subst hon
        intro prm s h1 h2 h3
        rcases withMgr_cases n (fun mem => ((move n.ks old new).1, mem, .ofUnit (move n.ks old new).2)) with ⟨hm, he⟩ | ⟨mem, hm, he⟩ <;>
          have he : exec env n (.move old new) = _ := he <;> rw [he] at h1 h2 ⊢
        · rw [List.take_nil] at h1 h2 ⊢; exact (h old hp).2 prm s h1 h2 h3
        · obtain ⟨m1, m2, m3⟩ := move_part (ks := n.ks) (old := old) (new := new) ((move n.ks old new).1.take k) fun w hw => List.mem_of_mem_take hw
          dsimp only at h1 h2 ⊢
          rw [m3]
          exact (h old hp).2 prm s (m1 _ h1) (m2 _ h2) h3
      | _ => exact absurd hon (by simp [Call.on])
    · exact quiet c k sh p hp hon rfl
  cases i with
  | crash c k =>
    show SeqInv env (Made.next f (.crash c k, none)) (Shown.next sh (.crash c k, none)) (n.ks.applyAll ((exec env n c).1.take k))
    have e1 : Made.next f (.crash c k, none) = f := by cases c <;> rfl
    have e2 : Shown.next sh (.crash c k, none) = sh := by cases c <;> rfl
    rw [e1, e2]
    exact crash c k
  | call c =>
    have hst : (n.step env (.call c)).1.ks = n.ks.applyAll ((exec env n c).1.take (exec env n c).1.length) := by
      rw [List.take_length]; rfl
    show SeqInv env (Made.next f (.call c, some (exec env n c).2.2)) (Shown.next sh (.call c, some (exec env n c).2.2)) _
    rw [hst]
    have asbefore := crash c (exec env n c).1.length
    have qt := quiet c (exec env n c).1.length
    cases c with
    | openM s a p g x t => exact asbefore
    | updateAeid a s => exact asbefore
    | sign a b d => exact asbefore
    | ingest a => exact asbefore
    | incept a =>
      rcases withMgr_cases n (fun mem => ((incept env n.ks mem a).1, mem, .ofKeys (incept env n.ks mem a).2)) with ⟨hm, he⟩ | ⟨mem, hm, he⟩ <;>
        have he : exec env n (.incept a) = _ := he <;> rw [he] at asbefore qt ⊢
      · exact asbefore
      · dsimp only at asbefore qt ⊢
        cases hr : (incept env n.ks mem a).2 with
        | error e => exact asbefore
        | ok k =>
          intro p hp
          have hp : upd f (k.verfers.headD 0) true p = true := hp
          show Claimed _ p ∧ ∀ prm s, _ → _ → _ → Seq env prm s (upd sh (k.verfers.headD 0) [k.verfers] p) _
          by_cases hpk : p = k.verfers.headD 0
          · subst hpk
            rw [List.take_length, upd_same]
            refine ⟨?_, seq_incept hnc ht hr⟩
            rcases incept_cases env n.ks mem a with ⟨e, hi⟩ | ⟨t, pidx, cr, icodes, ncodes, _, _, _, _, _, hi⟩
            · rw [hi] at hr; simp at hr
            · rw [hi] at hr ⊢
              have o := inceptWr_out env n.ks mem cr pidx (cr.create env a.rnd icodes pidx 0 0 a.tr a.temp)
                (cr.create env (fun i => a.rnd (icodes.length + i)) ncodes pidx 1 icodes.length a.tr a.temp)
              obtain ⟨rfl, _, hw, _, _⟩ := o.ok k hr
              rw [hw]
              exact .inl (inceptAll_pres _ _ _ _ _ _ _)
          · rw [upd_ne _ _ hpk] at hp
            exact qt _ p hp (by simp [Call.on]) (upd_ne _ _ hpk)
    | rotate q a =>
      rcases withMgr_cases n (fun mem => ((rotate env n.ks mem q a).1, mem, .ofKeys (rotate env n.ks mem q a).2)) with ⟨hm, he⟩ | ⟨mem, hm, he⟩ <;>
        have he : exec env n (.rotate q a) = _ := he <;> rw [he] at asbefore qt ⊢
      · exact asbefore
      · dsimp only at asbefore qt ⊢
        cases hr : (rotate env n.ks mem q a).2 with
        | error e => exact asbefore
        | ok k =>
          intro p hp
          have hp : f p = true := hp
          show Claimed _ p ∧ ∀ prm s, _ → _ → _ → Seq env prm s (upd sh q (k.verfers :: sh q) p) _
          by_cases hpq : p = q
          · subst hpq
            refine ⟨(asbefore p hp).1, ?_⟩
            rw [upd_same]
            refine h.turned hnc hp a _ _ (.inr ⟨k.verfers, k.digers, hr, rfl, ?_⟩) hk
            rw [List.take_length]
            rcases rotate_cases env n.ks mem p a with ⟨e, hi⟩ | ⟨prm, ps, v, nxts, o⟩
            · rw [hi] at hr; simp at hr
            · rcases o.outcome with ⟨_, ho⟩ | ⟨ho, _⟩
              · rw [ho]; simp [rotateAll]
              · rw [ho] at hr; simp at hr
          · exact qt _ p hp (fun hc => hpq hc.symm) (upd_ne _ _ hpq)
    | replay q adv er =>
      rcases withMgr_cases n (fun mem => ((replay env n.ks mem q adv er).1, mem, .ofKeys (replay env n.ks mem q adv er).2)) with ⟨hm, he⟩ | ⟨mem, hm, he⟩ <;>
        have he : exec env n (.replay q adv er) = _ := he <;> rw [he] at asbefore qt ⊢
      · cases adv <;> exact asbefore
      · dsimp only at asbefore qt ⊢
        cases hr : (replay env n.ks mem q adv er).2 with
        | error e => cases adv <;> exact asbefore
        | ok k =>
          cases adv with
          | false => exact asbefore
          | true =>
            intro p hp
            have hp : f p = true := hp
            show Claimed _ p ∧ ∀ prm s, _ → _ → _ → Seq env prm s (upd sh q (k.verfers :: sh q) p) _
            by_cases hpq : p = q
            · subst hpq
              refine ⟨(asbefore p hp).1, fun prm s h1 h2 h3 => ?_⟩
              rw [turns_prms fun w hw => replay_turns (List.mem_of_mem_take hw)] at h1
              obtain ⟨e, he⟩ := (h.replayed (mem := mem) hp true er).1 rfl fun prm' hp' => by rw [h1] at hp'; simp at hp'; subst hp'; exact h3
              rw [he] at hr; simp at hr
            · exact qt _ p hp (fun hc => hpq hc.symm) (upd_ne _ _ hpq)
    | move old new =>
      rcases withMgr_cases n (fun mem => ((move n.ks old new).1, mem, .ofUnit (move n.ks old new).2)) with ⟨hm, he⟩ | ⟨mem, hm, he⟩ <;>
        have he : exec env n (.move old new) = _ := he <;> rw [he] at asbefore qt ⊢
      · exact asbefore
      · dsimp only at asbefore qt ⊢
        cases hr : (move n.ks old new).2 with
        | error e => exact asbefore
        | ok u =>
          show SeqInv env (if old = new then f else upd (upd f new (f old)) old false) (if old = new then sh else upd (upd sh new (sh old)) old []) _
          by_cases hne : old = new
          · rw [if_pos hne, if_pos hne]; exact asbefore
          rw [if_neg hne, if_neg hne]
          rcases move_cases n.ks old new with ⟨r, hr', hd⟩ | ⟨prm, sit, wp, o⟩
          · rw [hr'] at hr; exact absurd (hd hr) hne
          intro p hp
          by_cases hpo : p = old
          · subst hpo; rw [upd_same] at hp; simp at hp
          rw [upd_ne _ _ hpo] at hp ⊢
          by_cases hpn : p = new
          · subst hpn
            rw [upd_same] at hp ⊢
            rw [List.take_length]
            refine ⟨.inr (by rw [moved_prms o]; simp), fun prm' s h1 h2 h3 => ?_⟩
            rw [moved_prms o] at h1
            rw [(move_sits o).1] at h2
            simp only [Option.some.injEq] at h1 h2
            subst h1; subst h2
            have hq := (h old hp).2 prm sit o.hprm o.hsit h3
            exact ⟨hq.salted, hq.nodup, fun j hj => moved_pubs o (Claimed.noPubs ht o.pnew o.nprm) (hq.none j hj)⟩
          · rw [upd_ne _ _ hpn] at hp
            exact qt _ p hp (fun hc => hpo hc.symm) (upd_ne _ _ hpn)

theorem incepted_append (h : Hist) (x : Inp × Option Res) : incepted (h ++ [x]) = Made.next (incepted h) x := by simp [incepted, List.foldl_append]

theorem Happened.seqInv {env : Env} (hnc : env.NoCollision) {h : Hist} {n : Node} (hh : Happened env h n) : SeqInv env (incepted h) (shown h) n.ks :=
  (run_ind (P := fun n h => Kept n.ks ∧ Tidy n.ks ∧ SeqInv env (incepted h) (shown h) n.ks) ⟨Kept.start, Tidy.start, by intro p hp; simp [incepted] at hp⟩
    (fun n h i hi => by
      refine ⟨hi.1.step i, hi.2.1.step hi.1 i, ?_⟩
      rw [incepted_append, shown_append]
      exact hi.2.2.step hnc hi.1 hi.2.1 i) hh).2.2

/-- **C72, one identifier.** If derivation does not collide, then after any history all keys ever returned as current for an identifier incepted with keys
derived from a salt, together with the next keys, are different. -/
theorem c72_one_identifier {env : Env} (hnc : env.NoCollision) {h : Hist} {n : Node} (hh : Happened env h n) {p : Nat} (hp : incepted h p = true)
    {prm : Prm} {s : Sit} (h1 : n.ks.prms.at' p = some prm) (h2 : n.ks.sits p = some s) (h3 : prm.algo = .salty) :
    (s.nxt.pubs ++ (shown h p).flatten).Nodup :=
  ((hh.seqInv hnc p hp).2 prm s h1 h2 h3).next hnc

/-- **C72, several identifiers (part).** Keys of two identifiers derived from the same salt without stems differ if the indices of the identifiers differ and have the
same number of digits, as all have that are below sixteen. Missing: other indices, and stems, for which the property fails. -/
theorem c72_across_partial {env : Env} (hnc : env.NoCollision) {x : Nat} {prm prm' : Prm} (hs : prm.stem = []) (hs' : prm'.stem = [])
    (hne : prm.pidx ≠ prm'.pidx) (hl : (hex prm.pidx).length = (hex prm'.pidx).length) {r k r' k' key key' : Nat} (h : Derived env x prm r k key)
    (h' : Derived env x prm' r' k' key') : key ≠ key' := by
  rintro rfl
  obtain ⟨c, t, ti, te, rfl⟩ := h
  obtain ⟨c', t', ti', te', he⟩ := h'
  have := hnc _ _ _ _ _ _ _ _ _ _ _ he
  rw [hs, hs'] at this
  exact hne (path_across hl this)

end Verif.Mgr
