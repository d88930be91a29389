import Verif.Prs.Sends

/-!
# Built messages are messages of the parser
-/

namespace Verif.Prs

open Verif.Matter (Mat)
open Verif.Idr (Ixr)
open Verif.Ctr (Ver Counter)
open Verif.B64

/-! ## The lists of the receiver -/

theorem get_const (s s' : Slot) (es : List Elem) :
    ((es.map (fun e => (s', e))).filter (fun p => p.1 = s)).map (·.2) = if s' = s then es else [] := by
  by_cases h : s' = s
  · rw [if_pos h]
    induction es with
    | nil => rfl
    | cons e es ih => simp [h] at ih ⊢; exact ih
  · rw [if_neg h]
    induction es with
    | nil => rfl
    | cons e es ih => simp [h] at ih ⊢

theorem slot_inj {c c' : Clan} (h : c.slot ≠ none) (h' : c.slot = c'.slot) : c = c' := by
  cases c <;> cases c' <;> first | rfl | simp [Clan.slot] at h h'

theorem get_bonds {a : Args} (hf : Fit a) (s : Slot) :
    ((((collate a.bonds).flatMap (·.2)).map (bondAtt a.ver)).filter (fun p => p.1 = s)).map (·.2) = a.bondsIn s := by
  obtain ⟨c1, c2, c3⟩ := collate_spec a.bonds
  have hfit : ∀ b ∈ (collate a.bonds).flatMap (·.2), b.clan.slot ≠ none := fun b hb => (hf.bonds b ((c2 b).1 hb)).1
  have hone : ((collate a.bonds).flatMap (·.2)).filter (fun b => slotOf b.clan = s) = a.bonds.filter (fun b => b.clan.slot = some s) := by
    have e1 : ((collate a.bonds).flatMap (·.2)).filter (fun b => slotOf b.clan = s) = ((collate a.bonds).flatMap (·.2)).filter (fun b => b.clan.slot = some s) := by
      refine List.filter_congr ?_
      intro b hb
      have := hfit b hb
      unfold slotOf
      cases hs : b.clan.slot with
      | none => exact absurd hs this
      | some t => simp
    rw [e1]
    by_cases hex : ∃ c : Clan, c.slot = some s
    · obtain ⟨c, hc⟩ := hex
      have key : ∀ b : Bond, decide (b.clan.slot = some s) = decide (b.clan = c) := by
        intro b
        by_cases hb : b.clan = c
        · simp [hb, hc]
        · rw [decide_eq_false hb, decide_eq_false]
          intro h0
          exact hb (slot_inj (by rw [h0]; simp) (by rw [h0, hc]))
      simp only [key]
      exact c3 c
    · have : ∀ l : List Bond, l.filter (fun b => decide (b.clan.slot = some s)) = [] := by
        intro l
        rw [List.filter_eq_nil_iff]
        intro b _ h0
        exact hex ⟨b.clan, by simpa using h0⟩
      rw [this, this]
  unfold Args.bondsIn
  rw [List.filter_map, List.map_map, List.map_map, ← hone]
  rfl

theorem carries {β : Type} {a : Args} (hf : Fit a) (x : β) (ns : List (Exts β)) : Carries a x ns (.mk x a.atts ns) := by
  refine ⟨rfl, rfl, ?_⟩
  intro s
  have hnb : ∀ s, (∀ c : Clan, c.slot ≠ some s) → a.bondsIn s = [] := by
    intro s h
    unfold Args.bondsIn
    rw [List.filter_eq_nil_iff.2]
    · rfl
    · intro b _ h0
      exact h b.clan (by simpa using h0)
  simp only [Exts.get, Exts.atts, Args.atts, List.filter_append, List.map_append, get_const, get_bonds hf]
  cases s <;> simp only [if_true, if_false, Args.expected, List.nil_append, List.append_nil, reduceCtorEq, List.map_map]
  all_goals first
    | rfl
    | (rw [hnb _ (by intro c; cases c <;> simp [Clan.slot])]; done)
    | (rw [hnb _ (by intro c; cases c <;> simp [Clan.slot])]; rfl)
    | (rw [hnb _ (by intro c; cases c <;> simp [Clan.slot])]; simp)
    | (rw [hnb _ (by intro c; cases c <;> simp [Clan.slot])]; simp; rfl)

/-! ## Bodies -/

theorem tex_codes : ∀ e ∈ Verif.Matter.sizes, e.2.fs = none → e.1.getLast? = some 'B' → Klas.texter.allows e.1 = true := by decide +kernel

theorem texter_ok {raw : Bytes} {t : Mat} (hl : AllLt 256 raw) (h : Verif.Matter.make ['4', 'B'] [] raw none = .ok t) : GoodPrim .texter t ∧ t.raw = raw := by
  have hv := Verif.Matter.make_valid hl h
  have hs : Verif.Matter.sizes? ['4', 'B'] = some ⟨2, 2, 0, none, 0⟩ := by decide +kernel
  unfold Verif.Matter.make at h
  simp only [hs] at h
  rw [if_neg (by simp)] at h
  have hz : Verif.Matter.varRize raw none = .ok raw.length := rfl
  simp only [hz] at h
  cases hc : Verif.Matter.varCode ['4', 'B'] raw.length with
  | error e => rw [hc] at h; exact absurd h (by simp)
  | ok p =>
    obtain ⟨c, s⟩ := p
    rw [hc] at h
    simp only [List.take_length] at h
    rw [if_neg (by simp)] at h
    injection h with h
    obtain ⟨k1, k2⟩ := Verif.Matter.varCode_spec hs rfl raw.length
    by_cases hle : (raw.length + 2) / 3 ≤ 64 ^ 4 - 1
    · obtain ⟨c', s', sz', h1, h2, h3, h4, h5, h6, h7, h8, h9, _⟩ := k1 hle
      rw [hc] at h1
      injection h1 with h1
      injection h1 with h1 h1'
      subst h1
      refine ⟨⟨hv, ?_⟩, by rw [← h]⟩
      rw [← h]
      exact tex_codes (c, sz') (Verif.Matter.mem_of_lookup h2) h3 (by rw [h9]; rfl)
    · rw [k2 (by omega)] at hc
      exact absurd hc (by simp)

theorem made_letter {n : Int} {c : Counter} {x : Char} (h : Verif.Ctr.make .v2 ['-', x] n = .ok c) : letter c.code x = true := by
  rw [letter_iff]
  rcases make_code h with h | ⟨_, a, y, tl, h1, h2⟩
  · exact Or.inl h
  · injection h1 with h1 h3
    injection h3 with h3 _
    subst h3
    exact Or.inr h2

theorem GoodBody.reaps {β : Type} {L : Loader β} {v : Ver} {b : Bytes} {x : β} (h : GoodBody L v b x) : (reap L v b).val = .ok x := by
  obtain ⟨m, m1, m2, m3, m4⟩ := h.smells
  simp only [reap, m1, m3]
  rw [if_neg (by omega), m2, List.take_length, m4]

theorem innerBody_ok {β : Type} {L : Loader β} {a : Args} {x : β} {body : Bytes} (hv : a.ver = .v2) (hb : FitBody L a x) (h : innerBody a = .ok body) :
    ∃ c, CtrBody L .v2 false c body x := by
  unfold innerBody at h
  unfold FitBody at hb
  by_cases hn : a.native = true
  · rw [if_pos hn] at h hb
    injection h with h
    subst h
    obtain ⟨_, c, t, r, h1, h2, h3, h4, h5, h6⟩ := hb
    refine ⟨c, ?_⟩
    rw [h3] at h6 ⊢
    exact .native rfl h1 h2 h4 h5 h6
  · rw [if_neg hn] at h hb
    rw [hv] at hb
    split at h
    · exact absurd h (by simp)
    next t ht =>
    split at h
    · exact absurd h (by simp)
    next w hw =>
    obtain ⟨t1, t2⟩ := texter_ok hb.lt ht
    obtain ⟨c, ct, c1, c2, c3, c4, c5⟩ := enclose_ok h
    refine ⟨c, ?_⟩
    rw [c3]
    exact .nonnative ⟨c5, c2⟩ (made_letter c1) t1 hw (by rw [t2]; exact hb.reaps)

/-! ## Nested messages -/

/-- A message in one group, with whatever depth the parser has left. -/
def Nested {β : Type} (L : Loader β) (b : Bytes) (e : Exts β) : Prop := ∀ d ≥ b.length, BodyWith L .v2 false (msg L d true) b e

theorem nested_item {β : Type} {L : Loader β} {b : Bytes} {e : Exts β} {d : Nat} (framed : Bool) (h : Nested L b e) (hd : b.length + 1 ≤ d) :
    Item .v2 false (msg L d framed) b [] [e] := by
  obtain ⟨d, rfl⟩ : ∃ d', d = d' + 1 := ⟨d - 1, by omega⟩
  have hm : Message L (msg L d) .v2 true b e := .bodyWith (h d (by omega))
  obtain ⟨_, hl⟩ := hm.head
  obtain ⟨c, t, w, pre, cb, body, bin2, att, f1, f2, f3, f4, f5, f6, f7⟩ := (h d (by omega)).parts
  rw [f7] at hl hm ⊢
  refine .nest f1.good f1.text ?_ ⟨((allLt_append _ _ _).1 hl).2, ?_⟩ ?_
  · unfold isBodyWith at f2
    rw [letter_iff] at f2
    rcases f2 with f2 | f2 <;> rw [f2] <;> decide
  · rw [← f6]
    simp [ctrCount, coldOf, unit, Verif.Ctr.byteCountText]
  · intro rest hr
    refine eq_of_goes (msg_goes (pre := []) (u := .v2) (v := .v2) (bin := false) (rest := rest) .same hm hr rfl (by simp [St.all]) (fun _ => rfl) (by simp) (Or.inl rfl)) rfl

theorem mem_cat {w : Bytes → Except Err Bytes} (hw : ∀ n b, w n = .ok b → b = n) : ∀ {l : List Bytes} {b : Bytes}, cat w l = .ok b → ∀ n ∈ l, n.length ≤ b.length
  | [], _, _, n, hn => by simp at hn
  | a :: l, b, h, n, hn => by
    obtain ⟨b1, b2, h1, h2, rfl⟩ := cat_cons_ok h
    rcases List.mem_cons.1 hn with rfl | hn
    · rw [hw _ _ h1]; simp
    · have := mem_cat hw h2 n hn
      rw [List.length_append]; omega

theorem aims2_nest {a : Args} {aims : Bytes} (h : aims2 a = .ok aims) {n : Bytes} (hn : n ∈ a.nests) : n.length ≤ aims.length := by
  unfold aims2 at h
  obtain ⟨b1, _, w1, q1, rfl⟩ := cat_cons_ok h
  obtain ⟨b2, _, w2, q2, rfl⟩ := cat_cons_ok q1
  obtain ⟨b3, _, w3, q3, rfl⟩ := cat_cons_ok q2
  obtain ⟨b4, _, w4, q4, rfl⟩ := cat_cons_ok q3
  obtain ⟨b5, _, w5, q5, rfl⟩ := cat_cons_ok q4
  obtain ⟨b6, _, w6, q6, rfl⟩ := cat_cons_ok q5
  obtain ⟨b7, _, w7, q7, rfl⟩ := cat_cons_ok q6
  obtain ⟨b8, _, w8, q8, rfl⟩ := cat_cons_ok q7
  simp only [id] at w8
  have := mem_cat (by
    intro n b h
    split at h
    · injection h with h; exact h.symm
    · exact absurd h (by simp)) w8 n hn
  simp only [List.length_append]
  omega

/-! ## Whole messages -/

theorem gvc_genus {v u : Ver} {pre : Bytes} (h : gvc v = .ok pre) : Genus u false pre v := by
  have key : ∀ n : Nat, Verif.Ctr.make u gvcCode n = .ok ⟨gvcCode, n⟩ → writeCtr u false ⟨gvcCode, n⟩ = .ok pre → announces ⟨gvcCode, n⟩ = .ok v → Genus u false pre v :=
    fun n h1 h2 h3 => .change ⟨(made_good h1).1, h2⟩ rfl h3
  cases v with
  | v1 =>
    have h0 : gvc .v1 = .ok (asc "-_AAABAA".toList) := by decide +kernel
    rw [h0] at h
    injection h with h
    subst h
    exact key 4096 (by cases u <;> decide +kernel) (by cases u <;> decide +kernel) (by decide +kernel)
  | v2 =>
    have h0 : gvc .v2 = .ok (asc "-_AAACAA".toList) := by decide +kernel
    rw [h0] at h
    injection h with h
    subst h
    exact key 8192 (by cases u <;> decide +kernel) (by cases u <;> decide +kernel) (by decide +kernel)

theorem All2.nil_left {α β : Type} {R : α → β → Prop} {bs : List β} (h : All2 R [] bs) : bs = [] := by cases h; rfl

theorem inner_ver {a : Args} (h : a.inner = true) : a.ver = .v2 := by
  unfold Args.inner at h
  unfold Args.ver
  rw [if_pos]
  rcases Bool.or_eq_true_iff.1 h with h | h
  · exact Or.inl h
  · right; left
    intro h0
    rw [h0] at h
    simp at h

theorem ver1_nests {a : Args} (h : a.ver = .v1) : a.nests = [] ∧ a.inner = false ∧ a.svrsn ≠ .v2 := by
  unfold Args.ver at h
  split at h
  · exact absurd h (by simp)
  next hc =>
  have h1 : a.nests = [] := Classical.byContradiction fun h0 => hc (Or.inr (Or.inl h0))
  have h2 : a.nested = false := by
    cases hn : a.nested with
    | false => rfl
    | true => exact absurd (Or.inl hn) hc
  exact ⟨h1, by simp [Args.inner, h1, h2], fun h0 => hc (Or.inr (Or.inr (Or.inr h0)))⟩

/-- The body, then its attachments enclosed. -/
theorem sent_grouped {β : Type} {L : Loader β} {a : Args} {x : β} {g : Bytes} {as : List (Slot × Elem)} {ns : List (Exts β)} {d : Nat}
    (hb : FitBody L a x) (hv : a.native = true → a.ver = .v2) (hg : ∀ framed, AttGroup a.ver false (msg L d framed) g as ns) :
    Message L (msg L d) a.ver true (a.raw ++ g) (.mk x as ns) := by
  unfold FitBody at hb
  by_cases hn : a.native = true
  · rw [if_pos hn] at hb
    obtain ⟨_, c, t, r, h1, h2, h3, h4, h5, h6⟩ := hb
    rw [h3] at h6 ⊢
    rw [hv hn] at hg ⊢
    exact .native (bin := false) (bin2 := false) rfl h1 h2 h4 h5 h6 hg
  · rw [if_neg hn] at hb
    exact .grouped hb hg

/-- The body, then its attachments. -/
theorem sent_flat {β : Type} {L : Loader β} {a : Args} {x : β} {g : Bytes} {as : List (Slot × Elem)} {d : Nat}
    (hb : FitBody L a x) (hv : a.native = true → a.ver = .v2) (hg : ∀ framed, Items a.ver false (msg L d framed) g as []) (h0 : g ≠ []) :
    Message L (msg L d) a.ver false (a.raw ++ g) (.mk x as []) := by
  unfold FitBody at hb
  by_cases hn : a.native = true
  · rw [if_pos hn] at hb
    obtain ⟨_, c, t, r, h1, h2, h3, h4, h5, h6⟩ := hb
    rw [h3] at h6 ⊢
    rw [hv hn] at hg ⊢
    exact .ctrFlat (.native (bin := false) rfl h1 h2 h4 h5 h6) hg h0
  · rw [if_neg hn] at hb
    exact .flat hb hg h0

theorem native_ver {β : Type} {L : Loader β} {a : Args} {x : β} (hb : FitBody L a x) (hn : a.native = true) : a.ver = .v2 := by
  unfold FitBody at hb
  rw [if_pos hn] at hb
  unfold Args.ver
  rw [if_pos (Or.inr (Or.inr (Or.inr hb.1)))]

theorem counted_ok {v : Ver} {code : List Char} {n : Nat} {t : Bytes} (h : counted v false code n = .ok t) :
    ∃ c, Verif.Ctr.make v code n = .ok c ∧ Front v false c t ∧ c.count = n := by
  unfold counted at h
  split at h
  · exact absurd h (by simp)
  next c hc =>
  obtain ⟨h1, h2⟩ := made_good hc
  exact ⟨c, hc, ⟨h1, h⟩, by omega⟩

theorem bundle_sent {β : Type} {L : Loader β} {a : Args} {x : β} {aims enc : Bytes} {ns : List (Exts β)} (hf : Fit a) (hb : FitBody L a x)
    (hn : All2 (Nested L) a.nests ns) (hbare : ¬ a.bare) (ha : (match a.ver with | .v1 => aims1 a | .v2 => aims2 a) = .ok aims) (h : bundle a aims = .ok enc) :
    Sent L a.ver a.enclosed enc (.mk x a.atts ns) ∧ (a.inner = true → Nested L enc (.mk x a.atts ns)) := by
  unfold bundle at h
  split at h
  · exact absurd h (by simp)
  next h4 =>
  have hnv : a.native = true → a.ver = .v2 := native_ver hb
  cases hv : a.ver with
  | v1 =>
    rw [hv] at h ha
    simp only at h ha
    obtain ⟨n1, n2, n3⟩ := ver1_nests hv
    rw [n1] at hn
    have := hn.nil_left
    subst this
    rw [n2]
    refine ⟨?_, by simp⟩
    have hi := fun d framed => (aims1_items hv hf ha (msg L d framed)).1
    have h0 := (aims1_items hv hf ha (msg L 0 true)).2 hbare
    unfold Args.enclosed
    rw [n2]
    cases hfr : a.framed with
    | true =>
      rw [hfr] at h
      simp only [if_true] at h
      injection h with h
      subst h
      intro d _
      have := sent_flat (L := L) (d := d) hb hnv (by rw [hv]; exact hi d) h0
      rw [hv] at this
      exact this
    | false =>
      rw [hfr] at h
      simp only [Bool.false_eq_true, if_false] at h
      split at h
      · exact absurd h (by simp)
      next t ht =>
      injection h with h
      subst h
      obtain ⟨c, c1, c2, c3⟩ := counted_ok ht
      have hcode : c.code = ['-', 'V'] ∨ c.code = ['-', '-', 'V'] := by
        rcases make_code c1 with h | ⟨_, a, y, tl, h1, h2⟩
        · exact Or.inl h
        · injection h1 with h1 h3
          injection h3 with h3 _
          subst h3
          exact Or.inr h2
      intro d _
      have := sent_grouped (L := L) (d := d) (g := t ++ aims) (as := a.atts) (ns := []) hb hnv (by
        rw [hv]
        intro framed
        refine ⟨c, t, .v1, [], aims, c2, ?_, .same, hi d framed, h0, ?_, rfl⟩
        · rcases hcode with h | h <;> rw [h] <;> decide
        · simp only [ctrCount, coldOf, Verif.Ctr.byteCountText, c3]
          simp
          omega)
      rw [hv] at this
      exact this
  | v2 =>
    rw [hv] at h ha
    simp only at h ha
    have hi : ∀ d framed, aims.length + 1 ≤ d → Items .v2 false (msg L d framed) aims a.atts ns := by
      intro d framed hd
      refine (aims2_items hv hf ha hn ?_).1
      intro b hb e he
      have := aims2_nest ha hb
      exact nested_item framed he (by omega)
    have h0 : aims ≠ [] := by
      refine (aims2_items (sub := msg L (aims.length + 1) true) hv hf ha hn ?_).2 hbare
      intro b hb e he
      have := aims2_nest ha hb
      exact nested_item true he (by omega)
    unfold Args.enclosed
    cases hin : a.inner with
    | true =>
      rw [hin] at h
      simp only [if_true] at h
      split at h
      · exact absurd h (by simp)
      next body hbd =>
      obtain ⟨cb, hcb⟩ := innerBody_ok hv hb hbd
      obtain ⟨c, t, c1, c2, c3, c4, c5⟩ := enclose_ok h
      have hnest : Nested L enc (.mk x a.atts ns) := by
        intro d hd
        have ht := List.length_pos_iff.2 (Front.facts ⟨c5, c2⟩).2.2.2.1
        rw [c3] at hd ⊢
        simp only [List.length_append] at hd
        exact ⟨c, t, .v2, [], cb, body, false, aims, ⟨c5, c2⟩, made_letter c1, .same, hcb, .flat (hi d true (by omega)) h0, c4, rfl⟩
      exact ⟨fun d hd => .bodyWith (hnest d hd), fun _ => hnest⟩
    | false =>
      rw [hin] at h
      simp only [Bool.false_eq_true, if_false] at h
      refine ⟨?_, by simp⟩
      have hraw : 0 < a.raw.length := by
        unfold FitBody at hb
        split at hb
        · obtain ⟨_, c, t, r, h1, _, h3, _⟩ := hb
          have := List.length_pos_iff.2 h1.facts.2.2.2.1
          rw [h3, List.length_append]
          omega
        · exact List.length_pos_iff.2 hb.ne
      cases hfr : a.framed with
      | true =>
        rw [hfr] at h
        simp only [if_true] at h
        injection h with h
        subst h
        have hne : a.nests = [] := by
          unfold Args.inner at hin
          rw [hfr] at hin
          simp at hin
          exact hin.2
        rw [hne] at hn
        have := hn.nil_left
        subst this
        intro d hd
        rw [List.length_append] at hd
        have := sent_flat (L := L) (d := d) hb hnv (by rw [hv]; intro framed; exact hi d framed (by omega)) h0
        rw [hv] at this
        exact this
      | false =>
        rw [hfr] at h
        simp only [Bool.false_eq_true, if_false] at h
        split at h
        · exact absurd h (by simp)
        next g hg =>
        injection h with h
        subst h
        obtain ⟨c, t, c1, c2, c3, c4, c5⟩ := enclose_ok hg
        intro d hd
        have := sent_grouped (L := L) (d := d) (g := g) (as := a.atts) (ns := ns) hb hnv (by
          rw [hv]
          intro framed
          refine ⟨c, t, .v2, [], aims, ⟨c5, c2⟩, made_letter c1, .same, hi d framed ?_, h0, c4, c3⟩
          rw [c3] at hd
          simp only [List.length_append] at hd
          omega)
        rw [hv] at this
        exact this

theorem messagize_sent {β : Type} {L : Loader β} {a : Args} {x : β} {b : Bytes} {ns : List (Exts β)} (h : messagize a = .ok b) (hf : Fit a) (hb : FitBody L a x)
    (hn : All2 (Nested L) a.nests ns) : ∃ pre enc, b = pre ++ enc ∧ (a.genusify = false → pre = []) ∧ (∀ u, a.readable u → Genus u false pre a.ver) ∧
      Sent L a.ver a.enclosed enc (.mk x a.atts ns) ∧ (a.inner = true → Nested L enc (.mk x a.atts ns)) := by
  unfold messagize at h
  split at h
  · exact absurd h (by simp)
  next hbare =>
  split at h
  · exact absurd h (by simp)
  next pre hpre =>
  split at h
  · exact absurd h (by simp)
  next aims haims =>
  split at h
  · exact absurd h (by simp)
  next enc henc =>
  injection h with h
  refine ⟨pre, enc, h.symm, ?_, ?_, bundle_sent hf hb hn hbare haims henc⟩
  · intro hg
    rw [hg] at hpre
    injection hpre with hpre
    exact hpre.symm
  · intro u hu
    cases hg : a.genusify with
    | true =>
      rw [hg] at hpre
      exact gvc_genus hpre
    | false =>
      rw [hg] at hpre
      injection hpre with hpre
      subst hpre
      rcases hu with hu | hu
      · rw [hg] at hu; exact absurd hu (by simp)
      · rw [hu]; exact .same

/-! ## Nested messages built the same way -/

theorem made_nested {β : Type} {L : Loader β} : ∀ (k : Nat) {b : Bytes} {e : Exts β}, Made L k b e → ∃ e', Same e e' ∧ Nested L b e'
  | 0, _, _, h => False.elim h
  | k + 1, b, e, h => by
    obtain ⟨a, x, ns, h1, h2, h3, h4, h5, h6, h7⟩ := h
    have key : ∀ {bs : List Bytes} {es : List (Exts β)}, All2 (Made L k) bs es → ∃ es', All2 Same es es' ∧ All2 (Nested L) bs es' := by
      intro bs es h
      induction h with
      | nil => exact ⟨[], .nil, .nil⟩
      | cons g1 _ ih =>
        obtain ⟨e', g2, g3⟩ := made_nested k g1
        obtain ⟨es', g4, g5⟩ := ih
        exact ⟨e' :: es', .cons g2 g4, .cons g3 g5⟩
    obtain ⟨ns', n1, n2⟩ := key h6
    obtain ⟨pre, enc, m1, m2, m3, m4, m5⟩ := messagize_sent h1 h4 h5 n2
    rw [m2 h3, List.nil_append] at m1
    subst m1
    refine ⟨.mk x a.atts ns', .mk h7.body ?_ (by rw [h7.nests]; exact n1), m5 (by simp [Args.inner, h2])⟩
    intro s
    rw [h7.lists, (carries h4 x ns').lists]

theorem nests_nested {β : Type} {L : Loader β} {k : Nat} {bs : List Bytes} {es : List (Exts β)} (h : All2 (Made L k) bs es) :
    ∃ es', All2 Same es es' ∧ All2 (Nested L) bs es' := by
  induction h with
  | nil => exact ⟨[], .nil, .nil⟩
  | cons g1 _ ih =>
    obtain ⟨e', g2, g3⟩ := made_nested k g1
    obtain ⟨es', g4, g5⟩ := ih
    exact ⟨e' :: es', .cons g2 g4, .cons g3 g5⟩

/-- What is built is what the parser takes for a message. -/
theorem built_sent {β : Type} {L : Loader β} {a : Args} {b : Bytes} {e : Exts β} (h : Built L a b e) :
    ∃ pre enc e', Same e e' ∧ b = pre ++ enc ∧ (∀ u, a.readable u → Genus u false pre a.ver) ∧ Sent L a.ver a.enclosed enc e' := by
  obtain ⟨k, x, ns, h1, h2, h3⟩ := h.carries
  obtain ⟨ns', n1, n2⟩ := nests_nested h2
  obtain ⟨pre, enc, m1, m2, m3, m4, m5⟩ := messagize_sent h.made h.fit h1 n2
  refine ⟨pre, enc, .mk x a.atts ns', .mk h3.body ?_ (by rw [h3.nests]; exact n1), m1, m3, m4⟩
  intro s
  rw [h3.lists, (carries h.fit x ns').lists]

end Verif.Prs
