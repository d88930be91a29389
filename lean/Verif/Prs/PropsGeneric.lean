import Verif.Prs.Flow

/-!
# Generic groups (C88, C90)
-/

namespace Verif.Prs

open Verif.Matter (Mat)
open Verif.Idr (Ixr)
open Verif.Ctr (Ver Counter)
open Verif.B64

/-- The code `GenericGroup` (counting.py:67 and 204). -/
def genericCode : Ver → List Char
  | .v1 => ['-', 'T']
  | .v2 => ['-', 'A']

/-- Streams of built messages and generic groups of such: a generic group encloses a stream that begins with a counter of the same coding, or
with a version counter and then a stream of that version. -/
inductive Wrapped {β : Type} (L : Loader β) : Ver → Bytes → List (Exts β) → Prop where
  | series {u : Ver} {as : List Args} {b : Bytes} {es : List (Exts β)} : Series L u as b es → Wrapped L u b es
  | message {a : Args} {b bs : Bytes} {e : Exts β} {es : List (Exts β)} : Built L a b e → a.genusify = false → Wrapped L a.ver bs es →
      Wrapped L a.ver (b ++ bs) (e :: es)
  | plain {u : Ver} {bin : Bool} {body g rest : Bytes} {es1 es2 : List (Exts β)} : Wrapped L u body es1 → sniff body = .ok (coldOf bin) →
      enclose u bin (genericCode u) body = .ok g → Wrapped L u rest es2 → Wrapped L u (g ++ rest) (es1 ++ es2)
  | versioned {u w : Ver} {bin : Bool} {c : Counter} {pre body g rest : Bytes} {es1 es2 : List (Exts β)} : Wrapped L w body es1 →
      writeCtr u bin c = .ok pre → GoodCtr u c → c.code = gvcCode → announces c = .ok w → enclose u bin (genericCode u) (pre ++ body) = .ok g →
      Wrapped L u rest es2 → Wrapped L u (g ++ rest) (es1 ++ es2)

theorem enclose_group {v : Ver} {bin : Bool} {content g : Bytes} (h : enclose v bin (genericCode v) content = .ok g) :
    ∃ t, g = t ++ content ∧ Group v bin t content := by
  obtain ⟨c, t, h1, h2, h3, h4, h5⟩ := enclose_ok h
  refine ⟨t, h3, ⟨c, ⟨h5, h2⟩, ?_, h4⟩⟩
  rcases make_code h1 with h | ⟨_, a, x, tl, h6, h7⟩
  · rw [h]; cases v <;> decide
  · rw [h7]
    cases v <;> simp only [genericCode, List.cons.injEq] at h6 <;> obtain ⟨_, rfl, _⟩ := h6 <;> decide

theorem all2_append {α β : Type} {R : α → β → Prop} {a1 a2 : List α} {b1 b2 : List β} (h1 : All2 R a1 b1) (h2 : All2 R a2 b2) :
    All2 R (a1 ++ a2) (b1 ++ b2) := by
  induction h1 with
  | nil => exact h2
  | cons h _ ih => exact .cons h ih

theorem group_stops {v : Ver} {bin : Bool} {t content rest : Bytes} (h : Group v bin t content) (hr : AllLt 256 rest) : Stop v (t ++ rest) := by
  obtain ⟨c, f1, f2, f3⟩ := h.front
  refine Or.inr (Or.inr ⟨_, _, f1.facts.2.2.2.2.1 _, coldOf_ne _, f1.facts.1 _ hr, Or.inl ?_⟩)
  unfold classify
  rw [if_pos (Or.inr (Or.inl f2))]

theorem series_upto {β : Type} {L : Loader β} {u : Ver} {as : List Args} {b : Bytes} {es : List (Exts β)} (h : Series L u as b es) {tail : Bytes}
    (ht : AllLt 256 tail) (hs : Stop (lastVer u as) tail) :
    ∃ es', All2 Same es es' ∧ Upto L u (b ++ tail) es' (lastVer u as) tail ∧ Stop u (b ++ tail) := by
  induction h with
  | nil => exact ⟨[], .nil, .nil, hs⟩
  | @cons u a b bs e as es h1 h2 _ ih =>
    obtain ⟨es', i1, i2, i3⟩ := ih hs
    obtain ⟨pre, enc, e', s1, s2, s3, s4⟩ := built_sent h1
    refine ⟨e' :: es', .cons s1 i1, ?_, ?_⟩
    · rw [s2, List.append_assoc, List.append_assoc]
      exact .cons (s3 u h2) s4 (fun _ => i3) i2
    · rw [s2, List.append_assoc, List.append_assoc]
      exact genus_stops (s3 u h2) s4 (i2.lt ht)

theorem built_plain {β : Type} {L : Loader β} {a : Args} {b : Bytes} {e : Exts β} (h : Built L a b e) (hg : a.genusify = false) :
    ∃ e', Same e e' ∧ Sent L a.ver a.enclosed b e' := by
  obtain ⟨k, x, ns, h1, h2, h3⟩ := h.carries
  obtain ⟨ns', n1, n2⟩ := nests_nested h2
  obtain ⟨pre, enc, m1, m2, m3, m4, m5⟩ := messagize_sent h.made h.fit h1 n2
  rw [m2 hg, List.nil_append] at m1
  subst m1
  refine ⟨.mk x a.atts ns', .mk h3.body ?_ (by rw [h3.nests]; exact n1), m4⟩
  intro s
  rw [h3.lists, (carries h.fit x ns').lists]

/-- How a stream that begins with a counter begins. -/
theorem Flow.opens {β : Type} {L : Loader β} {v : Ver} {b : Bytes} {es : List (Exts β)} (h : Flow L v b es) {bin : Bool} (hs : sniff b = .ok (coldOf bin)) :
    ∃ pre w body, b = pre ++ body ∧ Genus v bin pre w ∧ Flow L w body es ∧ (pre = [] → ∃ c t r, Front v bin c t ∧ c.code ≠ gvcCode ∧ body = t ++ r) := by
  have bins : ∀ {bin' : Bool} {c : Counter} {t r : Bytes}, Front v bin' c t → sniff (t ++ r) = .ok (coldOf bin) → bin' = bin := by
    intro bin' c t r f h
    rw [f.facts.2.2.2.2.1 r] at h
    cases bin <;> cases bin' <;> simp [coldOf] at h ⊢
  have head : ∀ {enc rest : Bytes}, Head v enc → sniff (enc ++ rest) = .ok (coldOf bin) → ∃ c t r, Front v bin c t ∧ c.code ≠ gvcCode ∧ enc ++ rest = t ++ r := by
    intro enc rest hh hsn
    cases hh with
    | msg h1 h2 =>
      rw [sniff_head h1, h2] at hsn
      injection hsn with hsn
      exact absurd hsn.symm (coldOf_ne bin)
    | @ctr bin' c t r h1 h2 h3 h4 h5 =>
      subst h2
      rw [List.append_assoc] at hsn
      have := bins h1 hsn
      subst this
      exact ⟨c, t, r ++ rest, h1, h4, by rw [List.append_assoc]⟩
  have whole : (∃ c t r, Front v bin c t ∧ c.code ≠ gvcCode ∧ b = t ++ r) →
      ∃ pre w body, b = pre ++ body ∧ Genus v bin pre w ∧ Flow L w body es ∧ (pre = [] → ∃ c t r, Front v bin c t ∧ c.code ≠ gvcCode ∧ body = t ++ r) :=
    fun hw => ⟨[], v, b, rfl, .same, h, fun _ => hw⟩
  cases h with
  | run h =>
    cases h with
    | nil => exact absurd hs (by simp [sniff])
    | @cons _ v' _ bin' self pre enc rest _ e es h1 h2 h3 h4 =>
      cases h1 with
      | same => exact whole (by rw [List.nil_append] at hs ⊢; exact head h2.head.1 hs)
      | @change c _ _ f1 f2 f3 =>
        have := bins f1 hs
        subst this
        refine ⟨pre, v', enc ++ rest, rfl, .change f1 f2 f3, .run (.cons (pre := []) (bin := true) .same h2 h3 h4), ?_⟩
        intro h0
        exact absurd h0 f1.facts.2.2.2.1
  | msg h1 h2 h3 => exact whole (head h1.head.1 hs)
  | group h1 h2 h3 h4 h5 =>
    obtain ⟨c, f1, f2, f3⟩ := h1.front
    have := bins f1 hs
    subst this
    refine whole ⟨c, _, _, f1, ?_, rfl⟩
    intro h0
    rw [h0] at f2
    cases v <;> revert f2 <;> decide

theorem flow_nil {β : Type} {L : Loader β} {u : Ver} {b : Bytes} {es : List (Exts β)} (h : Flow L u b es) (hb : b = []) : es = [] := by
  cases h with
  | run h =>
    cases h with
    | nil => rfl
    | cons _ h2 _ _ =>
      simp at hb
      exact absurd hb.2.1 h2.head.1.ne
  | msg h1 _ _ =>
    simp at hb
    exact absurd hb.1 h1.head.1.ne
  | group h1 _ _ _ _ =>
    obtain ⟨c, f, _⟩ := h1.front
    simp at hb
    exact absurd hb.1 f.facts.2.2.2.1

theorem b64ToIntLoop_err : ∀ (l : List Char) (e i : Nat) (x : Err), b64ToIntLoop l e i = .error x → x = .keyError
  | [], _, _, _, h => absurd h (by simp [b64ToIntLoop])
  | c :: cs, e, i, x, h => by
    unfold b64ToIntLoop at h
    split at h
    · injection h with h; exact h.symm
    · exact b64ToIntLoop_err cs _ _ x h

theorem b64ToInt_short (l : List Char) : b64ToInt l ≠ .error .shortage := by
  intro h
  unfold b64ToInt at h
  split at h
  · exact absurd h (by simp)
  · exact absurd (b64ToIntLoop_err _ _ _ _ h) (by simp)

theorem sizes_small (v : Ver) : ∀ e ∈ Verif.Ctr.sizes v, e.2.fs ≤ 8 := by cases v <;> decide +kernel

theorem hards_small (first : List Char) (n : Nat) (h : Verif.Ctr.hards first = some n) : n ≤ 5 := by
  unfold Verif.Ctr.hards at h
  repeat' split at h
  all_goals first | (injection h with h; omega) | (cases h; done)

theorem exfil_short {v : Ver} {t : List Char} (h : Verif.Ctr.exfil v t = .error .shortage) : t.length < 8 := by
  unfold Verif.Ctr.exfil at h
  split at h
  · omega
  split at h
  · split at h <;> exact absurd h (by simp)
  next hs hhs =>
  have := hards_small _ _ hhs
  split at h
  · omega
  split at h
  · exact absurd h (by simp)
  next sz hsz =>
  have := sizes_small v _ (lookup_mem hsz)
  simp only at this
  split at h
  · omega
  split at h
  · next e he =>
    injection h with h
    subst h
    exact absurd he (b64ToInt_short _)
  · exact absurd h (by simp)

theorem bexfil_short {v : Ver} {t : List Nat} (h : Verif.Ctr.bexfil v t = .error .shortage) : t.length < 8 := by
  have n1 : nabSextets t 2 ≠ .error .shortage := by
    unfold nabSextets toBytes
    simp only
    split
    · simp
    · split <;> simp
  have n2 : ∀ l, codeB2ToB64 t l ≠ .error .shortage := by
    intro l
    unfold codeB2ToB64
    simp only
    split <;> simp
  unfold Verif.Ctr.bexfil at h
  split at h
  · omega
  split at h
  · next e he => injection h with h; subst h; exact absurd he n1
  split at h
  · exact absurd h (by simp)
  next hs hhs =>
  have h5 : hs ≤ 5 := by
    unfold Verif.Ctr.bards at hhs
    obtain ⟨c, _, hc⟩ := List.exists_of_findSome?_eq_some hhs
    split at hc
    · exact hards_small _ _ hc
    · exact absurd hc (by simp)
  split at h
  · unfold sceil34 at *; omega
  split at h
  · next e he => injection h with h; subst h; exact absurd he (n2 _)
  split at h
  · exact absurd h (by simp)
  next sz hsz =>
  have := sizes_small v _ (lookup_mem hsz)
  simp only at this
  split at h
  · unfold sceil34 at *; omega
  split at h
  · next e he => injection h with h; subst h; exact absurd he (n2 _)
  split at h
  · next e he => injection h with h; subst h; exact absurd he (b64ToInt_short _)
  · exact absurd h (by simp)

theorem peek_short {v : Ver} {cold : Cold} {b : Bytes} (h : (peekCtr v cold b).val = .error .shortage) : b.length < 8 := by
  unfold peekCtr at h
  cases cold with
  | txt =>
    simp only [ctrText] at h
    split at h
    · split at h <;> exact absurd h (by simp)
    · have := exfil_short h
      simpa [chars] using this
  | bny => exact bexfil_short h
  | msg => exact absurd h (by simp)
  | ano => exact absurd h (by simp)

/-- The first counter in a group of eight bytes or more, or in a framed stream, does not make the parser wait. -/
theorem peek_group {cold : Cold} {v : Ver} {content : Bytes} {framed : Bool} (hw : framed = true ∨ 8 ≤ content.length) :
    peek cold framed ⟨content, [], v⟩ = peek cold true ⟨content, [], v⟩ := by
  cases framed with
  | true => rfl
  | false =>
    rcases hw with hw | hw
    · exact absurd hw (by simp)
    unfold peek extractor
    conv => lhs; rw [extractGo.eq_def]
    conv => rhs; rw [extractGo.eq_def]
    simp only
    cases hv : (peekCtr v cold content).val with
    | ok c => rfl
    | error e =>
      have : e ≠ .shortage := by
        rintro rfl
        have := peek_short hv
        omega
      simp only [this, false_and, if_false]

theorem inside_past {β : Type} {L : Loader β} (hL : L.Sane) {d n : Nat} {g : GSt β} {cold : Cold} {v : Ver} {content rest : Bytes}
    (hw : g.framed = true ∨ 8 ≤ content.length) (hst : g.stack = []) (hn : content.length + rest.length < n) :
    Past L d v rest g.out (inside L d n g cold v content rest) := by
  unfold inside
  rw [peek_group hw]
  rcases peek_cases (cold := cold) (s := ⟨content, [], v⟩) rfl with ⟨c', p1, p2, p3⟩ | ⟨e, p1, p2⟩
  · rw [p1]
    simp only
    by_cases hgv : c'.code = gvcCode
    · rw [if_pos hgv]
      have hset := calm_setVer c' ⟨content.drop (ctrSize v cold c'), [], v⟩ rfl
      cases hsv : setVer c' ⟨content.drop (ctrSize v cold c'), [], v⟩ with
      | wait => rw [hsv] at hset; exact absurd hset (by simp)
      | ok a s' =>
        rw [hsv] at hset
        simp only [List.length_drop] at hset
        refine group_junk hL d v rest n { g with eggs := true, cur := s', framed := true, svrsn := some s'.ver, stack := (v, rest) :: g.stack } []
          (by simp [hst]) rfl rfl hset.1 ?_
        simp only [held, List.map_nil, List.sum_nil]
        omega
      | err e s' =>
        rw [hsv] at hset
        obtain ⟨ex, r1, r2, r3⟩ := raised_stack (g := { g with eggs := true, stack := (v, rest) :: g.stack }) (v := v) (rest := rest) (st := [])
          (by simp [hst]) rfl hset.1 (e := e)
        exact Or.inl ⟨[], ex, by rw [List.append_nil]; exact r1, r2, r3⟩
    · rw [if_neg hgv]
      refine group_junk hL d v rest n { g with eggs := true, cur := ⟨content, [], g.svrsn.getD v⟩, framed := true, stack := (v, rest) :: g.stack } []
        (by simp [hst]) rfl rfl rfl ?_
      simp only [held, List.map_nil, List.sum_nil]
      omega
  · rw [p1]
    refine Or.inl ⟨[], if extraction e then .sized else .other, ?_, ?_, ?_⟩
    · simp [raised, hst]
    · split <;> simp
    · split <;> simp

theorem wrapped_flow {β : Type} {L : Loader β} {u : Ver} {b : Bytes} {es : List (Exts β)} (h : Wrapped L u b es) :
    ∃ es', All2 Same es es' ∧ Flow L u b es' ∧ Stop u b := by
  induction h with
  | series h =>
    obtain ⟨es', h1, h2, h3⟩ := series_upto h (tail := []) (allLt_nil _) (Or.inl rfl)
    rw [List.append_nil] at h2 h3
    exact ⟨es', h1, .run h2, h3⟩
  | @message a b bs e es h1 h2 _ ih =>
    obtain ⟨es', i1, i2, i3⟩ := ih
    obtain ⟨e', s1, s4⟩ := built_plain h1 h2
    exact ⟨e' :: es', .cons s1 i1, .msg s4 (fun _ => i3) i2, by simpa using genus_stops (bin := true) (pre := []) .same s4 i2.lt⟩
  | @plain u bin body g rest es1 es2 _ h2 h3 _ ih1 ih2 =>
    obtain ⟨f1, i1, i2, i3⟩ := ih1
    obtain ⟨f2, j1, j2, j3⟩ := ih2
    obtain ⟨t, rfl, hg⟩ := enclose_group h3
    obtain ⟨pre, w, body', rfl, k1, k2, k3⟩ := i2.opens h2
    refine ⟨f1 ++ f2, all2_append i1 j1, ?_, ?_⟩
    · rw [List.append_assoc]
      exact .group hg k1 k3 k2 j2
    · rw [List.append_assoc]
      exact group_stops hg ((allLt_append _ _ _).2 ⟨(allLt_append _ _ _).2 ⟨k1.lt, k2.lt⟩, j2.lt⟩)
  | @versioned u w bin c pre body g rest es1 es2 _ h2 h3 h4 h5 h6 _ ih1 ih2 =>
    obtain ⟨f1, i1, i2, i3⟩ := ih1
    obtain ⟨f2, j1, j2, j3⟩ := ih2
    obtain ⟨t, rfl, hg⟩ := enclose_group h6
    have hgen : Genus u bin pre w := .change ⟨h3, h2⟩ h4 h5
    refine ⟨f1 ++ f2, all2_append i1 j1, ?_, ?_⟩
    · rw [List.append_assoc]
      refine .group hg hgen ?_ i2 j2
      intro h0
      exact absurd h0 (Front.facts ⟨h3, h2⟩).2.2.2.1
    · rw [List.append_assoc]
      exact group_stops hg ((allLt_append _ _ _).2 ⟨(allLt_append _ _ _).2 ⟨hgen.lt, i2.lt⟩, j2.lt⟩)

/-- **C90.** Generic groups, one in another and of any version, change nothing about the messages in them: all are delivered, in order. -/
theorem c90_generic_transparent {β : Type} (L : Loader β) (u : Ver) (b : Bytes) (es : List (Exts β)) (framed : Bool) (n : Nat) (h : Wrapped L u b es) :
    ∃ es', parse L framed (n + 1) ⟨b, [], u⟩ = (es', true) ∧ All2 Same es es' := by
  obtain ⟨es', h1, h2, _⟩ := wrapped_flow h
  refine ⟨es', ?_, h1⟩
  by_cases hb : b = []
  · subst hb
    have := flow_nil h2 rfl
    subst this
    simp [parse]
  · exact parse_flow h2 framed n hb

/-- **C88.** Whatever is in a generic group, the messages before it and after it are delivered, all of them and in order; what is made of its
content comes between. -/
theorem c88_failures_stay_inside {β : Type} (L : Loader β) (hL : L.Sane) (u : Ver) (as1 as2 : List Args) (b1 b2 content g : Bytes) (es1 es2 : List (Exts β))
    (bin framed : Bool) (n : Nat) (h1 : Series L u as1 b1 es1) (hg : enclose (lastVer u as1) bin (genericCode (lastVer u as1)) content = .ok g)
    (hc : AllLt 256 content) (hw : framed = true ∨ 8 ≤ content.length) (h2 : Series L (lastVer u as1) as2 b2 es2) :
    ∃ es1' junk es2', parse L framed (n + 2) ⟨b1 ++ (g ++ b2), [], u⟩ = (es1' ++ junk ++ es2', true) ∧ All2 Same es1 es1' ∧ All2 Same es2 es2' := by
  obtain ⟨t, rfl, hgr⟩ := enclose_group hg
  obtain ⟨es2', k1, k2, k3⟩ := series_stream h2
  obtain ⟨es2u, m1, m2, m3⟩ := series_upto h2 (tail := []) (allLt_nil _) (Or.inl rfl)
  rw [List.append_nil] at m2 m3
  have hl2 : AllLt 256 b2 := k2.lt
  rw [List.append_assoc]
  have hlr : AllLt 256 (content ++ b2) := (allLt_append _ _ _).2 ⟨hc, hl2⟩
  have hlt : AllLt 256 (t ++ (content ++ b2)) := (allLt_append _ _ _).2 ⟨hgr.lt, hlr⟩
  obtain ⟨es1', j1, j2, j3⟩ := series_upto h1 hlt (group_stops hgr hlr)
  have hpos : 0 < t.length := by
    obtain ⟨c, f, _⟩ := hgr.front
    exact List.length_pos_iff.2 f.facts.2.2.2.1
  obtain ⟨b, hb⟩ : ∃ b, b = b1 ++ (t ++ (content ++ b2)) := ⟨_, rfl⟩
  rw [← hb] at j2 j3 ⊢
  have hbl : b.length = b1.length + (t.length + (content.length + b2.length)) := by rw [hb]; simp only [List.length_append]
  have ht : total ⟨b, [], u⟩ = b.length := by simp [total]
  have hb0 : b ≠ [] := by intro h; rw [h] at hbl; simp at hbl; omega
  obtain ⟨n', g1, g2, g3, g4⟩ := group_upto j2 hlt (d := b.length) (by omega) (b.length + 1) { cur := ⟨b, [], u⟩, framed := framed } rfl (by omega)
  obtain ⟨n', rfl⟩ : ∃ m, n' = m + 1 := ⟨n' - 1, by omega⟩
  have g1 := g1.trans (group_generic (rest := b2) hgr hc hl2 rfl)
  have hpast := inside_past hL (d := b.length + 1) (n := n') (cold := coldOf bin) (v := lastVer u as1) (content := content) (rest := b2)
    (g := { cur := ⟨t ++ (content ++ b2), [], lastVer u as1⟩, framed := framed, out := [] ++ es1' }) hw rfl
    (by simp only [List.length_append] at g3; omega)
  have hga : groupAll L framed ⟨b, [], u⟩ = inside L (b.length + 1) n' { cur := ⟨t ++ (content ++ b2), [], lastVer u as1⟩, framed := framed, out := [] ++ es1' }
      (coldOf bin) (lastVer u as1) content b2 := by
    unfold groupAll
    rw [ht, g1]
  rw [← hga] at hpast
  unfold parse
  simp only [if_neg hb0]
  rcases hpast with ⟨junk, ex, p1, p2, p3⟩ | ⟨junk, n2, sv, p1, p2⟩
  · rw [p1]
    simp only [if_neg p2, after, if_neg p3, parse_stream k2 n, List.nil_append]
    exact ⟨es1', junk, es2', rfl, j1, k1⟩
  · obtain ⟨n3, q1, q2, q3, q4⟩ := group_upto m2 (allLt_nil _) (d := b.length) (by simp; omega) n2
      { cur := ⟨b2, [], lastVer u as1⟩, framed := true, eggs := true, svrsn := sv, stack := [], out := [] ++ es1' ++ junk } rfl p2
    obtain ⟨n3, rfl⟩ : ∃ m, n3 = m + 1 := ⟨n3 - 1, by omega⟩
    simp only [List.nil_append] at p1 q1
    rw [q1] at p1
    rw [group_done rfl rfl] at p1
    rw [p1]
    refine ⟨es1', junk, es2u, ?_, j1, m1⟩
    have : ∀ w, parse L framed (n + 1) ⟨[], [], w⟩ = ([], true) := by intro w; simp [parse]
    simp [after, this]

end Verif.Prs
