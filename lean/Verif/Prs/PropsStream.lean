import Verif.Prs.Sent

/-!
# Messages survive the stream (C85, C86, C87)

`Built L a b e` says that `messagize` with the arguments `a` made the bytes `b`, that the primitives are of the proper classes and the body is
readable, and that `e` is what the message carries; `Same` compares what the receiver gets with it (Spec.lean).
-/

namespace Verif.Prs

open Verif.Matter (Mat)
open Verif.Idr (Ixr)
open Verif.Ctr (Ver Counter)
open Verif.B64

/-- Messages built one by one, each readable in the version the one before leaves. -/
inductive Series {β : Type} (L : Loader β) : Ver → List Args → Bytes → List (Exts β) → Prop where
  | nil {u : Ver} : Series L u [] [] []
  | cons {u : Ver} {a : Args} {b bs : Bytes} {e : Exts β} {as : List Args} {es : List (Exts β)} : Built L a b e → a.readable u → Series L a.ver as bs es →
      Series L u (a :: as) (b ++ bs) (e :: es)

theorem Message.stops {β : Type} {L : Loader β} {sub : Bool → P (Exts β)} {v : Ver} {self : Bool} {enc rest : Bytes} {e : Exts β}
    (h : Message L sub v self enc e) (hr : AllLt 256 rest) : Stop v (enc ++ rest) := by
  have ctr : ∀ {bin : Bool} {c : Counter} {t r : Bytes}, Front v bin c t → AllLt 256 r → classify v c.code = .nest → Stop v (t ++ r) :=
    fun h1 h2 h3 => Or.inr (Or.inr ⟨_, _, h1.facts.2.2.2.2.1 _, coldOf_ne _, h1.facts.1 _ h2, Or.inr h3⟩)
  have body : ∀ {bin : Bool} {c : Counter} {b g : Bytes} {x : β}, CtrBody L v bin c b x → AllLt 256 g → Stop v (b ++ g ++ rest) := by
    intro bin c b g x h hg
    have hgr := (allLt_append _ _ _).2 ⟨hg, hr⟩
    rw [List.append_assoc]
    cases h with
    | nonnative h1 h2 h3 h4 h5 =>
      obtain ⟨e', e1, _, e3, _⟩ := mat_frames h3.1 bin
      rw [h4] at e1
      injection e1 with e1
      rw [List.append_assoc]
      refine ctr h1 ((allLt_append _ _ _).2 ⟨by rw [e1]; exact e3.lt, hgr⟩) ?_
      unfold isNonNative at h2
      rw [letter_iff] at h2
      cases v <;> rcases h2 with h2 | h2 <;> rw [h2] <;> decide
    | native h1 h2 h3 h4 h5 h6 =>
      rw [List.append_assoc]
      refine ctr h2 ((allLt_append _ _ _).2 ⟨h5, hgr⟩) ?_
      subst h1
      rw [letter_iff] at h3
      rcases h3 with h3 | h3 <;> rw [h3] <;> decide
  cases h with
  | grouped h1 h2 => exact Or.inr (Or.inl (by rw [List.append_assoc, sniff_head h1.ne]; exact h1.msg))
  | flat h1 h2 h3 => exact Or.inr (Or.inl (by rw [List.append_assoc, sniff_head h1.ne]; exact h1.msg))
  | bodyWith h1 =>
    have hl := (Message.head (L := L) (sub := sub) (.bodyWith h1)).2
    obtain ⟨c, t, w, pre, cb, body, bin2, att, f1, f2, f3, f4, f5, f6, rfl⟩ := h1.parts
    have hl2 := ((allLt_append _ _ _).1 hl).2
    rw [List.append_assoc]
    refine ctr f1 ((allLt_append _ _ _).2 ⟨hl2, hr⟩) ?_
    unfold isBodyWith at f2
    rw [letter_iff] at f2
    cases v <;> rcases f2 with f2 | f2 <;> rw [f2] <;> decide
  | native h1 h2 h3 h4 h5 h6 h7 => exact body (.native h1 h2 h3 h4 h5 h6) (h7 true).lt
  | ctrGrouped h1 h2 => exact body h1 (h2 true).lt
  | ctrFlat h1 h2 h3 => exact body h1 (h2 true).front.1.lt

theorem genus_stops {β : Type} {L : Loader β} {u v : Ver} {bin self : Bool} {pre enc rest : Bytes} {e : Exts β} (hg : Genus u bin pre v)
    (h : Sent L v self enc e) (hr : AllLt 256 rest) : Stop u (pre ++ (enc ++ rest)) := by
  have hm := h _ (Nat.le_refl _)
  cases hg with
  | same => exact hm.stops hr
  | change h1 h2 h3 =>
    refine Or.inr (Or.inr ⟨_, _, h1.facts.2.2.2.2.1 _, coldOf_ne _, h1.facts.1 _ ((allLt_append _ _ _).2 ⟨hm.head.2, hr⟩), Or.inl ?_⟩)
    rw [h2]
    cases u <;> decide

/-- A series of built messages is a stream of the parser. -/
theorem series_stream {β : Type} {L : Loader β} {u : Ver} {as : List Args} {b : Bytes} {es : List (Exts β)} (h : Series L u as b es) :
    ∃ es', All2 Same es es' ∧ Stream L false u b es' ∧ Stop u b := by
  induction h with
  | nil => exact ⟨[], .nil, .nil, Or.inl rfl⟩
  | @cons u a b bs e as es h1 h2 _ ih =>
    obtain ⟨es', i1, i2, i3⟩ := ih
    obtain ⟨pre, enc, e', s1, s2, s3, s4⟩ := built_sent h1
    refine ⟨e' :: es', .cons s1 i1, ?_, ?_⟩
    · rw [s2, List.append_assoc]
      exact .cons (s3 u h2) s4 (by simp) (fun _ => i3) i2
    · rw [s2, List.append_assoc]
      exact genus_stops (s3 u h2) s4 i2.lt

/-- The version after the messages. -/
def lastVer (u : Ver) : List Args → Ver
  | [] => u
  | a :: as => lastVer a.ver as

/-- Nothing, or the first bytes of a message that tells where it ends, but not all of them. -/
inductive Cut {β : Type} (L : Loader β) (v : Ver) : Bytes → Prop where
  | none : Cut L v []
  | part {a : Args} {b p : Bytes} {e : Exts β} : Built L a b e → a.readable v → a.enclosed = true → p <+: b → p ≠ b → Cut L v p

theorem series_live {β : Type} {L : Loader β} {u : Ver} {as : List Args} {b p : Bytes} {es : List (Exts β)} (h : Series L u as b es)
    (he : ∀ a ∈ as, a.enclosed = true) (hp : Cut L (lastVer u as) p) : ∃ es', All2 Same es es' ∧ Stream L true u (b ++ p) es' := by
  induction h with
  | nil =>
    refine ⟨[], .nil, ?_⟩
    rw [List.nil_append]
    cases hp with
    | none => exact .nil
    | part h1 h2 h3 h4 h5 =>
      obtain ⟨pre, enc, e', s1, s2, s3, s4⟩ := built_sent h1
      rw [h3] at s4
      rw [s2] at h4 h5
      exact .cut rfl (s3 _ h2) s4 h4 h5
  | @cons u a b bs e as es h1 h2 _ ih =>
    obtain ⟨es', i1, i2⟩ := ih (fun a ha => he a (List.mem_cons_of_mem _ ha)) hp
    obtain ⟨pre, enc, e', s1, s2, s3, s4⟩ := built_sent h1
    rw [he a (by simp)] at s4
    refine ⟨e' :: es', .cons s1 i1, ?_⟩
    rw [s2, List.append_assoc, List.append_assoc]
    exact .cons (s3 u h2) s4 (fun _ => rfl) (by simp) i2

/-- **C85.** What `messagize` builds is read back as one message, with the same body, the same attachments in the same lists and in the same
order, and the same nested messages. -/
theorem c85_message_roundtrip {β : Type} (L : Loader β) (a : Args) (b : Bytes) (e : Exts β) (u : Ver) (framed : Bool) (n : Nat) (h : Built L a b e)
    (hu : a.readable u) : ∃ e', parse L framed (n + 1) ⟨b, [], u⟩ = ([e'], true) ∧ Same e e' := by
  have hs : Series L u [a] (b ++ []) [e] := .cons h hu .nil
  rw [List.append_nil] at hs
  obtain ⟨es', h1, h2, _⟩ := series_stream hs
  cases h1 with
  | cons g1 g2 =>
    cases g2
    exact ⟨_, parse_stream h2 n, g1⟩

/-- **C86.** A stream of such messages is read back as these messages, all of them, in order and nothing else. -/
theorem c86_stream_roundtrip {β : Type} (L : Loader β) (u : Ver) (as : List Args) (b : Bytes) (es : List (Exts β)) (framed : Bool) (n : Nat)
    (h : Series L u as b es) : ∃ es', parse L framed (n + 1) ⟨b, [], u⟩ = (es', true) ∧ All2 Same es es' := by
  obtain ⟨es', h1, h2, _⟩ := series_stream h
  exact ⟨es', parse_stream h2 n, h1⟩

/-- **C87.** However a stream of messages that tell where they end is cut into pieces on its way, the messages that arrived completely are
delivered, all of them, in order, and nothing is made of the beginning of the next. -/
theorem c87_pieces {β : Type} (L : Loader β) (u : Ver) (as : List Args) (b p first : Bytes) (pieces : List Bytes) (es : List (Exts β)) (n : Nat)
    (h : Series L u as b es) (he : ∀ a ∈ as, a.enclosed = true) (hp : Cut L (lastVer u as) p) (hb : first ++ pieces.flatten = b ++ p)
    (hn : pieces.length < n) : ∃ es', parsator L false n ⟨first, pieces, u⟩ = es' ∧ All2 Same es es' := by
  obtain ⟨es', h1, h2⟩ := series_live h he hp
  exact ⟨es', parsator_stream n h2 hb rfl hn, h1⟩

end Verif.Prs
