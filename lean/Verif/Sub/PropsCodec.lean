import Verif.Sub.Codec
import Verif.Sub.Keys

/-! # C180: what is written is read back -/

namespace Verif.Sub

open Verif.Db

/-! ## Base64 texts -/

/-- **C180, Base64 texts.** Texts that are all Base64, of which there is at least one, are read back. -/
theorem c180_b64_partial (sep : Nat) (hs : b64Char sep = false) (vs : List Bytes) (hne : vs ≠ [])
    (hv : ∀ p, p ∈ vs → ∀ x, x ∈ p → b64Char x = true) : Good (b64Codec sep) vs := by
  refine ⟨join sep vs, ?_, ?_⟩
  · simp only [b64Codec]
    rw [if_pos]
    rw [List.all_eq_true]
    intro p hp
    rw [List.all_eq_true]
    exact hv p hp
  · simp only [b64Codec]
    rw [split_join hne]
    intro p hp hm
    have := hv p hp sep hm
    rw [hs] at this; cases this

/-- **C180, Base64 texts, refusal.** If one of them is not Base64 nothing is written. -/
theorem c180_b64_refused (sep : Nat) (vs : List Bytes) (p : Bytes) (hp : p ∈ vs) (x : Nat) (hx : x ∈ p) (hb : b64Char x = false) :
    (b64Codec sep).ser vs = .error .valueError := by
  simp only [b64Codec]
  rw [if_neg]
  intro h
  rw [List.all_eq_true] at h
  have := h p hp
  rw [List.all_eq_true] at this
  exact absurd (this x hx) (by simp [hb])

/-- No texts at all are read back as one empty text. -/
theorem c180_b64_empty (sep : Nat) : (b64Codec sep).ser [] = .ok [] ∧ (b64Codec sep).des [] = .ok [[]] := ⟨rfl, rfl⟩

example : Good (b64Codec 46) [[65, 45], [], [95]] :=
  c180_b64_partial 46 (by decide) _ (by simp) (by decide)
example : (b64Codec 46).ser [[65], [46]] = .error .valueError := c180_b64_refused 46 _ [46] (by simp) 46 (by simp) (by decide)

/-! ## Concatenated primitives -/

theorem ofBytes_toBytes (s : List Char) : ofBytes (toBytes s) = s := by
  induction s with
  | nil => rfl
  | cons c s ih =>
    simp only [toBytes, ofBytes, List.map_cons] at ih ⊢
    rw [ih, Char.ofNat_toNat]

/-- A primitive as its constructor makes it. -/
def Made (m : Verif.Matter.Mat) : Prop := ∃ code soft raw rize, AllLt 256 raw ∧ Verif.Matter.make code soft raw rize = .ok m

theorem catAll_ok : ∀ (vs : List Prim), (∀ p, p ∈ vs → Made p.mat) → ∃ s, catAll vs = .ok (toBytes s) ∧
    ∀ (fits : Nat → Verif.Matter.Mat → Bool) (n : Nat) (rest : List Char), (∀ p, p ∈ vs.take n → fits p.klas p.mat = true) → n ≤ vs.length →
      readAll fits ((vs.take n).map (·.klas)) (s ++ rest) = .ok (vs.take n)
  | [], _ => ⟨[], rfl, fun fits n rest _ _ => by simp [readAll]⟩
  | p :: vs, h => by
    obtain ⟨s, h1, h2⟩ := catAll_ok vs (fun q hq => h q (by simp [hq]))
    obtain ⟨code, soft, raw, rize, hraw, hmk⟩ := h p (by simp)
    obtain ⟨t, k1, k2, k3, _⟩ := Verif.Matter.c03_text_roundtrip code soft raw rize p.mat hraw hmk
    refine ⟨t ++ s, ?_, fun fits n rest hf hn => ?_⟩
    · simp only [catAll, k1, h1, toBytes, List.map_append]
    · cases n with
      | zero => rfl
      | succ n =>
        have h4 := (Verif.Matter.c06_self_framing t p.mat t.length k2 k3 (s ++ rest)).2
        rw [List.take_of_length_le (by omega)] at h4
        simp only [List.take_succ_cons, List.map_cons, readAll]
        rw [List.append_assoc, h4]
        dsimp only
        rw [if_pos (hf p (by simp)), k3]
        dsimp only
        rw [List.drop_left, h2 fits n rest (fun q hq => hf q (by simp [hq])) (by simpa using hn)]

theorem sameKlas_iff : ∀ (ks : List Nat) (vs : List Prim), sameKlas ks vs = true ↔ vs.map (·.klas) = ks
  | [], [] => by simp [sameKlas]
  | [], _ :: _ => by simp [sameKlas]
  | _ :: _, [] => by simp [sameKlas]
  | k :: ks, p :: vs => by simp [sameKlas, sameKlas_iff ks vs]

/-- **C180, primitives.** Primitives whose classes are those of the sub-database, in order, are read back, strictly or not. -/
theorem c180_cesr (fits : Nat → Verif.Matter.Mat → Bool) (ks : List Nat) (strict : Bool) (vs : List Prim) (hk : vs.map (·.klas) = ks)
    (hv : ∀ p, p ∈ vs → Made p.mat ∧ fits p.klas p.mat = true) : Good (catCodec fits ks strict) vs := by
  obtain ⟨s, h1, h2⟩ := catAll_ok vs (fun p hp => (hv p hp).1)
  have h3 := h2 fits vs.length [] (by rw [List.take_length]; exact fun p hp => (hv p hp).2) (Nat.le_refl _)
  rw [List.take_length, List.append_nil, hk] at h3
  refine ⟨toBytes s, ?_, ?_⟩
  · simp only [catCodec]
    rw [if_neg]
    · exact h1
    · simp [(sameKlas_iff ks vs).2 hk]
  · simp only [catCodec, ofBytes_toBytes]
    exact h3

/-- **C180, primitives, strict.** A strict sub-database refuses primitives of other classes or another number of them. -/
theorem c180_cesr_refused (fits : Nat → Verif.Matter.Mat → Bool) (ks : List Nat) (vs : List Prim) (hk : vs.map (·.klas) ≠ ks) :
    (catCodec fits ks true).ser vs = .error .valueError := by
  simp only [catCodec]
  rw [if_pos]
  cases h : sameKlas ks vs
  · rfl
  · exact absurd ((sameKlas_iff ks vs).1 h) hk

/-- **C180, primitives, not strict.** More primitives than classes are written, and the first ones are read: the others are lost. -/
theorem c180_cesr_lost (fits : Nat → Verif.Matter.Mat → Bool) (ks : List Nat) (vs more : List Prim) (hk : vs.map (·.klas) = ks)
    (hv : ∀ p, p ∈ vs ++ more → Made p.mat) (hf : ∀ p, p ∈ vs → fits p.klas p.mat = true) :
    ∃ b, (catCodec fits ks false).ser (vs ++ more) = .ok b ∧ (catCodec fits ks false).des b = .ok vs := by
  obtain ⟨s, h1, h2⟩ := catAll_ok (vs ++ more) hv
  have ht : (vs ++ more).take vs.length = vs := by simp
  have h3 := h2 fits vs.length [] (by rw [ht]; exact hf) (by simp)
  rw [ht, List.append_nil, hk] at h3
  refine ⟨toBytes s, ?_, ?_⟩
  · simp only [catCodec, Bool.false_and, Bool.false_eq_true, if_false]; exact h1
  · simp only [catCodec, ofBytes_toBytes]
    exact h3

/-- A digest of thirty two bytes, and a number. -/
def demoDig : Verif.Matter.Mat := ⟨['E'], [], List.replicate 32 7⟩
def demoNum : Verif.Matter.Mat := ⟨['M'], [], [1, 2]⟩

theorem demo_made : Made demoDig ∧ Made demoNum :=
  ⟨⟨['E'], [], List.replicate 32 7, none, by decide, by decide +kernel⟩, ⟨['M'], [], [1, 2], none, by decide, by decide +kernel⟩⟩

/-- The class of numbers (1) and that of digests (2), by code. -/
def demoFits (k : Nat) (m : Verif.Matter.Mat) : Bool := if k = 1 then decide (m.code = ['M']) else decide (m.code = ['E'])

example (strict : Bool) : Good (catCodec demoFits [1, 2] strict) [⟨1, demoNum⟩, ⟨2, demoDig⟩] :=
  c180_cesr demoFits [1, 2] strict _ rfl (by
    intro p hp
    simp only [List.mem_cons, List.not_mem_nil, or_false] at hp
    rcases hp with rfl | rfl
    · exact ⟨demo_made.2, by decide⟩
    · exact ⟨demo_made.1, by decide⟩)
example : ∃ b, (catCodec demoFits [1] false).ser [⟨1, demoNum⟩, ⟨2, demoDig⟩] = .ok b ∧ (catCodec demoFits [1] false).des b = .ok [⟨1, demoNum⟩] :=
  c180_cesr_lost demoFits [1] [⟨1, demoNum⟩] [⟨2, demoDig⟩] rfl (by
    intro p hp
    simp only [List.mem_append, List.mem_cons, List.not_mem_nil, or_false] at hp
    rcases hp with rfl | rfl
    · exact demo_made.2
    · exact demo_made.1) (by decide)
example : (catCodec demoFits [1] true).ser [⟨1, demoNum⟩, ⟨2, demoDig⟩] = .error .valueError :=
  c180_cesr_refused demoFits [1] _ (by decide)
/-- Fewer than the classes: written if not strict, then reading raises. -/
example : ∃ b, (catCodec demoFits [1, 2] false).ser [⟨1, demoNum⟩] = .ok b ∧ (catCodec demoFits [1, 2] false).des b ≠ .ok [⟨1, demoNum⟩] ∧
    ((catCodec demoFits [1, 2] false).des b).toBool = false :=
  ⟨toBytes ['M', 'A', 'E', 'C'], by decide +kernel⟩

/-! ## Records -/

mutual
/-- No instances inside. -/
def Plain : Val → Prop
  | .atom _ => True
  | .text _ => True
  | .list l => PlainL l
  | .dict l => PlainK l
  | .inst _ _ => False
def PlainL : Vals → Prop
  | .nil => True
  | .cons v r => Plain v ∧ PlainL r
def PlainK : Kvs → Prop
  | .nil => True
  | .cons _ v r => Plain v ∧ PlainK r
end

mutual
/-- The value is of the type: instances only where a dataclass is annotated, with the fields of the class in order. None and numbers
are admitted there too. -/
def Typed : Ty → Val → Prop
  | .other, v => Plain v
  | .data c fs, .inst c' l => c' = c ∧ TypedK fs l
  | .data _ _, .atom _ => True
  | .data _ _, _ => False
def TypedK : Flds → Kvs → Prop
  | .nil, .nil => True
  | .cons k ty _ r, .cons k' v r' => k' = k ∧ Typed ty v ∧ TypedK r r'
  | _, _ => False
end

def Flds.has (k : Nat) : Flds → Prop
  | .nil => False
  | .cons k' _ _ r => k' = k ∨ r.has k

mutual
/-- Names of fields differ, in nested classes too. -/
def Ty.distinct : Ty → Prop
  | .other => True
  | .data _ fs => fs.distinct
def Flds.distinct : Flds → Prop
  | .nil => True
  | .cons k ty _ r => ¬ r.has k ∧ ty.distinct ∧ r.distinct
end

mutual
theorem dictify_plain : ∀ (v : Val), Plain v → dictify v = v
  | .atom _, _ => rfl
  | .text _, _ => rfl
  | .list l, h => by simp only [dictify]; rw [dictifyL_plain l h]
  | .dict l, h => by simp only [dictify]; rw [dictifyK_plain l h]
  | .inst _ _, h => h.elim
theorem dictifyL_plain : ∀ (l : Vals), PlainL l → dictifyL l = l
  | .nil, _ => rfl
  | .cons v r, h => by simp only [dictifyL]; rw [dictify_plain v h.1, dictifyL_plain r h.2]
theorem dictifyK_plain : ∀ (l : Kvs), PlainK l → dictifyK l = l
  | .nil, _ => rfl
  | .cons k v r, h => by simp only [dictifyK]; rw [dictify_plain v h.1, dictifyK_plain r h.2]
end

theorem datify_other (v : Val) : datify .other v = v := by
  cases v with
  | atom n => simp [datify]
  | text s => cases s <;> simp [datify]
  | list l => cases l <;> simp [datify]
  | dict l => simp [datify]
  | inst c l => simp [datify]

theorem typedK_none : ∀ (fs : Flds) (l : Kvs) (k : Nat), TypedK fs l → ¬ fs.has k → l.find? k = none
  | .nil, .nil, _, _, _ => rfl
  | .cons k1 ty d r, .cons k2 v r', k, h, hn => by
    simp only [TypedK] at h
    simp only [Flds.has, not_or] at hn
    simp only [Kvs.find?]
    rw [if_neg (by rw [h.1]; exact hn.1)]
    exact typedK_none r r' k h.2.2 hn.2
  | .nil, .cons _ _ _, _, h, _ => by simp [TypedK] at h
  | .cons _ _ _ _, .nil, _, h, _ => by simp [TypedK] at h

/-- Looking up fields of the class in the values. -/
theorem build_ok : ∀ (fs : Flds) (l kw : Kvs), TypedK fs l → fs.distinct → (∀ k, fs.has k → kw.find? k = l.find? k) → build kw fs = some l
  | .nil, .nil, _, _, _, _ => rfl
  | .cons k ty d r, .cons k' v r', kw, h, hd, hl => by
    simp only [TypedK] at h
    obtain ⟨rfl, _, h⟩ := h
    simp only [Flds.distinct] at hd
    simp only [build]
    rw [hl k' (Or.inl rfl)]
    simp only [Kvs.find?, if_pos]
    rw [build_ok r r' kw h hd.2.2]
    intro k hk
    rw [hl k (Or.inr hk)]
    simp only [Kvs.find?]
    rw [if_neg]
    rintro rfl
    exact hd.1 hk
  | .nil, .cons _ _ _, _, h, _, _ => by simp [TypedK] at h
  | .cons _ _ _ _, .nil, _, h, _, _ => by simp [TypedK] at h

mutual
theorem datify_dictify : ∀ (ty : Ty) (v : Val), Typed ty v → ty.distinct → datify ty (dictify v) = v
  | .other, v, h, _ => by rw [datify_other]; exact dictify_plain v (by simpa [Typed] using h)
  | .data c fs, .inst c' l, h, hd => by
    simp only [Typed] at h
    obtain ⟨rfl, h⟩ := h
    simp only [Ty.distinct] at hd
    simp only [dictify, datify]
    rw [datifyK_dictify fs l fs h hd (fun k ty hk => hk)]
    dsimp only
    rw [build_ok fs l l h hd (fun _ _ => rfl)]
  | .data _ _, .atom _, _, _ => by simp [dictify, datify]
  | .data _ _, .text _, h, _ => by simp [Typed] at h
  | .data _ _, .list _, h, _ => by simp [Typed] at h
  | .data _ _, .dict _, h, _ => by simp [Typed] at h
theorem datifyK_dictify : ∀ (fs : Flds) (l : Kvs) (all : Flds), TypedK fs l → fs.distinct →
    (∀ k ty, fs.find? k = some ty → all.find? k = some ty) → datifyK all (dictifyK l) = some l
  | .nil, .nil, _, _, _, _ => by simp [dictifyK, datifyK]
  | .cons k ty d r, .cons k' v r', all, h, hd, ha => by
    simp only [TypedK] at h
    obtain ⟨rfl, hv, h⟩ := h
    simp only [Flds.distinct] at hd
    simp only [dictifyK, datifyK]
    rw [ha k' ty (by simp [Flds.find?])]
    dsimp only
    rw [datifyK_dictify r r' all h hd.2.2 ?_]
    · dsimp only
      rw [datify_dictify ty v hv hd.2.1]
    · intro k ty' hk
      apply ha
      simp only [Flds.find?]
      rw [if_neg]
      · exact hk
      · rintro rfl
        exact hd.1 (find_has r k' ty' hk)
  | .nil, .cons _ _ _, _, h, _, _ => by simp [TypedK] at h
  | .cons _ _ _ _, .nil, _, h, _, _ => by simp [TypedK] at h
theorem find_has : ∀ (fs : Flds) (k : Nat) (ty : Ty), fs.find? k = some ty → fs.has k
  | .nil, _, _, h => by simp [Flds.find?] at h
  | .cons k' _ _ r, k, ty, h => by
    simp only [Flds.find?] at h
    split at h
    · rename_i hk; exact Or.inl hk
    · exact Or.inr (find_has r k ty h)
end

/-- **C180 (partial), records.** An instance of the class whose fields hold instances only where a dataclass is annotated is read back,
nested records as well, if the serialization gives back the dict written. Missing: records in lists or optional fields, which are read
back as dicts (`c180_records_inside`). -/
theorem c180_records_partial (dumps : Val → Bytes) (loads : Bytes → Except Err Val) (c : Nat) (fs : Flds) (v : Val) (hd : fs.distinct)
    (hv : Typed (.data c fs) v) (hi : isInst c v = true) (hl : loads (dumps (dictify v)) = .ok (dictify v)) :
    Good (recCodec dumps loads c fs) v := by
  refine ⟨dumps (dictify v), by simp [recCodec, hi], ?_⟩
  simp only [recCodec, hl]
  rw [datify_dictify (.data c fs) v hv (by simpa [Ty.distinct] using hd), if_pos hi]

/-- **C180, records, refusal.** What is not an instance of the class is not written, and what is read is an instance of it. -/
theorem c180_records_class (dumps : Val → Bytes) (loads : Bytes → Except Err Val) (c : Nat) (fs : Flds) :
    (∀ v, isInst c v = false → (recCodec dumps loads c fs).ser v = .error .valueError) ∧
    ∀ b v, (recCodec dumps loads c fs).des b = .ok v → ∃ l, v = .inst c l := by
  refine ⟨fun v h => by simp [recCodec, h], fun b v h => ?_⟩
  simp only [recCodec] at h
  cases hb : loads b with
  | error e => rw [hb] at h; cases h
  | ok d =>
    rw [hb] at h
    dsimp only at h
    split at h
    · rename_i hi
      injection h with h
      rw [h] at hi
      cases v with
      | inst c' l => simp only [isInst, decide_eq_true_eq] at hi; exact ⟨l, by rw [hi]⟩
      | atom _ => cases hi
      | text _ => cases hi
      | list _ => cases hi
      | dict _ => cases hi
    · cases h

def Kvs.has (k : Nat) : Kvs → Prop
  | .nil => False
  | .cons k' _ r => k' = k ∨ r.has k

theorem datifyK_unknown (fs : Flds) (k : Nat) (hf : fs.find? k = none) : ∀ (l : Kvs), l.has k → datifyK fs l = none
  | .nil, h => h.elim
  | .cons k' v r, h => by
    simp only [datifyK]
    rcases h with rfl | h
    · rw [hf]
    · cases fs.find? k' with
      | none => rfl
      | some ty => dsimp only; rw [datifyK_unknown fs k hf r h]

/-- **C180, records, unknown fields.** A stored dict with a field that the class does not have is not read: the exception is ValueError. -/
theorem c180_records_unknown (dumps : Val → Bytes) (loads : Bytes → Except Err Val) (c : Nat) (fs : Flds) (b : Bytes) (l : Kvs) (k : Nat)
    (hb : loads b = .ok (.dict l)) (hk : l.has k) (hf : fs.find? k = none) : (recCodec dumps loads c fs).des b = .error .valueError := by
  simp only [recCodec, hb, datify, datifyK_unknown fs k hf l hk, isInst, Bool.false_eq_true, if_false]

/-- A record with two fields that have defaults, and one that holds it, as `StateEERecord` in `KeyStateRecord` (recording.py:58-129). -/
def eeFlds : Flds := .cons 0 .other (some (.text [48])) (.cons 1 .other (some (.list .nil)) .nil)
def stFlds : Flds := .cons 0 .other (some (.text [])) (.cons 1 (.data 1 eeFlds) (some (.inst 1 (.cons 0 (.text [48]) (.cons 1 (.list .nil) .nil)))) .nil)
def ee : Val := .inst 1 (.cons 0 (.text [49]) (.cons 1 (.list (.cons (.text [66]) .nil)) .nil))
def st : Val := .inst 2 (.cons 0 (.text [65]) (.cons 1 ee .nil))

example (dumps : Val → Bytes) (loads : Bytes → Except Err Val) (hl : loads (dumps (dictify st)) = .ok (dictify st)) :
    Good (recCodec dumps loads 2 stFlds) st :=
  c180_records_partial dumps loads 2 stFlds st (by simp [stFlds, eeFlds, Flds.distinct, Ty.distinct, Flds.has])
    (by simp [st, ee, stFlds, eeFlds, Typed, TypedK, Plain, PlainL]) rfl hl

/-- **C180, records inside.** What is read instead: a record in a list (or an optional field) comes back as a dict; a nested record with a
field that its class does not have comes back as a dict without any exception; an empty text where a record of defaults is annotated
comes back as that record. -/
theorem c180_records_inside (dumps : Val → Bytes) (loads : Bytes → Except Err Val) :
    (∀ v, v = Val.inst 2 (.cons 0 (.list (.cons ee .nil)) (.cons 1 ee .nil)) → loads (dumps (dictify v)) = .ok (dictify v) →
      (recCodec dumps loads 2 stFlds).ser v = .ok (dumps (dictify v)) ∧
      (recCodec dumps loads 2 stFlds).des (dumps (dictify v)) = .ok (.inst 2 (.cons 0 (.list (.cons (dictify ee) .nil)) (.cons 1 ee .nil))) ∧
      dictify ee ≠ ee) ∧
    (∀ b, loads b = .ok (.dict (.cons 0 (.text []) (.cons 1 (.dict (.cons 7 (.atom 0) .nil)) .nil))) →
      (recCodec dumps loads 2 stFlds).des b = .ok (.inst 2 (.cons 0 (.text []) (.cons 1 (.dict (.cons 7 (.atom 0) .nil)) .nil)))) ∧
    (∀ b, loads b = .ok (.dict (.cons 0 (.text []) (.cons 1 (.text []) .nil))) →
      (recCodec dumps loads 2 stFlds).des b =
        .ok (.inst 2 (.cons 0 (.text []) (.cons 1 (.inst 1 (.cons 0 (.text [48]) (.cons 1 (.list .nil) .nil))) .nil)))) := by
  refine ⟨?_, ?_, ?_⟩
  · rintro v rfl hl
    refine ⟨rfl, ?_, by simp [ee, dictify]⟩
    simp only [recCodec, hl]
    rfl
  · intro b hl; simp only [recCodec, hl]; rfl
  · intro b hl; simp only [recCodec, hl]; rfl

end Verif.Sub
