import Verif.Sch.Model
/-! # C238: a schema is what its identifier says -/

namespace Verif.Sch

variable {V : Type} [DecidableEq V] {w : World V}

/-- What is known of JSON, digests and the text form of digests. -/
structure Lawful (w : World V) : Prop where
  back : ∀ d : Sed V, (d.map (·.1)).Nodup → w.loads (w.dumps d) = some d
  nodup : ∀ b d, w.loads b = some d → (d.map (·.1)).Nodup
  ne : ∀ d : Sed V, w.dumps d ≠ []
  len : ∀ c b, w.dig c = true → (w.digest c b).length = w.size c
  parsed : ∀ t c r, w.parse t = some (c, r) → w.dig c = true → r.length = w.size c
  parse : ∀ c r, w.dig c = true → r.length = w.size c → w.parse (w.qb64 c r) = some (c, r)

/-- The specification: the identifier is the text form of the digest of the schema with the identifier masked, and is the one in the schema. -/
def Addressed (w : World V) (said : Bytes) (d : Sed V) : Prop :=
  ∃ code, w.dig code = true ∧ said = w.qb64 code (w.digest code (w.dumps (d.set idL (.text (w.dummy code))))) ∧ d.get idL = some (.text said)

/-- Two texts with the same digest. -/
def Collision (w : World V) : Prop := ∃ code a b, a ≠ b ∧ w.digest code a = w.digest code b

theorem load_spec {raw : Bytes} {d : Sed V} {code : Nat} {r : Bytes} (h : load w raw = .ok (d, code, r)) :
    w.loads raw = some d ∧ w.dig code = true ∧ w.qb64 code r = w.qb64 code (derive w d code) ∧ d.get idL = some (.text (w.qb64 code r)) ∧ ∃ t, w.parse t = some (code, r) := by
  unfold load at h
  cases hl : w.loads raw with
  | none => rw [hl] at h; cases h
  | some d' =>
    rw [hl] at h
    dsimp only at h
    cases hg : d'.get idL with
    | none => rw [hg] at h; cases h
    | some v =>
      rw [hg] at h
      cases v with
      | other v => cases h
      | text t =>
        dsimp only at h
        cases hp : w.parse t with
        | none => rw [hp] at h; cases h
        | some p =>
          obtain ⟨c', r'⟩ := p
          rw [hp] at h
          dsimp only at h
          by_cases hd : w.dig c' = false
          · rw [if_pos hd] at h; cases h
          · rw [if_neg hd] at h
            cases hc : check w d' c' r' with
            | false => rw [hc] at h; cases h
            | true =>
              rw [hc] at h
              cases h
              unfold check at hc
              by_cases h1 : w.qb64 code r ≠ w.qb64 code (derive w d code)
              · rw [if_pos h1] at hc; cases hc
              · rw [if_neg h1] at hc
                by_cases h2 : d.get idL ≠ some (.text (w.qb64 code r))
                · rw [if_pos h2] at hc; cases hc
                · exact ⟨rfl, by simpa using hd, Decidable.byContradiction h1, Decidable.byContradiction h2, t, hp⟩

theorem ofRaw_spec {raw : Bytes} {v : Bool} {s : Schemer V} (h : ofRaw w raw v = .ok s) : load w raw = .ok (s.sed, s.code, s.dgst) ∧ s.raw = raw ∧ raw ≠ [] ∧ (v = true → w.draft s.sed = true) := by
  unfold ofRaw at h
  by_cases hr : raw = []
  · rw [if_pos hr] at h; cases h
  · rw [if_neg hr] at h
    cases hl : load w raw with
    | error e => rw [hl] at h; cases h
    | ok p =>
      obtain ⟨d, c, r⟩ := p
      rw [hl] at h
      dsimp only at h
      split at h
      · cases h
      · rename_i hv
        cases h
        exact ⟨rfl, rfl, hr, fun hv' => by simpa [hv'] using hv⟩

/-- C238: a schema that is loaded is addressed by its identifier. -/
theorem c238_addressed {raw : Bytes} {v : Bool} {s : Schemer V} (h : ofRaw w raw v = .ok s) : Addressed w (s.said w) s.sed ∧ w.loads raw = some s.sed := by
  obtain ⟨h1, h2, h3, h4, _⟩ := load_spec (ofRaw_spec h).1
  exact ⟨⟨s.code, h2, h3, h4⟩, h1⟩

theorem find_mem {d : Sed V} {v : Val V} (hn : (d.map (·.1)).Nodup) (h : d.get idL = some v) : ∀ p ∈ d, p.1 = idL → p.2 = v := by
  induction d with
  | nil => intro p hp; cases hp
  | cons x d ih =>
    rw [List.map_cons, List.nodup_cons] at hn
    unfold Sed.get at h
    rw [List.find?_cons] at h
    by_cases hx : x.1 = idL
    · simp only [hx, decide_true, Option.map_some, Option.some.injEq] at h
      intro p hp hid
      rcases List.mem_cons.mp hp with rfl | hp
      · exact h
      · exact absurd (List.mem_map.mpr ⟨p, hp, by rw [hid, hx]⟩) hn.1
    · simp only [hx, decide_false] at h
      intro p hp hid
      rcases List.mem_cons.mp hp with rfl | hp
      · exact absurd hid hx
      · exact ih hn.2 h p hp hid

theorem set_keys (d : Sed V) (l : Bytes) (v : Val V) : (d.set l v).map (·.1) = d.map (·.1) := by
  unfold Sed.set
  rw [List.map_map]
  apply List.map_congr_left
  intro p _
  simp only [Function.comp]
  split
  · rename_i h; exact h.symm
  · rfl

theorem set_set (d : Sed V) (l : Bytes) (u v : Val V) : (d.set l u).set l v = d.set l v := by
  unfold Sed.set
  rw [List.map_map]
  apply List.map_congr_left
  intro p _
  simp only [Function.comp]
  by_cases h : p.1 = l
  · rw [if_pos h, if_pos h, if_pos rfl]
  · rw [if_neg h, if_neg h]

theorem set_get {d : Sed V} (hn : (d.map (·.1)).Nodup) {v : Val V} (h : d.get idL = some v) : d.set idL v = d := by
  unfold Sed.set
  rw [List.map_congr_left (g := id)]
  · simp
  · intro p hp
    by_cases hid : p.1 = idL
    · rw [if_pos hid, ← find_mem hn h p hp hid, ← hid]; rfl
    · rw [if_neg hid]; rfl

theorem get_set {d : Sed V} {l : Bytes} (h : (d.get l).isSome) (v : Val V) : (d.set l v).get l = some v := by
  induction d with
  | nil => simp [Sed.get] at h
  | cons x d ih =>
    unfold Sed.get Sed.set
    unfold Sed.get at h
    rw [List.find?_cons] at h
    rw [List.map_cons, List.find?_cons]
    by_cases hx : x.1 = l
    · simp [hx]
    · simp only [hx, decide_false] at h
      simp only [hx, if_false, decide_false]
      exact ih h

/-- C238: an identifier stands for one schema, unless there are two texts with the same digest. -/
theorem c238_one (hw : Lawful w) {d d' : Sed V} (hn : (d.map (·.1)).Nodup) (hn' : (d'.map (·.1)).Nodup) {said : Bytes} (h : Addressed w said d) (h' : Addressed w said d') : d = d' ∨ Collision w := by
  obtain ⟨c, h1, h2, h3⟩ := h
  obtain ⟨c', h1', h2', h3'⟩ := h'
  have e1 := hw.parse c _ h1 (hw.len c (w.dumps (d.set idL (.text (w.dummy c)))) h1)
  have e2 := hw.parse c' _ h1' (hw.len c' (w.dumps (d'.set idL (.text (w.dummy c')))) h1')
  rw [← h2] at e1
  rw [← h2', e1] at e2
  simp only [Option.some.injEq, Prod.mk.injEq] at e2
  obtain ⟨rfl, e2⟩ := e2
  by_cases he : w.dumps (d.set idL (.text (w.dummy c))) = w.dumps (d'.set idL (.text (w.dummy c)))
  · left
    have b1 := hw.back (d.set idL (.text (w.dummy c))) (by rw [set_keys]; exact hn)
    have b2 := hw.back (d'.set idL (.text (w.dummy c))) (by rw [set_keys]; exact hn')
    rw [he, b2] at b1
    have hm := Option.some.inj b1
    rw [← set_get hn h3, ← set_get hn' h3', ← set_set d idL (.text (w.dummy c)), ← hm, set_set]
  · exact .inr ⟨c, _, _, he, e2⟩

/-- C238: a schema that is made of a dict is addressed by its identifier, has the fields of the dict but for that one, and is the same when its serialization is loaded. -/
theorem c238_made (hw : Lawful w) {d : Sed V} (hn : (d.map (·.1)).Nodup) {code : Nat} {v : Bool} {s : Schemer V} (h : ofSed w d code v = .ok s) :
    Addressed w (s.said w) s.sed ∧ s.sed = d.set idL (.text (s.said w)) ∧ ofRaw w s.raw v = .ok s := by
  unfold ofSed at h
  by_cases h1 : d = []
  · rw [if_pos h1] at h; cases h
  · rw [if_neg h1] at h
    by_cases h2 : (d.get idL).isNone
    · rw [if_pos h2] at h; cases h
    · rw [if_neg h2] at h
      by_cases h3 : w.dig code = false
      · rw [if_pos h3] at h; cases h
      · rw [if_neg h3] at h
        dsimp only at h
        by_cases h4 : (v && !w.draft (d.set idL (.text (w.qb64 code (derive w d code))))) = true
        · rw [if_pos h4] at h; cases h
        · rw [if_neg h4] at h
          cases h
          have hdig : w.dig code = true := by simpa using h3
          have hg : (d.get idL).isSome := by
            cases hx : d.get idL with
            | none => rw [hx] at h2; exact absurd rfl h2
            | some _ => rfl
          have hd : derive w (d.set idL (.text (w.qb64 code (derive w d code)))) code = derive w d code := by
            show w.digest code (w.dumps ((d.set idL _).set idL _)) = _
            rw [set_set]
            rfl
          have hgs := get_set hg (.text (w.qb64 code (derive w d code)))
          refine ⟨⟨code, hdig, ?_, hgs⟩, rfl, ?_⟩
          · show w.qb64 code _ = w.qb64 code (derive w (d.set idL (.text (w.qb64 code (derive w d code)))) code)
            rw [hd]
          · unfold ofRaw
            rw [if_neg (hw.ne _)]
            have hload : load w (w.dumps (d.set idL (.text (w.qb64 code (derive w d code))))) = .ok (d.set idL (.text (w.qb64 code (derive w d code))), code, derive w d code) := by
              unfold load
              rw [hw.back _ (by rw [set_keys]; exact hn)]
              dsimp only
              rw [hgs]
              dsimp only
              rw [hw.parse code (derive w d code) hdig (hw.len _ _ hdig)]
              dsimp only
              rw [if_neg h3]
              have hc : check w (d.set idL (.text (w.qb64 code (derive w d code)))) code (derive w d code) = true := by
                unfold check
                rw [hd, hgs]
                simp
              rw [hc]
              rfl
            rw [hload]
            dsimp only
            rw [if_neg h4]

/-- What the database of the cache holds. -/
def Held (w : World V) (db : Db) : Prop := ∀ k raw, db.get k = some raw → ∃ s, ofRaw w raw true = .ok s ∧ s.said w = k ∧ s.raw = raw

theorem get_pin (db : Db) (k v x : Bytes) : (db.pin k v).get x = if x = k then some v else db.get x := by
  unfold Db.pin Db.get
  rw [List.find?_cons]
  by_cases hx : x = k
  · subst hx; simp
  · rw [if_neg hx]
    have : decide ((k, v).1 = x) = false := by simpa using Ne.symm hx
    rw [this]
    dsimp only
    congr 1
    induction db with
    | nil => rfl
    | cons p db ih =>
      rw [List.filter_cons]
      by_cases hp : p.1 = k
      · have h1 : decide (p.1 ≠ k) = false := by simpa using hp
        have h2 : decide (p.1 = x) = false := by rw [hp]; simpa using Ne.symm hx
        rw [h1, List.find?_cons, h2]
        exact ih
      · have h1 : decide (p.1 ≠ k) = true := by simpa using hp
        rw [h1, if_pos rfl, List.find?_cons, List.find?_cons]
        cases decide (p.1 = x) with
        | true => rfl
        | false => exact ih

theorem held_add {db : Db} (h : Held w db) (key raw : Bytes) : Held w (add w db key raw).1 := by
  unfold add
  cases hr : ofRaw w raw true with
  | error e => exact h
  | ok s =>
    dsimp only
    by_cases hk : s.said w ≠ key
    · rw [if_pos hk]; exact h
    · rw [if_neg hk]
      intro k r hg
      dsimp only at hg
      rw [get_pin] at hg
      by_cases hx : k = key
      · rw [if_pos hx] at hg
        cases hg
        have hraw := (ofRaw_spec hr).2.1
        exact ⟨s, by rw [hraw]; exact hr, by rw [hx]; exact Decidable.byContradiction hk, rfl⟩
      · rw [if_neg hx] at hg
        exact h k r hg

theorem held_adds {db : Db} (h : Held w db) (l : List (Bytes × Bytes)) : Held w (adds w db l) := by
  induction l generalizing db with
  | nil => exact h
  | cons p l ih => exact ih (held_add h p.1 p.2)

/-- C238: whatever was added to a cache under whatever keys, resolving does not raise, and what it finds is a schema with that identifier, which passed the check against the draft. -/
theorem c238_resolved (l : List (Bytes × Bytes)) (uri : Bytes) :
    resolve w (adds w [] l) uri = .ok none ∨
    ∃ raw s, resolve w (adds w [] l) uri = .ok (some raw) ∧ ofRaw w raw true = .ok s ∧ s.said w = uri ∧ Addressed w uri s.sed ∧ w.draft s.sed = true := by
  have hh : Held w (adds w [] l) := held_adds (fun k raw hg => by cases hg) l
  unfold resolve
  cases hg : (adds w [] l).get uri with
  | none => exact .inl rfl
  | some raw =>
    obtain ⟨s, h1, h2, h3⟩ := hh uri raw hg
    right
    have hf : ofRaw w raw false = .ok s := by
      obtain ⟨a, b, c, _⟩ := ofRaw_spec h1
      unfold ofRaw
      rw [if_neg c, a]
      cases s
      simp only at b
      simp [b]
    dsimp only
    rw [hf]
    exact ⟨s.raw, s, rfl, by rw [h3]; exact h1, h2, h2 ▸ (c238_addressed h1).1, (ofRaw_spec h1).2.2.2 rfl⟩

/-- C238: what is added under its identifier is found, until a schema with that identifier is added again. -/
theorem c238_found (l : List (Bytes × Bytes)) {raw : Bytes} {s : Schemer V} (h : ofRaw w raw true = .ok s) (l' : List (Bytes × Bytes)) (hl : ∀ p ∈ l', p.1 ≠ s.said w) :
    resolve w (adds w [] (l ++ (s.said w, raw) :: l')) (s.said w) = .ok (some raw) := by
  have hraw := (ofRaw_spec h).2.1
  have h1 : (adds w [] (l ++ (s.said w, raw) :: l')).get (s.said w) = some raw := by
    unfold adds
    rw [List.foldl_append, List.foldl_cons]
    generalize List.foldl (fun db p => (add w db p.1 p.2).1) [] l = db
    have hadd : (add w db (s.said w) raw).1.get (s.said w) = some raw := by
      unfold add
      rw [h]
      dsimp only
      rw [if_neg (by simp)]
      dsimp only
      rw [get_pin, if_pos rfl, hraw]
    generalize (add w db (s.said w) raw).1 = db' at hadd
    induction l' generalizing db' with
    | nil => exact hadd
    | cons p l' ih =>
      refine ih (fun q hq => hl q (by simp [hq])) _ ?_
      show (add w db' p.1 p.2).1.get (s.said w) = some raw
      unfold add
      cases ofRaw w p.2 true with
      | error e => exact hadd
      | ok u =>
        dsimp only
        split
        · exact hadd
        · dsimp only
          rw [get_pin, if_neg (Ne.symm (hl p (by simp)))]
          exact hadd
  unfold resolve
  rw [h1]
  have hf : ofRaw w raw false = .ok s := by
    obtain ⟨a, b, c, _⟩ := ofRaw_spec h
    unfold ofRaw
    rw [if_neg c, a]
    cases s
    simp only at b
    simp [b]
  dsimp only
  rw [hf, ← hraw]

/-- C238: two caches, however they were filled, give the same schema for an identifier both know, unless there are two texts with the same digest. -/
theorem c238_agree (hw : Lawful w) (l l' : List (Bytes × Bytes)) (uri raw raw' : Bytes) (h : resolve w (adds w [] l) uri = .ok (some raw)) (h' : resolve w (adds w [] l') uri = .ok (some raw')) :
    w.loads raw = w.loads raw' ∨ Collision w := by
  rcases c238_resolved (w := w) l uri with h1 | ⟨r, s, h1, h2, _, h3, _⟩
  · rw [h1] at h; cases h
  · rcases c238_resolved (w := w) l' uri with h1' | ⟨r', s', h1', h2', _, h3', _⟩
    · rw [h1'] at h'; cases h'
    · rw [h1] at h; cases h
      rw [h1'] at h'; cases h'
      have e1 := (c238_addressed h2).2
      have e2 := (c238_addressed h2').2
      rcases c238_one hw (hw.nodup _ _ e1) (hw.nodup _ _ e2) h3 h3' with he | hc
      · left; rw [e1, e2, he]
      · exact .inr hc

/-- **C238 fails of setting the kind.** After it the schema's content is the kind and its kind is the content; its identifier is not the one in the content, unless the digest of the masked text is how the
serialization begins. -/
theorem c238_kind_set (hw : Lawful w) (s : Schemer V) (code : Nat) (hd : w.dig code = true) (k : Option Nat) (hl : w.size code ≤ (setKind w s code k).raw.length) :
    (setKind w s code k).sed = .kind k ∧ (∃ d, (setKind w s code k).kind = .dict d) ∧
    (Addressed w (setKind w s code k).said (s.sed.set idL (.text (w.qb64 code (derive w s.sed code)))) → ∃ c, w.digest c (w.dumps (s.sed.set idL (.text (w.dummy c)))) = (setKind w s code k).raw.take (w.size code)) := by
  refine ⟨rfl, ⟨_, rfl⟩, ?_⟩
  rintro ⟨c, h1, h2, _⟩
  rw [set_set] at h2
  have e1 := hw.parse c _ h1 (hw.len c (w.dumps (s.sed.set idL (.text (w.dummy c)))) h1)
  rw [← h2] at e1
  have e2 := hw.parse code ((setKind w s code k).raw.take (w.size code)) hd (by rw [List.length_take]; omega)
  have e3 : (setKind w s code k).said = w.qb64 code ((setKind w s code k).raw.take (w.size code)) := rfl
  rw [e3, e2] at e1
  simp only [Option.some.injEq, Prod.mk.injEq] at e1
  exact ⟨c, e1.2.symm⟩

end Verif.Sch
