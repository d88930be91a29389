import Verif.Tsn.Spec
/-! # Lemmas on the processing of notices -/

namespace Verif.Tsn

variable {Att : Type} [DecidableEq Att]

/-- What processing does: refuses with nothing changed, lets wait in one escrow, or saves. -/
theorem handle_cases (c : Bool) (v : View Att) (db : Db Att) (n : Notice) (l : List Att) (hc : n.cred = c) :
    (∃ x, db.handle c v n l = (db, .error x) ∧ ∀ t : Typ, x ≠ t.exn) ∨
    (∃ t cue, t.cred = c ∧ Lacks v n t ∧ db.handle c v n l = (db.escrow t n l cue, .error t.exn)) ∨
    (db.handle c v n l = (db.update n, .ok ()) ∧ Based v n ∧ Trusted v n ∧ v.accept n l = some true ∧ v.tels n.key n.sn = some n.d) := by
  cases c with
  | false =>
    unfold Db.handle Db.registry
    simp only [Bool.false_eq_true, if_false]
    cases hw : v.wits n.pre with
    | none => exact .inr (.inl ⟨.rmae, _, rfl, hw, rfl⟩)
    | some w =>
      dsimp only
      by_cases ht : (v.lax = false ∧ n.aid ≠ n.pre ∧ n.aid ∉ (if n.nb = true then w else n.baks) ∧ n.aid ∉ v.wats)
      · rw [if_pos ht]
        exact .inl ⟨.untrusted, rfl, fun t => by cases t <;> decide⟩
      rw [if_neg ht]
      by_cases hs : stale v n = true
      · rw [if_pos hs]
        exact .inl ⟨.validation, rfl, fun t => by cases t <;> decide⟩
      rw [if_neg hs]
      unfold Db.finish
      cases ha : v.accept n l with
      | none => exact .inl ⟨.validation, rfl, fun t => by cases t <;> decide⟩
      | some b =>
        cases b with
        | false => exact .inl ⟨.unverified, rfl, fun t => by cases t <;> decide⟩
        | true =>
          cases hd : v.tels n.key n.sn with
          | none => exact .inr (.inl ⟨.rooo, _, rfl, hd, rfl⟩)
          | some d =>
            dsimp only
            split
            · exact .inl ⟨.validation, rfl, fun t => by cases t <;> decide⟩
            rename_i hne
            have hne : d = n.d := Decidable.byContradiction hne
            refine .inr (.inr ⟨rfl, ?_, ?_, rfl, by rw [hne]⟩)
            · unfold Based
              rw [hc, if_neg (by decide)]
              refine ⟨by rw [hw]; simp, fun t h => ?_⟩
              unfold stale at hs
              rw [h] at hs
              simpa using hs
            · unfold Trusted Heard
              rw [hc, if_neg (by decide)]
              cases hnb : n.nb <;> simp only [hnb] at ht ⊢ <;> grind
  | true =>
    unfold Db.handle Db.credential
    simp only [if_true]
    cases ht : v.tev n.regk with
    | none => exact .inr (.inl ⟨.cmre, _, rfl, .inl ht, rfl⟩)
    | some t =>
      dsimp only
      split
      · rename_i h
        exact .inr (.inl ⟨.cmre, _, rfl, .inr ⟨t, ht, h⟩, rfl⟩)
      rename_i hsn
      cases hw : v.wits t.pre with
      | none => exact .inr (.inl ⟨.cmae, _, rfl, ⟨t, ht, hw⟩, rfl⟩)
      | some w =>
        dsimp only
        by_cases hu : (v.lax = false ∧ n.aid ≠ t.pre ∧ n.aid ∉ (if t.nb = true then w else t.baks) ∧ n.aid ∉ v.wats)
        · rw [if_pos hu]
          exact .inl ⟨.untrusted, rfl, fun t => by cases t <;> decide⟩
        rw [if_neg hu]
        unfold Db.finish
        cases ha : v.accept n l with
        | none => exact .inl ⟨.validation, rfl, fun t => by cases t <;> decide⟩
        | some b =>
          cases b with
          | false => exact .inl ⟨.unverified, rfl, fun t => by cases t <;> decide⟩
          | true =>
            cases hd : v.tels n.key n.sn with
            | none => exact .inr (.inl ⟨.cooo, _, rfl, hd, rfl⟩)
            | some d =>
              dsimp only
              split
              · exact .inl ⟨.validation, rfl, fun t => by cases t <;> decide⟩
              rename_i hne
              have hne : d = n.d := Decidable.byContradiction hne
              refine .inr (.inr ⟨rfl, ?_, ?_, rfl, by rw [hne]⟩)
              · unfold Based
                rw [hc, if_pos rfl]
                exact ⟨t, ht, by omega, by rw [hw]; simp⟩
              · unfold Trusted Heard
                rw [hc, if_pos rfl]
                refine ⟨t, ht, ?_⟩
                cases hnb : t.nb <;> simp only [hnb] at hu ⊢ <;> grind

/-- With all there, the notice is saved. -/
theorem handle_ready (v : View Att) (db : Db Att) (n : Notice) (l : List Att) (hb : Based v n) (ht : Trusted v n) (ha : v.accept n l = some true)
    (hl : v.tels n.key n.sn = some n.d) : db.handle n.cred v n l = (db.update n, .ok ()) := by
  unfold Based at hb
  unfold Trusted Heard at ht
  cases hc : n.cred with
  | false =>
    rw [hc, if_neg (by decide)] at hb ht
    obtain ⟨hw, hs⟩ := hb
    unfold Db.handle Db.registry
    simp only [Bool.false_eq_true, if_false]
    cases hw' : v.wits n.pre with
    | none => exact absurd hw' hw
    | some w =>
      dsimp only
      rw [if_neg (by cases hnb : n.nb <;> simp only [hnb] at ht ⊢ <;> grind),
        if_neg (by
          unfold stale
          cases h : v.tev n.key with
          | none => simp
          | some t => simpa using hs t h)]
      unfold Db.finish
      rw [ha, hl]
      simp
  | true =>
    rw [hc, if_pos rfl] at hb ht
    obtain ⟨t, h1, h2, h3⟩ := hb
    obtain ⟨t', h1', ht⟩ := ht
    rw [h1] at h1'
    cases h1'
    unfold Db.handle Db.credential
    simp only [if_true]
    rw [h1]
    dsimp only
    rw [if_neg (by omega)]
    cases hw' : v.wits t.pre with
    | none => exact absurd hw' h3
    | some w =>
      dsimp only
      rw [if_neg (by cases hnb : t.nb <;> simp only [hnb] at ht ⊢ <;> grind)]
      unfold Db.finish
      rw [ha, hl]
      simp

theorem addAll_mem {α : Type} [DecidableEq α] (l xs : List α) (a : α) : a ∈ addAll l xs ↔ a ∈ l ∨ a ∈ xs := by
  induction xs generalizing l with
  | nil => simp [addAll]
  | cons x xs ih =>
    rw [addAll, ih]
    split <;> grind

theorem addAll_sub {α : Type} [DecidableEq α] (l xs : List α) (h : ∀ x ∈ xs, x ∈ l) : addAll l xs = l := by
  induction xs with
  | nil => rfl
  | cons x xs ih => rw [addAll, if_pos (h x (by simp)), ih fun y hy => h y (by simp [hy])]

/-- Stores hold what came. -/
structure Inv (h : List (Inp Att)) (db : Db Att) : Prop where
  sns : ∀ x n, db.sns x = some n → Recv h n ∧ (n.said = x ∨ n.d = x)
  dts : ∀ x dt, db.dts x = some dt → ∀ n, Recv h n → n.said = x → dt = n.dt
  atts : ∀ x a, a ∈ db.atts x → RecvA h a
  nodup : db.esc.Nodup
  ent : ∀ e ∈ db.esc, ∃ n, Recv h n ∧ e.Of n ∧ db.sns e.said = some n ∧ db.dts e.said = some n.dt
  saved : ∀ k s d, db.saved k s = some d → ∃ v n l, Recv h n ∧ Known h v ∧ (∀ a ∈ l, RecvA h a) ∧ n.key = k ∧ n.aid = s ∧ n.d = d ∧
    v.tels k n.sn = some d ∧ v.accept n l = some true ∧ Trusted v n

theorem Inv.empty (h : List (Inp Att)) : Inv h (Db.empty Att) :=
  ⟨fun _ _ h => (by cases h), fun _ _ h => (by cases h), fun _ _ h => (by cases h), .nil, fun _ h => (by cases h), fun _ _ _ h => (by cases h)⟩

theorem put_eq {β : Type} (f : Dig → Option β) (k : Dig) (b : β) (x : Dig) : put f k b x = if x = k then (match f k with | none => some b | some y => some y) else f x := by
  unfold put upd
  cases hk : f k with
  | none => rfl
  | some y =>
    dsimp only
    split
    · rename_i h
      rw [h, hk]
    · rfl

theorem Inv.escrow {h : List (Inp Att)} (ha : Apart h) {db : Db Att} (hi : Inv h db) {n : Notice} (hn : Recv h n) {l : List Att} (hl : ∀ a ∈ l, RecvA h a) {t : Typ}
    (ht : n.cred = t.cred) (cue : Cue) : Inv h (db.escrow t n l cue) := by
  have hsn : (put db.sns n.said n) n.said = some n := by
    rw [put_eq, if_pos rfl]
    cases hs : db.sns n.said with
    | none => rfl
    | some n' =>
      obtain ⟨hr, hd⟩ := hi.sns _ _ hs
      cases hd with
      | inl hd => rw [ha.same n' n hr hn hd]
      | inr hd => exact absurd hd (ha.event n' n hr hn)
  have hdt : (put db.dts n.said n.dt) n.said = some n.dt := by
    rw [put_eq, if_pos rfl]
    cases hs : db.dts n.said with
    | none => rfl
    | some d => rw [hi.dts _ _ hs n hn rfl]
  constructor
  · intro x m hm
    by_cases hx : x = n.said
    · subst hx
      rw [show (db.escrow t n l cue).sns = put db.sns n.said n from rfl, hsn] at hm
      cases hm
      exact ⟨hn, .inl rfl⟩
    · rw [show (db.escrow t n l cue).sns = put db.sns n.said n from rfl, put_eq, if_neg hx] at hm
      exact hi.sns _ _ hm
  · intro x dt hm m hr he
    by_cases hx : x = n.said
    · subst hx
      rw [show (db.escrow t n l cue).dts = put db.dts n.said n.dt from rfl, hdt] at hm
      cases hm
      rw [ha.same m n hr hn he]
    · rw [show (db.escrow t n l cue).dts = put db.dts n.said n.dt from rfl, put_eq, if_neg hx] at hm
      exact hi.dts _ _ hm m hr he
  · intro x a hm
    rw [show (db.escrow t n l cue).atts = upd db.atts n.said (addAll (db.atts n.said) l) from rfl] at hm
    unfold upd at hm
    split at hm
    · exact ((addAll_mem _ _ _).mp hm).elim (hi.atts _ _) (hl a)
    · exact hi.atts _ _ hm
  · simp only [Db.escrow]
    have := hi.nodup
    split
    · exact this
    · rename_i hx
      exact List.nodup_append.mpr ⟨this, by simp, fun a h1 b h2 h3 => hx (by simp at h2; rw [← h2, ← h3]; exact h1)⟩
  · intro e he
    have he : e ∈ db.esc ∨ e = ⟨t, n.key, n.aid, n.said⟩ := by
      simp only [Db.escrow] at he
      split at he <;> grind
    cases he with
    | inr he => exact ⟨n, hn, by rw [he]; exact ⟨rfl, rfl, rfl, ht⟩, by rw [he]; exact hsn, by rw [he]; exact hdt⟩
    | inl he =>
      obtain ⟨m, hr, ho, hs, hd⟩ := hi.ent e he
      refine ⟨m, hr, ho, ?_, ?_⟩
      · show put db.sns n.said n e.said = _
        rw [put_eq]
        split
        · rename_i hx
          rw [← hx, hs]
        · exact hs
      · show put db.dts n.said n.dt e.said = _
        rw [put_eq]
        split
        · rename_i hx
          rw [← hx, hd]
        · exact hd
  · exact hi.saved

theorem Inv.update {h : List (Inp Att)} (ha : Apart h) {db : Db Att} (hi : Inv h db) {n : Notice} (hn : Recv h n) {l : List Att} (hl : ∀ a ∈ l, RecvA h a) {v : View Att} (hv : Known h v)
    (h1 : v.tels n.key n.sn = some n.d) (h2 : v.accept n l = some true) (h3 : Trusted v n) : Inv h (db.update n) := by
  constructor
  · intro x m hm
    rw [show (db.update n).sns = upd db.sns n.d (some n) from rfl] at hm
    unfold upd at hm
    split at hm
    · rename_i hx
      cases hm
      exact ⟨hn, .inr hx.symm⟩
    · exact hi.sns _ _ hm
  · intro x dt hm m hr he
    rw [show (db.update n).dts = put db.dts n.d n.dt from rfl, put_eq] at hm
    split at hm
    · rename_i hx
      exact absurd (hx ▸ he.symm : n.d = m.said) (ha.event n m hn hr)
    · exact hi.dts _ _ hm m hr he
  · exact hi.atts
  · exact hi.nodup
  · intro e he
    obtain ⟨m, hr, ho, hs, hd⟩ := hi.ent e he
    have hne : e.said ≠ n.d := fun hx => ha.event n m hn hr (by rw [ho.said, hx])
    refine ⟨m, hr, ho, ?_, ?_⟩
    · show upd db.sns n.d (some n) e.said = _
      unfold upd
      rw [if_neg hne, hs]
    · show put db.dts n.d n.dt e.said = _
      rw [put_eq, if_neg hne, hd]
  · intro k s d hd
    rw [show (db.update n).saved = upd db.saved n.key (upd (db.saved n.key) n.aid (some n.d)) from rfl] at hd
    unfold upd at hd
    split at hd
    · rename_i hk
      dsimp only at hd
      split at hd
      · rename_i hs
        cases hd
        exact ⟨v, n, l, hn, hv, hl, hk.symm, hs.symm, rfl, by rw [hk]; exact h1, h2, h3⟩
      · rw [← hk] at hd
        exact hi.saved _ _ _ hd
    · exact hi.saved _ _ _ hd

theorem Inv.handle {h : List (Inp Att)} (ha : Apart h) {db : Db Att} (hi : Inv h db) {n : Notice} (hn : Recv h n) {l : List Att} (hl : ∀ a ∈ l, RecvA h a) {v : View Att} (hv : Known h v)
    {c : Bool} (hc : n.cred = c) : Inv h (db.handle c v n l).1 := by
  rcases handle_cases c v db n l hc with ⟨x, he, _⟩ | ⟨t, cue, ht, _, he⟩ | ⟨he, _, h3, h2, h1⟩ <;> rw [he]
  · exact hi
  · exact hi.escrow ha hn hl (by rw [hc, ht]) cue
  · exact hi.update ha hn hl hv h1 h2 h3

theorem Inv.rem {h : List (Inp Att)} {db : Db Att} (hi : Inv h db) (e : Entry) : Inv h (db.rem e) :=
  ⟨hi.sns, hi.dts, hi.atts, hi.nodup.filter _, fun x hx => hi.ent x (List.mem_filter.mp hx).1, hi.saved⟩

theorem mem_rem (db : Db Att) (e x : Entry) : x ∈ (db.rem e).esc ↔ x ∈ db.esc ∧ x ≠ e := by
  unfold Db.rem
  simp [List.mem_filter]

/-- An entry that waits still. -/
def Waits (h : List (Inp Att)) (v : View Att) (e : Entry) : Prop := ∃ n, Recv h n ∧ e.Of n ∧ Lacks v n e.typ

/-- What a turn does. -/
theorem turn_spec {h : List (Inp Att)} (ha : Apart h) {db : Db Att} (hi : Inv h db) {v : View Att} (hv : Known h v) (e : Entry) (he : e ∈ db.esc) :
    Inv h (db.turn v e) ∧ (∀ x ∈ (db.turn v e).esc, (x ∈ db.esc ∧ x ≠ e) ∨ Waits h v x) ∧ (∀ x ∈ db.esc, x ≠ e → x ∈ (db.turn v e).esc) ∧
    (db.turn v e).atts = db.atts ∧ (∀ c ∈ db.cues, c ∈ (db.turn v e).cues) := by
  obtain ⟨n, hn, ho, hs, hd⟩ := hi.ent e he
  have hrem : Inv h (db.rem e) ∧ (∀ x ∈ (db.rem e).esc, (x ∈ db.esc ∧ x ≠ e) ∨ Waits h v x) ∧ (∀ x ∈ db.esc, x ≠ e → x ∈ (db.rem e).esc) ∧ (db.rem e).atts = db.atts ∧
      (∀ c ∈ db.cues, c ∈ (db.rem e).cues) :=
    ⟨hi.rem e, fun x hx => .inl ((mem_rem db e x).mp hx), fun x h1 h2 => (mem_rem db e x).mpr ⟨h1, h2⟩, rfl, fun _ h => h⟩
  unfold Db.turn
  rw [hd, hs]
  dsimp only
  split
  · exact hrem
  split
  · exact hrem
  have hinv := hi.handle ha hn (hi.atts e.said) hv ho.cred
  rcases handle_cases e.typ.cred v db n (db.atts e.said) ho.cred with ⟨x, hh, hx⟩ | ⟨t, cue, ht, hlk, hh⟩ | ⟨hh, _⟩ <;> rw [hh] at hinv ⊢ <;> dsimp only at hinv ⊢
  · rw [if_neg (hx e.typ)]
    exact hrem
  · have hatts : (db.escrow t n (db.atts e.said) cue).atts = db.atts := by
      funext x
      show upd db.atts n.said (addAll (db.atts n.said) (db.atts e.said)) x = _
      unfold upd
      split
      · rename_i hx
        rw [hx, ← ho.said, addAll_sub _ _ fun _ h => h]
      · rfl
    have hcues : ∀ c ∈ db.cues, c ∈ (db.escrow t n (db.atts e.said) cue).cues := by
      intro c hc
      simp only [Db.escrow]
      split <;> simp [hc]
    have hnew : ∀ x ∈ (db.escrow t n (db.atts e.said) cue).esc, x ∈ db.esc ∨ Waits h v x := by
      intro x hx
      have hx : x ∈ db.esc ∨ x = ⟨t, n.key, n.aid, n.said⟩ := by
        simp only [Db.escrow] at hx
        split at hx <;> grind
      cases hx with
      | inl hx => exact .inl hx
      | inr hx => exact .inr ⟨n, hn, by rw [hx]; exact ⟨rfl, rfl, rfl, by rw [ho.cred, ht]⟩, by rw [hx]; exact hlk⟩
    have hold : ∀ x ∈ db.esc, x ∈ (db.escrow t n (db.atts e.said) cue).esc := by
      intro x hx
      simp only [Db.escrow]
      split <;> simp [hx]
    split
    · rename_i hx
      have hte : t = e.typ := by
        generalize e.typ = u at hx ht
        cases t <;> cases u <;> revert hx ht <;> decide
      refine ⟨hinv, fun x hx => ?_, fun x hx _ => hold x hx, hatts, hcues⟩
      by_cases hxe : x = e
      · exact .inr ⟨n, hn, by rw [hxe]; exact ho, by rw [hxe, ← hte]; exact hlk⟩
      · exact (hnew x hx).imp (fun h => ⟨h, hxe⟩) id
    · refine ⟨hinv.rem e, fun x hx => ?_, fun x h1 h2 => (mem_rem _ e x).mpr ⟨hold x h1, h2⟩, hatts, hcues⟩
      rw [mem_rem] at hx
      exact (hnew x hx.1).imp (fun h => ⟨h, hx.2⟩) id
  · refine ⟨hinv.rem e, fun x hx => .inl ((mem_rem _ e x).mp hx), fun x h1 h2 => (mem_rem _ e x).mpr ⟨h1, h2⟩, rfl, fun c hc => ?_⟩
    show c ∈ db.cues ++ [.saved n]
    simp [hc]

/-- What turns over some entries do. -/
theorem turns_spec {h : List (Inp Att)} (ha : Apart h) {v : View Att} (hv : Known h v) (l : List Entry) {db : Db Att} (hi : Inv h db) (hl : l.Nodup) (hm : ∀ e ∈ l, e ∈ db.esc) :
    Inv h (l.foldl (fun db e => db.turn v e) db) ∧ (∀ x ∈ (l.foldl (fun db e => db.turn v e) db).esc, (x ∈ db.esc ∧ x ∉ l) ∨ Waits h v x) ∧
    (∀ x ∈ db.esc, x ∉ l → x ∈ (l.foldl (fun db e => db.turn v e) db).esc) ∧ (l.foldl (fun db e => db.turn v e) db).atts = db.atts ∧
    (∀ c ∈ db.cues, c ∈ (l.foldl (fun db e => db.turn v e) db).cues) := by
  induction l generalizing db with
  | nil => exact ⟨hi, fun x hx => .inl ⟨hx, by simp⟩, fun x hx _ => hx, rfl, fun _ h => h⟩
  | cons e l ih =>
    obtain ⟨h1, h2, h3, h4, h5⟩ := turn_spec ha hi hv e (hm e (by simp))
    obtain ⟨hne, hl⟩ := List.nodup_cons.mp hl
    obtain ⟨i1, i2, i3, i4, i5⟩ := ih h1 hl fun x hx => h3 x (hm x (by simp [hx])) fun he => hne (he ▸ hx)
    rw [List.foldl_cons]
    refine ⟨i1, fun x hx => ?_, fun x hx hn => ?_, by rw [i4, h4], fun c hc => i5 c (h5 c hc)⟩
    · rcases i2 x hx with ⟨hx, hn⟩ | hw
      · rcases h2 x hx with ⟨hx, hxe⟩ | hw
        · exact .inl ⟨hx, by simp [hxe, hn]⟩
        · exact .inr hw
      · exact .inr hw
    · simp only [List.mem_cons, not_or] at hn
      exact i3 x (h3 x hx hn.1) hn.2

/-- What a look at one escrow does. -/
theorem passOf_spec {h : List (Inp Att)} (ha : Apart h) {v : View Att} (hv : Known h v) {db : Db Att} (hi : Inv h db) (t : Typ) :
    Inv h (db.passOf v t) ∧ (∀ x ∈ (db.passOf v t).esc, (x ∈ db.esc ∧ x.typ ≠ t) ∨ Waits h v x) ∧ (∀ x ∈ db.esc, x.typ ≠ t → x ∈ (db.passOf v t).esc) ∧
    (db.passOf v t).atts = db.atts ∧ (∀ c ∈ db.cues, c ∈ (db.passOf v t).cues) := by
  obtain ⟨h1, h2, h3, h4, h5⟩ := turns_spec ha hv (db.esc.filter fun e => decide (e.typ = t)) hi (hi.nodup.filter _) fun e he => (List.mem_filter.mp he).1
  refine ⟨h1, fun x hx => (h2 x hx).imp (fun hx => ⟨hx.1, fun ht => hx.2 (List.mem_filter.mpr ⟨hx.1, by simp [ht]⟩)⟩) id, fun x hx ht => h3 x hx fun hx => ?_, h4, h5⟩
  exact ht (by simpa using (List.mem_filter.mp hx).2)

/-- All there for a notice that waits, with the signatures kept. -/
structure Ready (v : View Att) (n : Notice) (l : List Att) : Prop where
  signed : l ≠ []
  fresh : v.now ≤ n.dt + 3600
  based : Based v n
  trusted : Trusted v n
  accept : v.accept n l = some true
  log : v.tels n.key n.sn = some n.d

theorem turn_ready {h : List (Inp Att)} (ha : Apart h) {v : View Att} {db : Db Att} (hi : Inv h db) {e : Entry} (he : e ∈ db.esc) {n : Notice} (hn : Recv h n) (ho : e.Of n)
    (hr : Ready v n (db.atts e.said)) : db.turn v e = (db.update n).rem e := by
  obtain ⟨m, hm, hom, hs, hd⟩ := hi.ent e he
  have hmn : m = n := ha.same m n hm hn (by rw [hom.said, ho.said])
  subst hmn
  unfold Db.turn
  rw [hd, hs]
  dsimp only
  have hf := hr.fresh
  rw [if_neg hr.signed, if_neg (by omega), ← ho.cred, handle_ready v db m _ hr.based hr.trusted hr.accept hr.log]

theorem turns_ready {h : List (Inp Att)} (ha : Apart h) {v : View Att} (hv : Known h v) (l : List Entry) {db : Db Att} (hi : Inv h db) (hl : l.Nodup) (hm : ∀ e ∈ l, e ∈ db.esc)
    {e : Entry} (he : e ∈ l) {n : Notice} (hn : Recv h n) (ho : e.Of n) (hr : Ready v n (db.atts e.said)) :
    Cue.saved n ∈ (l.foldl (fun db e => db.turn v e) db).cues := by
  induction l generalizing db with
  | nil => cases he
  | cons x l ih =>
    obtain ⟨h1, h2, h3, h4, h5⟩ := turn_spec ha hi hv x (hm x (by simp))
    obtain ⟨hne, hnd⟩ := List.nodup_cons.mp hl
    have hm' : ∀ y ∈ l, y ∈ (db.turn v x).esc := fun y hy => h3 y (hm y (by simp [hy])) fun hx => hne (hx ▸ hy)
    rw [List.foldl_cons]
    cases List.mem_cons.mp he with
    | inl hx =>
      subst hx
      refine (turns_spec ha hv l h1 hnd hm').2.2.2.2 _ ?_
      rw [turn_ready ha hi (hm e (by simp)) hn ho hr]
      show _ ∈ db.cues ++ [.saved n]
      simp
    | inr hx => exact ih h1 hnd hm' hx (by rw [h4]; exact hr)

theorem passOf_ready {h : List (Inp Att)} (ha : Apart h) {v : View Att} (hv : Known h v) {db : Db Att} (hi : Inv h db) {e : Entry} (he : e ∈ db.esc)
    {n : Notice} (hn : Recv h n) (ho : e.Of n) (hr : Ready v n (db.atts e.said)) : Cue.saved n ∈ (db.passOf v e.typ).cues :=
  turns_ready ha hv _ hi (hi.nodup.filter _) (fun x hx => (List.mem_filter.mp hx).1) (List.mem_filter.mpr ⟨he, by simp⟩) hn ho hr

/-- What looks at some escrows do. -/
theorem passes_spec {h : List (Inp Att)} (ha : Apart h) {v : View Att} (hv : Known h v) (ts : List Typ) {db : Db Att} (hi : Inv h db) :
    Inv h (ts.foldl (fun db t => db.passOf v t) db) ∧ (∀ x ∈ (ts.foldl (fun db t => db.passOf v t) db).esc, (x ∈ db.esc ∧ x.typ ∉ ts) ∨ Waits h v x) ∧
    (∀ c ∈ db.cues, c ∈ (ts.foldl (fun db t => db.passOf v t) db).cues) ∧
    (∀ e ∈ db.esc, e.typ ∈ ts → ∀ n, Recv h n → e.Of n → Ready v n (db.atts e.said) → Cue.saved n ∈ (ts.foldl (fun db t => db.passOf v t) db).cues) := by
  induction ts generalizing db with
  | nil => exact ⟨hi, fun x hx => .inl ⟨hx, by simp⟩, fun _ h => h, fun _ _ h => by cases h⟩
  | cons t ts ih =>
    obtain ⟨h1, h2, h3, h4, h5⟩ := passOf_spec ha hv hi t
    obtain ⟨i1, i2, i3, i4⟩ := ih h1
    rw [List.foldl_cons]
    refine ⟨i1, fun x hx => ?_, fun c hc => i3 c (h5 c hc), fun e he ht n hn ho hr => ?_⟩
    · rcases i2 x hx with ⟨hx, hn⟩ | hw
      · rcases h2 x hx with ⟨hx, hxe⟩ | hw
        · exact .inl ⟨hx, by simp [hxe, hn]⟩
        · exact .inr hw
      · exact .inr hw
    · by_cases het : e.typ = t
      · exact i3 _ (het ▸ passOf_ready ha hv hi he hn ho hr)
      · exact i4 e (h3 e he het) ((List.mem_cons.mp ht).resolve_left het) n hn ho (by rw [h4]; exact hr)

theorem mem_all (t : Typ) : t ∈ [Typ.cmre, .cmae, .cooo, .rmae, .rooo] := by cases t <;> decide

theorem Inv.run {h : List (Inp Att)} (ha : Apart h) (k : List (Inp Att)) (hk : ∀ i ∈ k, i ∈ h) {db : Db Att} (hi : Inv h db) : Inv h (db.run k) := by
  induction k generalizing db with
  | nil => exact hi
  | cons i k ih =>
    refine ih (fun j hj => hk j (by simp [hj])) ?_
    have him := hk i (by simp)
    cases i with
    | notice v n l => exact hi.handle ha ⟨v, l, him⟩ (fun a hal => ⟨v, n, l, him, hal⟩) (.inl ⟨n, l, him⟩) rfl
    | pass v => exact (passes_spec ha (.inr him) _ hi).1

theorem Inv.ran {h : List (Inp Att)} (ha : Apart h) : Inv h ((Db.empty Att).run h) := (Inv.empty h).run ha h fun _ h => h

end Verif.Tsn
