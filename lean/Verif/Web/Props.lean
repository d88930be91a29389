import Verif.Web.Model
import Verif.Db.PropsOn
/-! # The database in browsers answers as the one on disk -/

namespace Verif.Web

open Verif.Db (Bytes Entry Tbl lexLt onKey splitOnKey maxON Sorted SepOk)

/-- The value a call stores, if any. -/
def Op.value : Op → Option Bytes
  | .put _ v | .set _ v | .putOn _ _ v | .pinOn _ _ v | .appendOn _ v => some v
  | _ => none

theorem onKey_ne (sep : Nat) (k : Bytes) (n : Nat) : onKey sep k n ≠ [] := by simp [onKey]

theorem delAll_one (t : Tbl) (k : Bytes) : delAll t [k] = (t.del k).1 := by
  unfold delAll Tbl.del
  congr 1
  funext e
  simp

/-- Removing the keys of a stretch removes that stretch. -/
theorem delAll_mid {a b c : Tbl} (h : Sorted (a ++ (b ++ c))) : delAll (a ++ (b ++ c)) (b.map (·.1)) = a ++ c := by
  have hn := h.nodup
  simp only [List.map_append, List.nodup_append] at hn
  obtain ⟨_, ⟨_, _, hbc⟩, hab⟩ := hn
  unfold delAll
  rw [List.filter_append, List.filter_append]
  have h1 : a.filter (fun e => !decide (e.1 ∈ b.map (·.1))) = a := by
    rw [List.filter_eq_self]
    intro e he
    have : e.1 ∉ b.map (·.1) := fun hb => hab e.1 (List.mem_map_of_mem he) e.1 (List.mem_append_left _ hb) rfl
    simpa using this
  have h2 : b.filter (fun e => !decide (e.1 ∈ b.map (·.1))) = [] := by
    rw [List.filter_eq_nil_iff]
    intro e he
    have : e.1 ∈ b.map (·.1) := List.mem_map_of_mem he
    simp only [this, decide_true, Bool.not_true, Bool.false_eq_true, not_false_eq_true]
  have h3 : c.filter (fun e => !decide (e.1 ∈ b.map (·.1))) = c := by
    rw [List.filter_eq_self]
    intro e he
    have : e.1 ∉ b.map (·.1) := fun hb => hbc e.1 hb e.1 (List.mem_map_of_mem he) rfl
    simpa using this
  rw [h1, h2, h3, List.nil_append]

theorem doomed_loop (sep : Nat) (k : Bytes) (l : List Entry) :
    (∃ e, doomed sep k l = .error e ∧ Db.remLoop sep k l = .error e) ∨
    ∃ a r, l = a ++ r ∧ doomed sep k l = .ok (a.map (·.1)) ∧ Db.remLoop sep k l = .ok (r, !a.isEmpty) := by
  induction l with
  | nil => exact .inr ⟨[], [], rfl, rfl, rfl⟩
  | cons x l ih =>
    obtain ⟨x, v⟩ := x
    unfold doomed Db.remLoop
    rw [Db.unsuffix_eq_splitOnKey]
    cases splitOnKey sep x with
    | error e => exact .inl ⟨e, rfl, rfl⟩
    | ok p =>
      obtain ⟨ck, cn⟩ := p
      dsimp only
      by_cases hc : ck ≠ k
      · rw [if_pos hc, if_pos hc]
        exact .inr ⟨[], (x, v) :: l, rfl, rfl, rfl⟩
      · rw [if_neg hc, if_neg hc]
        rcases ih with ⟨e, h1, h2⟩ | ⟨a, r, h1, h2, h3⟩
        · rw [h1, h2]
          exact .inl ⟨e, rfl, rfl⟩
        · rw [h2, h3]
          exact .inr ⟨(x, v) :: a, r, by rw [h1]; rfl, rfl, rfl⟩

theorem fro_nil (t : Tbl) : t.fro [] = t := by
  unfold Tbl.fro
  cases t with
  | nil => rfl
  | cons e t => rw [List.dropWhile_cons, Db.not_lexLt_nil]; rfl

theorem before_nil (t : Tbl) : t.before [] = [] := by
  unfold Tbl.before
  cases t with
  | nil => rfl
  | cons e t => rw [List.takeWhile_cons, Db.not_lexLt_nil]; rfl

theorem takeWhile_all {α : Type} {q : α → Bool} {l : List α} (h : ∀ x ∈ l, q x = true) : l.takeWhile q = l ∧ l.dropWhile q = [] := by
  induction l with
  | nil => exact ⟨rfl, rfl⟩
  | cons x l ih =>
    obtain ⟨h1, h2⟩ := ih fun y hy => h y (List.mem_cons_of_mem _ hy)
    rw [List.takeWhile_cons, List.dropWhile_cons, if_pos (h x (by simp)), if_pos (h x (by simp)), h1, h2]
    exact ⟨rfl, rfl⟩

theorem top_eq (t : Tbl) (p : Bytes) : topItems t p = Db.getTopItemIter t p := by
  unfold topItems Db.getTopItemIter
  split
  · rename_i h
    subst h
    rw [fro_nil, (takeWhile_all fun x _ => by simp).1]
  · rfl

theorem remTop_eq {t : Tbl} (h : Sorted t) (p : Bytes) : remTop t p = ((Db.remTop t p).1, .bool (Db.remTop t p).2) := by
  have ht := top_eq t p
  unfold Web.remTop Db.remTop
  by_cases hp : p = []
  · subst hp
    rw [if_pos rfl, fro_nil, before_nil]
    obtain ⟨h1, h2⟩ := takeWhile_all (q := fun e : Entry => ([] : Bytes).isPrefixOf e.1) (l := t) fun x _ => by simp
    rw [h1, h2]
    cases t <;> rfl
  · rw [if_neg hp, ht]
    unfold Db.getTopItemIter
    have hsp : t = t.before p ++ ((t.fro p).takeWhile (fun e => p.isPrefixOf e.1) ++ (t.fro p).dropWhile (fun e => p.isPrefixOf e.1)) := by
      rw [List.takeWhile_append_dropWhile, Db.before_fro]
    generalize (t.fro p).takeWhile (fun e => p.isPrefixOf e.1) = b at hsp ⊢
    generalize (t.fro p).dropWhile (fun e => p.isPrefixOf e.1) = c at hsp ⊢
    generalize t.before p = a at hsp ⊢
    cases hb : b.map (·.1) with
    | nil =>
      rw [List.map_eq_nil_iff] at hb
      subst hb
      simp only [List.nil_append] at hsp
      simp [hsp]
    | cons d ds =>
      dsimp only
      rw [← hb, hsp, delAll_mid (hsp ▸ h)]
      cases b with
      | nil => cases hb
      | cons _ _ => rfl

theorem remOnAll_eq {sep : Nat} {t : Tbl} (h : Sorted t) {k : Bytes} (hk : k ≠ []) (n : Nat) :
    Web.remOnAll sep t k n = (match Db.remOnAll sep t k n with
      | (t, .ok b) => (t, .bool b)
      | (t, .error e) => (t, .raised e)) := by
  unfold Web.remOnAll Db.remOnAll
  rw [if_neg hk, if_neg hk]
  rcases doomed_loop sep k (t.fro (onKey sep k n)) with ⟨e, h1, h2⟩ | ⟨b, c, h1, h2, h3⟩
  · rw [h1, h2]
  · rw [h2, h3]
    dsimp only
    have hsp : t = t.before (onKey sep k n) ++ (b ++ c) := by rw [← h1, Db.before_fro]
    generalize t.before (onKey sep k n) = a at hsp ⊢
    cases hb : b.map (·.1) with
    | nil =>
      rw [List.map_eq_nil_iff] at hb
      subst hb
      simp only [List.nil_append] at hsp
      simp [hsp]
    | cons d ds =>
      dsimp only
      rw [← hb, hsp, delAll_mid (hsp ▸ h)]
      cases b with
      | nil => cases hb
      | cons _ _ => rfl

theorem put_eq (t : Tbl) {k : Bytes} (hk : k ≠ []) (v : Bytes) : putVal t k v = ((t.put k v false).1, .bool (t.put k v false).2) := by
  unfold putVal Tbl.put assign
  rw [if_neg hk]
  cases (t.get k).isSome <;> simp

theorem set_eq (t : Tbl) {k : Bytes} (hk : k ≠ []) (v : Bytes) : setVal t k v = ((t.put k v true).1, .bool (t.put k v true).2) := by
  unfold setVal Tbl.put assign
  rw [if_neg hk]
  simp

theorem rem_eq (t : Tbl) {k : Bytes} (hk : k ≠ []) : remVal t k = ((t.del k).1, .bool (t.del k).2) := by
  unfold remVal
  rw [if_neg hk, delAll_one]
  unfold Tbl.del
  cases hg : t.get k with
  | none =>
    have : t.filter (fun e => decide (e.1 ≠ k)) = t := by
      rw [List.filter_eq_self]
      intro e he
      simpa using Db.get_none.mp hg e he
    rw [this]
    simp
  | some v => simp

/-- Entries up to a key that is not there are those before it. -/
theorem lastUpto_before {t : Tbl} {k : Bytes} (h : ∀ e ∈ t, e.1 ≠ k) : lastUpto t k = (t.before k).getLast? := by
  unfold lastUpto Tbl.before
  congr 1
  induction t with
  | nil => rfl
  | cons e t ih =>
    have := ih fun x hx => h x (List.mem_cons_of_mem _ hx)
    rw [List.takeWhile_cons, List.takeWhile_cons, this]
    have hq : (!lexLt k e.1) = lexLt e.1 k := by
      rcases Db.lexLt_total e.1 k with h1 | h1 | h1
      · rw [h1, Db.lexLt_asymm h1]; rfl
      · exact absurd h1 (h e (by simp))
      · rw [h1, Db.lexLt_asymm h1]; rfl
    rw [hq]

/-- Where the database on disk appends, the one in browsers appends the same. -/
theorem append_eq {sep : Nat} (hs : SepOk sep) {t : Tbl} (h : Sorted t) {k : Bytes} (hk : k ≠ []) (v : Bytes) {t' : Tbl} {n : Nat}
    (ha : Db.appendOnVal sep t k v = (t', .ok n)) (hn : n ≤ maxON) : appendOnVal sep t k v = (t', .num n) := by
  unfold Db.appendOnVal at ha
  rw [if_neg hk] at ha
  cases hon : Db.appendOn sep t k with
  | error e => rw [hon] at ha; cases ha
  | ok on =>
    rw [hon] at ha
    dsimp only at ha
    have hfree : ∀ e ∈ t, e.1 ≠ onKey sep k maxON := by
      intro e he hek
      unfold Db.appendOn at hon
      have hmem : e ∈ t.fro (onKey sep k maxON) := (Db.mem_fro h).mpr ⟨he, by rw [hek]; exact Db.lexLt_irrefl _⟩
      cases hf : t.fro (onKey sep k maxON) with
      | nil => rw [hf] at hmem; cases hmem
      | cons x r =>
        have hx : x = e := by
          have hso := h.fro (onKey sep k maxON)
          rw [hf] at hmem hso
          rcases List.mem_cons.mp hmem with h1 | h1
          · exact h1.symm
          · have h2 := hso.head e h1
            have h3 : x ∈ t.fro (onKey sep k maxON) := by rw [hf]; simp
            have h4 := ((Db.mem_fro h).mp h3).2
            rw [hek, h4] at h2
            cases h2
        rw [hf] at hon
        obtain ⟨x1, x2⟩ := x
        dsimp only at hon
        rw [show x1 = onKey sep k maxON by rw [← hek, ← hx], Db.splitOnKey_onKey hs] at hon
        dsimp only at hon
        rw [if_pos rfl] at hon
        cases hon
    have hnext : Db.nextAt sep k (lastUpto t (onKey sep k maxON)) = .ok on := by
      rw [lastUpto_before hfree]
      unfold Db.appendOn at hon
      cases hf : t.fro (onKey sep k maxON) with
      | nil =>
        rw [hf] at hon
        have := Db.before_fro t (onKey sep k maxON)
        rw [hf, List.append_nil] at this
        rw [this]
        exact hon
      | cons x r =>
        rw [hf] at hon
        obtain ⟨x1, x2⟩ := x
        dsimp only at hon
        split at hon
        · cases hon
        · split at hon
          · cases hon
          · exact hon
    have hput : putVal t (onKey sep k on) v = (t', .bool true) ∧ on = n := by
      rw [put_eq t (onKey_ne sep k on)]
      cases hr : (t.put (onKey sep k on) v false).2 with
      | true =>
        rw [hr, if_pos rfl] at ha
        cases ha
        exact ⟨rfl, rfl⟩
      | false =>
        rw [hr] at ha
        cases ha
    obtain ⟨hput, rfl⟩ := hput
    unfold appendOnVal
    rw [if_neg hk]
    dsimp only
    cases hl : lastUpto t (onKey sep k maxON) with
    | none =>
      rw [hl] at hnext
      injection hnext with hnext
      subst hnext
      dsimp only
      rw [hput]
    | some x =>
      obtain ⟨x1, x2⟩ := x
      rw [hl] at hnext
      unfold Db.nextAt at hnext
      dsimp only at hnext ⊢
      cases hsp : splitOnKey sep x1 with
      | error e => rw [hsp] at hnext; cases hnext
      | ok p =>
        obtain ⟨ck, cn⟩ := p
        rw [hsp] at hnext
        dsimp only at hnext ⊢
        injection hnext with hnext
        by_cases hck : ck = k
        · rw [if_pos hck] at hnext ⊢
          subst hnext
          by_cases hmax : cn ≥ maxON
          · omega
          · rw [if_neg hmax, hput]
        · rw [if_neg hck] at hnext ⊢
          subst hnext
          rw [hput]

/-- An answer that is no exception, nor a number that does not fit. -/
def Fine : Out → Prop
  | .raised _ => False
  | .num n => n ≤ maxON
  | _ => True

/-- One call. -/
theorem step_eq {sep : Nat} (hs : SepOk sep) {t : Tbl} (h : Sorted t) (hv : ∀ e ∈ t, e.2 ≠ []) (o : Op) (hk : o.key ≠ some []) (hf : Fine (o.lmdb sep t).2) :
    o.web sep t = o.lmdb sep t := by
  cases o with
  | put k v =>
    have hk : k ≠ [] := fun h => hk (by rw [h]; rfl)
    simp only [Op.web, Op.lmdb, put_eq t hk, Db.putVal, if_neg hk]
  | set k v =>
    have hk : k ≠ [] := fun h => hk (by rw [h]; rfl)
    simp only [Op.web, Op.lmdb, set_eq t hk, Db.setVal, if_neg hk]
  | get k =>
    have hk : k ≠ [] := fun h => hk (by rw [h]; rfl)
    simp only [Op.web, Op.lmdb, getVal, Db.getVal, if_neg hk]
  | rem k =>
    have hk : k ≠ [] := fun h => hk (by rw [h]; rfl)
    simp only [Op.web, Op.lmdb, rem_eq t hk, Db.remVal, if_neg hk]
  | putOn k n v =>
    have hk : k ≠ [] := fun h => hk (by rw [h]; rfl)
    simp only [Op.web, Op.lmdb, put_eq t (onKey_ne sep k n), Db.putOnVal, if_neg hk]
  | pinOn k n v =>
    have hk : k ≠ [] := fun h => hk (by rw [h]; rfl)
    simp only [Op.web, Op.lmdb, set_eq t (onKey_ne sep k n), Db.pinOnVal, if_neg hk]
  | appendOn k v =>
    have hk : k ≠ [] := fun h => hk (by rw [h]; rfl)
    simp only [Op.web, Op.lmdb] at hf ⊢
    cases ha : Db.appendOnVal sep t k v with
    | mk t' r =>
      cases r with
      | error e => rw [ha] at hf; exact hf.elim
      | ok n =>
        rw [ha] at hf
        exact append_eq hs h hk v ha hf
  | getOn k n =>
    have hk : k ≠ [] := fun h => hk (by rw [h]; rfl)
    simp only [Op.web, Op.lmdb, getVal, Db.getOnVal, if_neg hk, if_neg (onKey_ne sep k n)]
  | itemOn k n =>
    have hk : k ≠ [] := fun h => hk (by rw [h]; rfl)
    simp only [Op.web, Op.lmdb, getVal, Db.getOnItem, if_neg hk, if_neg (onKey_ne sep k n)]
    cases hg : t.get (onKey sep k n) with
    | none => rfl
    | some v => simp only [if_neg (hv _ ((Db.get_some h).mp hg))]
  | remOn k n =>
    have hk : k ≠ [] := fun h => hk (by rw [h]; rfl)
    simp only [Op.web, Op.lmdb, rem_eq t (onKey_ne sep k n), Db.remOn, if_neg hk]
  | remOnAll k n =>
    have hk : k ≠ [] := fun h => hk (by rw [h]; rfl)
    exact remOnAll_eq h hk n
  | cntOnAll k n => rfl
  | itemsOn k n => rfl
  | top p => simp only [Op.web, Op.lmdb, top_eq]
  | remTop p => exact remTop_eq h p
  | cntTop p =>
    simp only [Op.web, Op.lmdb, Db.cntTop]
    split
    · rename_i hp
      subst hp
      rw [fro_nil, (takeWhile_all fun x _ => by simp).1]
    · rfl
  | cntAll => rfl

/-- What a call does to the entries: nothing, an assignment, or a removal. -/
theorem web_shape (sep : Nat) (t : Tbl) (o : Op) :
    ((o.web sep t).1 = t) ∨ (o.marks (o.web sep t).2 = true ∧ ∃ k v, o.value = some v ∧ (o.web sep t).1 = t.insert k v ∧ (o.key = some k ∨ ∃ q n, o.key = some q ∧ k = onKey sep q n)) ∨
      (o.marks (o.web sep t).2 = true ∧ (o.web sep t).1.Sublist t) := by
  have hput : ∀ k v, ((putVal t k v).1 = t ∧ (putVal t k v).2 ≠ .bool true) ∨ (putVal t k v = (t.insert k v, .bool true)) := by
    intro k v
    unfold putVal assign
    split
    · exact .inl ⟨rfl, by simp⟩
    · split
      · exact .inl ⟨rfl, by simp⟩
      · exact .inr rfl
  have hset : ∀ k v, ((setVal t k v).1 = t) ∨ (setVal t k v = (t.insert k v, .bool true)) := by
    intro k v
    unfold setVal assign
    split
    · exact .inl rfl
    · exact .inr rfl
  have hrem : ∀ k, ((remVal t k).1 = t) ∨ (remVal t k).2 = .bool true ∧ (remVal t k).1.Sublist t := by
    intro k
    unfold remVal
    split
    · exact .inl rfl
    · split
      · exact .inl rfl
      · exact .inr ⟨rfl, List.filter_sublist⟩
  have htop : ∀ p, ((Web.remTop t p).1 = t) ∨ (Web.remTop t p).2 = .bool true ∧ (Web.remTop t p).1.Sublist t := by
    intro p
    unfold Web.remTop
    split
    · split
      · exact .inl rfl
      · exact .inr ⟨rfl, List.nil_sublist _⟩
    · split
      · exact .inl rfl
      · exact .inr ⟨rfl, List.filter_sublist⟩
  cases o with
  | put k v =>
    simp only [Op.web]
    rcases hput k v with h | h
    · exact .inl h.1
    · rw [h]; exact .inr (.inl ⟨rfl, k, v, rfl, rfl, .inl rfl⟩)
  | set k v =>
    simp only [Op.web]
    rcases hset k v with h | h
    · exact .inl h
    · rw [h]; exact .inr (.inl ⟨rfl, k, v, rfl, rfl, .inl rfl⟩)
  | get k => exact .inl rfl
  | rem k =>
    simp only [Op.web]
    rcases hrem k with h | h
    · exact .inl h
    · rw [h.1]; exact .inr (.inr ⟨rfl, h.2⟩)
  | putOn k n v =>
    simp only [Op.web]
    rcases hput (onKey sep k n) v with h | h
    · exact .inl h.1
    · rw [h]; exact .inr (.inl ⟨rfl, _, v, rfl, rfl, .inr ⟨k, n, rfl, rfl⟩⟩)
  | pinOn k n v =>
    simp only [Op.web]
    split
    · exact .inl rfl
    · rcases hset (onKey sep k n) v with h | h
      · exact .inl h
      · rw [h]; exact .inr (.inl ⟨rfl, _, v, rfl, rfl, .inr ⟨k, n, rfl, rfl⟩⟩)
  | appendOn k v =>
    simp only [Op.web]
    have hw : ∀ on, (let r := (match putVal t (onKey sep k on) v with
        | (t', .bool true) => (t', Out.num on)
        | (t', .raised e) => (t', .raised e)
        | (t', _) => (t', .raised .valueError) : Tbl × Out)
        r.1 = t ∨ r = (t.insert (onKey sep k on) v, .num on)) := by
      intro on
      rcases hput (onKey sep k on) v with h | h
      · left
        generalize putVal t (onKey sep k on) v = q at h
        obtain ⟨q1, q2⟩ := q
        split <;> simp_all
      · right
        simp only [h]
    unfold appendOnVal
    split
    · exact .inl rfl
    · dsimp only
      have hfin : ∀ on, (let r := (match putVal t (onKey sep k on) v with
        | (t', .bool true) => (t', Out.num on)
        | (t', .raised e) => (t', .raised e)
        | (t', _) => (t', .raised .valueError) : Tbl × Out)
        r.1 = t ∨ ((Op.appendOn k v).marks r.2 = true ∧ ∃ k' v', (Op.appendOn k v).value = some v' ∧ r.1 = t.insert k' v' ∧ ((Op.appendOn k v).key = some k' ∨ ∃ q n, (Op.appendOn k v).key = some q ∧ k' = onKey sep q n)) ∨
          ((Op.appendOn k v).marks r.2 = true ∧ r.1.Sublist t)) := by
        intro on
        rcases hw on with h | h
        · exact .inl h
        · dsimp only at h ⊢
          rw [h]
          exact .inr (.inl ⟨rfl, _, v, rfl, rfl, .inr ⟨k, on, rfl, rfl⟩⟩)
      cases lastUpto t (onKey sep k maxON) with
      | none => exact hfin 0
      | some x =>
        obtain ⟨x1, x2⟩ := x
        dsimp only
        cases splitOnKey sep x1 with
        | error e => exact .inl rfl
        | ok p =>
          obtain ⟨ck, cn⟩ := p
          dsimp only
          by_cases hc : ck = k
          · rw [if_pos hc]
            by_cases hm : cn ≥ maxON
            · rw [if_pos hm]; exact .inl rfl
            · rw [if_neg hm]; exact hfin (cn + 1)
          · rw [if_neg hc]; exact hfin 0
  | getOn k n => exact .inl rfl
  | itemOn k n => exact .inl rfl
  | remOn k n =>
    simp only [Op.web]
    split
    · exact .inl rfl
    · rcases hrem (onKey sep k n) with h | h
      · exact .inl h
      · rw [h.1]; exact .inr (.inr ⟨rfl, h.2⟩)
  | remOnAll k n =>
    simp only [Op.web]
    unfold Web.remOnAll
    split
    · rcases htop [] with h | h
      · exact .inl h
      · rw [h.1]; exact .inr (.inr ⟨rfl, h.2⟩)
    · split
      · exact .inl rfl
      · exact .inl rfl
      · exact .inr (.inr ⟨rfl, List.filter_sublist⟩)
  | cntOnAll k n => exact .inl rfl
  | itemsOn k n => exact .inl rfl
  | top p => exact .inl rfl
  | remTop p =>
    simp only [Op.web]
    rcases htop p with h | h
    · exact .inl h
    · rw [h.1]; exact .inr (.inr ⟨rfl, h.2⟩)
  | cntTop p => exact .inl rfl
  | cntAll => exact .inl rfl

theorem web_sorted {sep : Nat} {t : Tbl} (h : Sorted t) (o : Op) : Sorted (o.web sep t).1 := by
  rcases web_shape sep t o with h1 | ⟨_, k, v, _, h1, _⟩ | ⟨_, h1⟩
  · rw [h1]; exact h
  · rw [h1]; exact (Db.sorted_insert h k v).1
  · exact h.sublist h1

theorem web_values {sep : Nat} {t : Tbl} (h : Sorted t) (hv : ∀ e ∈ t, e.2 ≠ []) (o : Op) (ho : o.value ≠ some []) : ∀ e ∈ (o.web sep t).1, e.2 ≠ [] := by
  rcases web_shape sep t o with h1 | ⟨_, k, v, h2, h1, _⟩ | ⟨_, h1⟩
  · rw [h1]; exact hv
  · rw [h1]
    intro e he
    rcases (Db.mem_insert_iff h k v e).mp he with he | he
    · rw [he]
      intro hn
      exact ho (by rw [h2]; dsimp only at hn; rw [hn])
    · exact hv e he.1
  · exact fun e he => hv e (h1.subset he)

/-- C234, for keys and values that are not empty: as long as the database on disk raises nothing and numbers fit, the one in browsers gives the same answers to the same calls, whatever they are. -/
theorem c234_same_partial {sep : Nat} (hs : SepOk sep) (os : List Op) (hk : ∀ o ∈ os, o.key ≠ some [] ∧ o.value ≠ some [])
    (hf : ∀ a ∈ answers (fun t o => o.lmdb sep t) [] os, Fine a) : answers (fun t o => o.web sep t) [] os = answers (fun t o => o.lmdb sep t) [] os := by
  have hgen : ∀ (os : List Op) (t : Tbl), Sorted t → (∀ e ∈ t, e.2 ≠ []) → (∀ o ∈ os, o.key ≠ some [] ∧ o.value ≠ some []) →
      (∀ a ∈ answers (fun t o => o.lmdb sep t) t os, Fine a) → answers (fun t o => o.web sep t) t os = answers (fun t o => o.lmdb sep t) t os := by
    intro os
    induction os with
    | nil => intro t _ _ _ _; rfl
    | cons o os ih =>
      intro t h hv hk hf
      have h1 := step_eq hs h hv o (hk o (by simp)).1 (hf _ (by simp [answers]))
      have h2 := web_sorted (sep := sep) h o
      have h3 := web_values (sep := sep) h hv o (hk o (by simp)).2
      simp only [answers, h1]
      rw [h1] at h2 h3
      rw [ih _ h2 h3 (fun o ho => hk o (by simp [ho])) fun a ha => hf a (by simp only [answers, List.mem_cons]; exact .inr ha)]
  exact hgen os [] (by simp [Sorted]) (by simp) hk hf

/-- **C234 fails of empty keys.** Single values raise where the database on disk answers; numbered ones are stored where it refuses. -/
theorem c234_empty_key (sep : Nat) (t : Tbl) (n : Nat) (v : Bytes) :
    ((Op.put [] v).web sep t).2 = .raised .keyError ∧ ((Op.put [] v).lmdb sep t).2 = .bool false ∧ ((Op.get []).web sep t).2 = .raised .keyError ∧ ((Op.get []).lmdb sep t).2 = .val none ∧
    (t.get (onKey sep [] n) = none → ((Op.putOn [] n v).web sep t) = (t.insert (onKey sep [] n) v, .bool true)) ∧ (Op.putOn [] n v).lmdb sep t = (t, .bool false) := by
  refine ⟨rfl, rfl, rfl, rfl, fun hg => ?_, rfl⟩
  simp only [Op.web, putVal, if_neg (onKey_ne sep [] n), hg, assign]
  rfl

end Verif.Web
