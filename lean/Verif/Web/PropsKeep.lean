import Verif.Web.Props
/-! # What the database in browsers keeps -/

namespace Verif.Web

open Verif.Db (Bytes Entry Tbl lexLt onKey splitOnKey maxON Sorted SepOk)

/-- All numbers are bytes. -/
def BytesOk (b : Bytes) : Prop := ∀ x ∈ b, x < 256
def TblOk (t : Tbl) : Prop := Sorted t ∧ ∀ e ∈ t, BytesOk e.1 ∧ BytesOk e.2

theorem hexVal_char {d : Nat} (h : d < 16) : Db.hexVal (Db.hexChar d) = some d := by
  unfold Db.hexVal Db.hexChar
  split <;> grind

theorem unhex_hex (b : Bytes) (h : BytesOk b) : unhexB (hexB b) = .ok b := by
  induction b with
  | nil => rfl
  | cons x b ih =>
    have hx := h x (by simp)
    have ih := ih fun y hy => h y (by simp [hy])
    simp only [hexB, List.flatMap_cons, List.cons_append, List.nil_append] at ih ⊢
    unfold unhexB
    rw [hexVal_char (by omega), hexVal_char (Nat.mod_lt _ (by decide)), ih]
    dsimp only
    congr 2
    omega

theorem insert_head {t : Tbl} {k v : Bytes} (h : ∀ e ∈ t, lexLt k e.1 = true) : t.insert k v = (k, v) :: t := by
  cases t with
  | nil => rfl
  | cons e t => simp only [Tbl.insert, h e (by simp), if_true]

/-- C235: what is written is read back. -/
theorem c235_unpack (t : Tbl) (h : TblOk t) : unpack (pack t) = .ok t := by
  obtain ⟨hs, hb⟩ := h
  induction t with
  | nil => rfl
  | cons e t ih =>
    have ih := ih hs.tail fun x hx => hb x (by simp [hx])
    obtain ⟨h1, h2⟩ := hb e (by simp)
    simp only [pack, List.map_cons] at ih ⊢
    unfold unpack
    rw [unhex_hex _ h1, unhex_hex _ h2]
    dsimp only
    rw [ih]
    dsimp only
    rw [insert_head fun x hx => hs.head x hx]

/-- The arguments of a call are bytes. -/
def Op.Bytes (o : Op) : Prop := (∀ k, o.key = some k → BytesOk k) ∧ ∀ v, o.value = some v → BytesOk v

theorem hexChar_lt (d : Nat) (h : d < 16) : Db.hexChar d < 256 := by
  unfold Db.hexChar
  split <;> omega

theorem onKey_ok {sep : Nat} (hsep : sep < 256) {k : Bytes} (hk : BytesOk k) (n : Nat) : BytesOk (onKey sep k n) := by
  intro x hx
  unfold onKey Db.hex32 at hx
  simp only [List.mem_append, List.mem_cons, List.mem_map] at hx
  rcases hx with hx | rfl | ⟨d, hd, rfl⟩
  · exact hk x hx
  · exact hsep
  · exact hexChar_lt d (toDigits_allLt (by decide) _ _ d hd)

theorem web_ok {sep : Nat} (hsep : sep < 256) {t : Tbl} (h : TblOk t) (o : Op) (ho : o.Bytes) : TblOk (o.web sep t).1 := by
  refine ⟨web_sorted h.1 o, ?_⟩
  rcases web_shape sep t o with h1 | ⟨_, k, v, h2, h1, hk⟩ | ⟨_, h1⟩
  · rw [h1]; exact h.2
  · rw [h1]
    intro e he
    rcases (Db.mem_insert_iff h.1 k v e).mp he with he | he
    · rw [he]
      refine ⟨?_, ho.2 v h2⟩
      rcases hk with hk | ⟨q, n, hq, rfl⟩
      · exact ho.1 k hk
      · exact onKey_ok hsep (ho.1 q hq) n
    · exact h.2 e he.1
  · exact fun e he => h.2 e (h1.subset he)

/-- What happens in a history is with bytes. -/
def Inp.Bytes : Inp → Prop
  | .call o => o.Bytes
  | _ => True

theorem open_pack {t : Tbl} (h : TblOk t) (d : Bool) :
    openStore ⟨pack t, some d⟩ = .ok { items := t, dup := d, known := true, dirty := false, isOpen := false, sync := none, kept := ⟨pack t, some d⟩ } := by
  unfold openStore
  rw [c235_unpack t h]
  simp

/-- C235: what a flush keeps is what there was when it started, whatever is called until it ends, unless it fails; the store can be opened again with it. -/
theorem c235_flushed {sep : Nat} {s : Store} (h : TblOk s.items) (hd : s.dirty = true) (hn : s.sync = none) (mid : List Inp) (hm : Inp.synced ∉ mid ∧ Inp.failed ∉ mid) :
    ∃ s', openStore (s.run sep (.flush :: mid ++ [.synced])).kept = .ok s' ∧ s'.items = s.items ∧ s'.dup = s.dup ∧ s'.known = true := by
  have hmid : ∀ (mid : List Inp) (u : Store) (k : Kept), (Inp.synced ∉ mid ∧ Inp.failed ∉ mid) → u.sync = some k → (u.run sep mid).sync = some k := by
    intro mid
    induction mid with
    | nil => intro u k _ h; exact h
    | cons i mid ih =>
      intro u k hm hu
      refine ih (u.step sep i) k ⟨fun hc => hm.1 (by simp [hc]), fun hc => hm.2 (by simp [hc])⟩ ?_
      cases i with
      | call o => exact hu
      | openDb d =>
        simp only [Store.step]
        split
        · exact hu
        · split <;> exact hu
      | flush => simp only [Store.step, hu]
      | synced => exact absurd (List.mem_cons_self ..) hm.1
      | failed => exact absurd (List.mem_cons_self ..) hm.2
  have h1 : (s.step sep .flush).sync = some ⟨pack s.items, some s.dup⟩ := by simp only [Store.step, hn, hd, if_true]
  have h2 := hmid mid _ _ hm h1
  have h3 : (s.run sep (.flush :: mid ++ [.synced])).kept = ⟨pack s.items, some s.dup⟩ := by
    simp only [Store.run, List.cons_append, List.foldl_cons, List.foldl_append, List.foldl_nil] at h2 ⊢
    generalize List.foldl (Store.step sep) (s.step sep .flush) mid = u at h2 ⊢
    simp only [Store.step, h2]
  rw [h3, open_pack h]
  exact ⟨_, rfl, rfl, rfl, rfl⟩

/-- In every history: what is kept can be opened. -/
structure Good (s : Store) : Prop where
  items : TblOk s.items
  kept : (∃ t d, TblOk t ∧ s.kept = ⟨pack t, some d⟩) ∨ s.kept = ⟨[], none⟩
  sync : ∀ k, s.sync = some k → ∃ t d, TblOk t ∧ k = ⟨pack t, some d⟩

theorem Good.step {sep : Nat} (hsep : sep < 256) {s : Store} (h : Good s) {i : Inp} (hi : i.Bytes) : Good (s.step sep i) := by
  cases i with
  | call o => exact ⟨web_ok hsep h.items o hi, h.kept, h.sync⟩
  | openDb d =>
    simp only [Store.step]
    split
    · exact h
    · split <;> exact ⟨h.items, h.kept, h.sync⟩
  | flush =>
    simp only [Store.step]
    split
    · exact h
    · split
      · exact ⟨h.items, h.kept, fun k hk => by cases hk; exact ⟨_, _, h.items, rfl⟩⟩
      · exact h
  | synced =>
    simp only [Store.step]
    split
    · exact h
    · rename_i k hk
      exact ⟨h.items, .inl (h.sync k hk), fun k hk => by cases hk⟩
  | failed => exact ⟨h.items, h.kept, fun k hk => by cases hk⟩

/-- A store that is new. -/
def fresh : Store := { items := [], dup := false, known := false, dirty := false, isOpen := false, sync := none, kept := ⟨[], none⟩ }

theorem fresh_open : openStore ⟨[], none⟩ = .ok fresh := rfl

theorem good_fresh : Good fresh := ⟨⟨by simp [fresh, Sorted], by simp [fresh]⟩, .inr rfl, fun _ h => by cases h⟩

theorem Good.run {sep : Nat} (hsep : sep < 256) {s : Store} (h : Good s) (is : List Inp) (hi : ∀ i ∈ is, i.Bytes) : Good (s.run sep is) := by
  induction is generalizing s with
  | nil => exact h
  | cons i is ih => exact ih (h.step hsep (hi i (by simp))) fun j hj => hi j (by simp [hj])

/-- C235: however it ends, a store can be opened again. -/
theorem c235_reopens {sep : Nat} (hsep : sep < 256) (is : List Inp) (hi : ∀ i ∈ is, i.Bytes) : ∃ s', openStore (fresh.run sep is).kept = .ok s' := by
  have h := good_fresh.run hsep is hi
  rcases h.kept with ⟨t, d, ht, hk⟩ | hk
  · rw [hk, open_pack ht]; exact ⟨_, rfl⟩
  · rw [hk]; exact ⟨_, fresh_open⟩

/-- Nothing is changed between start and end of a flush. -/
def Calm (sep : Nat) : Store → List Inp → Prop
  | _, [] => True
  | s, i :: is => (s.sync ≠ none → (s.step sep i).items = s.items ∧ (s.step sep i).dup = s.dup) ∧ Calm sep (s.step sep i) is

/-- What the keeping comes down to then. -/
structure Kpt (s : Store) : Prop where
  sync : ∀ k, s.sync = some k → k = ⟨pack s.items, some s.dup⟩
  clean : s.dirty = false → s.sync = none ∧ ((s.kept = ⟨pack s.items, some s.dup⟩) ∨ (s.kept = ⟨[], none⟩ ∧ s.items = [] ∧ s.dup = false))

theorem Kpt.step {sep : Nat} {s : Store} (h : Kpt s) {i : Inp} (hc : s.sync ≠ none → (s.step sep i).items = s.items ∧ (s.step sep i).dup = s.dup) : Kpt (s.step sep i) := by
  cases i with
  | call o =>
    refine ⟨fun k hk => ?_, fun hd => ?_⟩
    · have hk' : s.sync = some k := hk
      have := hc (by rw [hk']; simp)
      rw [h.sync k hk', this.1, this.2]
    · simp only [Store.step, Bool.or_eq_false_iff] at hd
      have hit : (o.web sep s.items).1 = s.items := by
        rcases web_shape sep s.items o with h1 | ⟨h1, _⟩ | ⟨h1, _⟩
        · exact h1
        · rw [hd.2] at h1; cases h1
        · rw [hd.2] at h1; cases h1
      obtain ⟨h1, h2⟩ := h.clean hd.1
      refine ⟨h1, ?_⟩
      simp only [Store.step, hit]
      exact h2
  | openDb d =>
    simp only [Store.step] at hc ⊢
    split
    · exact h
    · rename_i ho
      rw [if_neg ho] at hc
      split
      · exact ⟨h.sync, h.clean⟩
      · rename_i hk
        rw [if_neg hk] at hc
        refine ⟨fun k hk => ?_, fun hd => by cases hd⟩
        have hk' : s.sync = some k := hk
        have := hc (by rw [hk']; simp)
        rw [h.sync k hk', ← this.2]
  | flush =>
    simp only [Store.step]
    split
    · exact h
    · split
      · rename_i hd
        exact ⟨fun k hk => by cases hk; rfl, fun hd' => by simp only at hd'; rw [hd] at hd'; cases hd'⟩
      · exact h
  | synced =>
    simp only [Store.step]
    split
    · exact h
    · rename_i k hk
      refine ⟨fun k hk => (by cases hk), fun _ => ⟨rfl, .inl ?_⟩⟩
      exact h.sync k hk
  | failed => exact ⟨fun k hk => (by cases hk), fun hd => ⟨rfl, (h.clean hd).2⟩⟩

/-- C235, if nothing is changed while a flush is under way: a store that is not marked is kept, so that opening it again gives what there is. -/
theorem c235_kept_partial {sep : Nat} (hsep : sep < 256) (is : List Inp) (hi : ∀ i ∈ is, i.Bytes) (hc : Calm sep fresh is) (hd : (fresh.run sep is).dirty = false) :
    ∃ s', openStore (fresh.run sep is).kept = .ok s' ∧ s'.items = (fresh.run sep is).items ∧ s'.dup = (fresh.run sep is).dup := by
  have hg := good_fresh.run hsep is hi
  have hk : ∀ (is : List Inp) (s : Store), Kpt s → Calm sep s is → Kpt (s.run sep is) := by
    intro is
    induction is with
    | nil => intro s h _; exact h
    | cons i is ih => exact fun s h hc => ih _ (h.step hc.1) hc.2
  have hk := hk is fresh ⟨fun k hk => (by cases hk), fun _ => ⟨rfl, .inr ⟨rfl, rfl, rfl⟩⟩⟩ hc
  rcases (hk.clean hd).2 with h | ⟨h, h1, h2⟩
  · rw [h, open_pack hg.items]
    exact ⟨_, rfl, rfl, rfl⟩
  · rw [h, h1, h2]
    exact ⟨_, fresh_open, rfl, rfl⟩

/-- **C235 fails while a flush is under way.** Whatever is changed between its start and its end is not marked any more: however often the database is flushed afterwards, what is kept is what there was
before. -/
theorem c235_lost {sep : Nat} {s : Store} (h : TblOk s.items) (hd : s.dirty = true) (hn : s.sync = none) (o : Op) (later : List Inp) (hl : ∀ i ∈ later, i = .flush ∨ i = .synced ∨ i = .failed) :
    (s.run sep ([.flush, .call o, .synced] ++ later)).items = (o.web sep s.items).1 ∧
    ∃ s', openStore (s.run sep ([.flush, .call o, .synced] ++ later)).kept = .ok s' ∧ s'.items = s.items := by
  have h1 : ∀ (later : List Inp) (u : Store), (∀ i ∈ later, i = .flush ∨ i = .synced ∨ i = .failed) → u.dirty = false → u.sync = none → u.run sep later = u := by
    intro later
    induction later with
    | nil => intro u _ _ _; rfl
    | cons i later ih =>
      intro u hl h1 h2
      have : u.step sep i = u := by
        rcases hl i (by simp) with rfl | rfl | rfl
        · simp [Store.step, h1, h2]
        · simp [Store.step, h2]
        · cases u; simp only at h2; simp only [Store.step, h2]
      show (u.step sep i).run sep later = u
      rw [this]
      exact ih u (fun j hj => hl j (by simp [hj])) h1 h2
  have h2 : s.run sep [.flush, .call o, .synced] =
      { s with items := (o.web sep s.items).1, sync := none, kept := ⟨pack s.items, some s.dup⟩, dirty := false } := by
    simp only [Store.run, List.foldl_cons, List.foldl_nil, Store.step, hn, hd, if_true]
  have h3 : s.run sep ([.flush, .call o, .synced] ++ later) = s.run sep [.flush, .call o, .synced] := by
    have : s.run sep ([.flush, .call o, .synced] ++ later) = (s.run sep [.flush, .call o, .synced]).run sep later := by
      simp only [Store.run, List.foldl_append]
    rw [this]
    exact h1 later _ hl (by rw [h2]) (by rw [h2])
  rw [h3, h2]
  exact ⟨rfl, _, open_pack h _, rfl⟩

/-- **C235 fails of clearing.** Closing with clear leaves no store to be flushed: all that was kept is kept still. -/
theorem c235_not_cleared (stores : List Store) :
    (close stores true).2 = [] ∧ (∀ s ∈ (close stores true).1, s.items = [] ∧ s.dirty = true) ∧ (close stores true).1.map (·.kept) = stores.map (·.kept) := by
  refine ⟨rfl, ?_, ?_⟩
  · intro s hs
    simp only [close, if_true, List.mem_map] at hs
    obtain ⟨u, _, rfl⟩ := hs
    exact ⟨rfl, rfl⟩
  · simp only [close, if_true, List.map_map]
    rfl

end Verif.Web
