import Verif.Org.Lemmas

/-! # C188–C190: contacts -/

namespace Verif.Org

open Verif.Db Verif.Krm Verif.Sub

/-! ## Specification -/

/-- Contacts: for every one that there is, its fields. -/
abbrev Contacts := Text → Option (Text → Option Text)

def Contacts.with (M : Contacts) (p : Text) (o : Option (Text → Option Text)) : Contacts := fun x => if x = p then o else M x

/-- Fields of a contact, none if there is no such contact. -/
def Contacts.of (M : Contacts) (p : Text) : Text → Option Text := (M p).getD (fun _ => none)

/-- What the calls are for, and what they raise. -/
def Op.spec (M : Contacts) : Op → Contacts × Option Err
  | .update p d => (M.with p (some fun f => (dget d f).or (M.of p f)), none)
  | .replace p d => (M.with p (some (dget d)), none)
  | .set p f v => (M.with p (some fun x => if x = f then textOf v else M.of p x), none)
  | .unset p f => match M p with
    | none => (M, some .typeError)
    | some g => if (g f).isSome then (M.with p (some fun x => if x = f then none else g x), none) else (M, some .keyError)
  | .rem p => (M.with p none, none)

def Op.pre : Op → Text
  | .update p _ | .replace p _ | .set p _ _ | .unset p _ | .rem p => p

/-- Fields have names without the separator, other than `id`, and values that are text. -/
def Op.ok : Op → Prop
  | .update _ d | .replace _ d => DataOk d ∧ idKey ∉ d.map (·.1)
  | .set _ f v => NoDot f ∧ f ≠ idKey ∧ ∃ b, v = .text b
  | .unset _ f => NoDot f ∧ f ≠ idKey
  | .rem _ => True

/-- Identifiers: not empty, without the separator, and none continues another one. -/
structure PresOk (P : Text → Prop) : Prop where
  ne : ∀ p, P p → p ≠ []
  nodot : ∀ p, P p → NoDot p
  free : ∀ p q, P p → P q → p <+: q → q = p

def calls (w : World) : List Op → World × List (Option Err)
  | [] => (w, [])
  | o :: os => ((calls (call w o).1 os).1, (call w o).2 :: (calls (call w o).1 os).2)

def specs (M : Contacts) : List Op → Contacts × List (Option Err)
  | [] => (M, [])
  | o :: os => ((specs (o.spec M).1 os).1, (o.spec M).2 :: (specs (o.spec M).1 os).2)

/-! ## The invariant -/

/-- What the index of fields holds: the fields of contacts, and perhaps `id`. -/
def index (M : Contacts) (J : Text → Option Text) (p f : Text) : Option Text := if f = idKey then J p else M.of p f

structure Inv (P : Text → Prop) (w : World) (M : Contacts) : Prop where
  data : ∀ p, match M p with
    | none => Tab.get w.data p = none
    | some g => ∃ d, Tab.get w.data p = some d ∧ Tab.get w.cigs p = some (some d) ∧ (d.map (·.1)).Nodup ∧
      (∀ f, f ≠ idKey → Tab.get d f = (g f).map .text)
  pres : ∀ p, (M p).isSome → P p
  names : ∀ p f v, M.of p f = some v → NoDot f
  fields : ∃ J : Text → Option Text, Flds w.fields (index M J) ∧ ∀ p x, J p = some x → x = p ∧ (M p).isSome

variable {P : Text → Prop}

theorem nodot_id : NoDot idKey := by unfold NoDot idKey; decide

theorem index_pre {w : World} {M : Contacts} (h : Inv P w M) {J : Text → Option Text} (hJ : ∀ p x, J p = some x → x = p ∧ (M p).isSome) {p f v : Text}
    (hi : index M J p f = some v) : P p ∧ NoDot f := by
  unfold index at hi
  split at hi
  · rename_i hf
    subst hf
    exact ⟨h.pres p (hJ p v hi).2, nodot_id⟩
  · refine ⟨h.pres p ?_, h.names p f v hi⟩
    unfold Contacts.of at hi
    cases hM : M p with
    | none => rw [hM] at hi; cases hi
    | some g => rfl

theorem get_inv {w : World} {M : Contacts} (h : Inv P w M) (p : Text) : match M p with
    | none => get w p = .ok none
    | some g => ∃ d, get w p = .ok (some d) ∧ (d.map (·.1)).Nodup ∧ Tab.get d idKey = some (.text p) ∧ ∀ f, f ≠ idKey → Tab.get d f = (g f).map .text := by
  have hd := h.data p
  unfold get
  cases hM : M p with
  | none => rw [hM] at hd; dsimp only at hd ⊢; rw [hd]
  | some g =>
    rw [hM] at hd
    obtain ⟨d, h1, h2, h3, h4⟩ := hd
    dsimp only
    rw [h1]
    dsimp only
    rw [h2]
    dsimp only
    rw [if_pos rfl]
    refine ⟨_, rfl, nodup_pin h3 _ _, by rw [get_pin, if_pos rfl], fun f hf => ?_⟩
    rw [get_pin, if_neg (fun h => hf h.symm)]
    exact h4 f hf

theorem of_with (M : Contacts) (p : Text) (o : Option (Text → Option Text)) (q : Text) :
    (M.with p o).of q = if q = p then o.getD (fun _ => none) else M.of q := by
  unfold Contacts.of Contacts.with
  by_cases h : q = p
  · simp [h]
  · simp [h]

/-- `rem`. -/
theorem rem_inv (hP : PresOk P) {w : World} {M : Contacts} (h : Inv P w M) {p : Text} (hp : P p) : Inv P (exec w (rem p)) (M.with p none) := by
  obtain ⟨J, hF, hJ⟩ := h.fields
  refine ⟨?_, ?_, ?_, fun q => if q = p then none else J q, ?_, ?_⟩
  · intro q
    have hd := h.data q
    show match (M.with p none) q with
      | none => Tab.get (Tab.rem w.data p) q = none
      | some g => ∃ d, Tab.get (Tab.rem w.data p) q = some d ∧ Tab.get (Tab.rem w.cigs p) q = some (some d) ∧ (d.map (·.1)).Nodup ∧
        (∀ f, f ≠ idKey → Tab.get d f = (g f).map .text)
    unfold Contacts.with
    by_cases hq : q = p
    · subst hq
      simp [get_rem]
    · simp only [if_neg hq, get_rem, if_neg (fun h : p = q => hq h.symm)]
      exact hd
  · intro q hq
    unfold Contacts.with at hq
    split at hq
    · cases hq
    · exact h.pres q hq
  · intro q f v hq
    rw [of_with] at hq
    split at hq
    · cases hq
    · exact h.names q f v hq
  · have := flds_trim hF (hP.nodot p hp) (fun q f v hi hpre => hP.free p q hp (index_pre h hJ hi).1 hpre)
    have e : index (M.with p none) (fun q => if q = p then none else J q) = (fun x y => if x = p then none else index M J x y) := by
      funext x y
      unfold index
      rw [of_with]
      by_cases hx : x = p
      · simp [hx]
      · simp [hx]
    rw [e]
    exact this
  · intro q x hx
    simp only at hx
    split at hx
    · cases hx
    · rename_i hq
      obtain ⟨h1, h2⟩ := hJ q x hx
      exact ⟨h1, by unfold Contacts.with; rw [if_neg hq]; exact h2⟩

/-- Data is written. -/
theorem put_inv (hP : PresOk P) {w : World} {M : Contacts} (h : Inv P w M) {p : Text} (hp : P p) {D data : Dict} {g : Text → Option Text}
    (hd : DataOk data) (hD : (D.map (·.1)).Nodup) (hg : ∀ f, f ≠ idKey → Tab.get D f = (g f).map .text)
    (hgf : ∀ f, f ≠ idKey → g f = (dget data f).or (M.of p f)) (hid : ∀ x, dget data idKey = some x → x = p) (hgi : g idKey = none) :
    (fieldWrites p data).2 = none ∧ Inv P (exec w (.pinCig p D :: .pinData p D :: (fieldWrites p data).1)) (M.with p (some g)) := by
  obtain ⟨J, hF, hJ⟩ := h.fields
  obtain ⟨f1, f2⟩ := fieldWrites_ok (hP.nodot p hp) data hd
  refine ⟨f1, ?_⟩
  have e : exec w (.pinCig p D :: .pinData p D :: (fieldWrites p data).1) =
      exec (write (write w (.pinCig p D)) (.pinData p D)) (fieldWrites p data).1 := rfl
  rw [e]
  obtain ⟨j1, j2, j3⟩ := f2 (write (write w (.pinCig p D)) (.pinData p D)) _ hF
  refine ⟨?_, ?_, ?_, fun q => if q = p then (dget data idKey).or (J q) else J q, ?_, ?_⟩
  · intro q
    rw [j1, j2]
    have hd := h.data q
    show match (M.with p (some g)) q with
      | none => Tab.get (Tab.pin w.data p D) q = none
      | some g => ∃ d, Tab.get (Tab.pin w.data p D) q = some d ∧ Tab.get (Tab.pin w.cigs p (some D)) q = some (some d) ∧ (d.map (·.1)).Nodup ∧
        (∀ f, f ≠ idKey → Tab.get d f = (g f).map .text)
    unfold Contacts.with
    by_cases hq : q = p
    · subst hq
      simp only [if_true]
      exact ⟨D, by simp [get_pin], by simp [get_pin], hD, hg⟩
    · simp only [if_neg hq, get_pin, if_neg (fun h : p = q => hq h.symm)]
      exact hd
  · intro q hq
    unfold Contacts.with at hq
    split at hq
    · rename_i hqp; rw [hqp]; exact hp
    · exact h.pres q hq
  · intro q f v hq
    rw [of_with] at hq
    split at hq
    · rename_i hqp
      subst hqp
      simp only [Option.getD_some] at hq
      by_cases hfi : f = idKey
      · rw [hfi]; exact nodot_id
      · rw [hgf f hfi] at hq
        cases hdf : dget data f with
        | none => rw [hdf] at hq; exact h.names q f v hq
        | some b =>
          unfold dget at hdf
          cases ht : Tab.get data f with
          | none => rw [ht] at hdf; cases hdf
          | some x => exact hd.nodot (f, x) (get_mem ht)
    · exact h.names q f v hq
  · have e : index (M.with p (some g)) (fun q => if q = p then (dget data idKey).or (J q) else J q) =
        (fun x y => if x = p then (dget data y).or (index M J x y) else index M J x y) := by
      funext x y
      unfold index
      rw [of_with]
      by_cases hx : x = p
      · subst hx
        simp only [if_true, Option.getD_some]
        by_cases hy : y = idKey
        · simp [hy]
        · simp only [if_neg hy]
          exact hgf y hy
      · simp [hx]
    rw [e]
    exact j3
  · intro q x hx
    simp only at hx
    unfold Contacts.with
    by_cases hq : q = p
    · subst hq
      rw [if_pos rfl] at hx
      rw [if_pos rfl]
      refine ⟨?_, rfl⟩
      cases hdi : dget data idKey with
      | none => rw [hdi] at hx; exact (hJ q x hx).1
      | some y =>
        rw [hdi] at hx
        simp only [Option.some_or, Option.some.injEq] at hx
        rw [← hx]
        exact hid y hdi
    · rw [if_neg hq] at hx
      rw [if_neg hq]
      exact hJ q x hx

/-- `update` of a contact, with data that may hold its own `id`. -/
theorem update_inv (hP : PresOk P) {w : World} {M : Contacts} (h : Inv P w M) {p : Text} (hp : P p) {data : Dict} (hd : DataOk data)
    (hid : ∀ x, dget data idKey = some x → x = p) :
    (update w p data).2 = none ∧ Inv P (exec w (update w p data).1) (M.with p (some fun f => if f = idKey then none else (dget data f).or (M.of p f))) := by
  have hg := get_inv h p
  unfold update
  cases hM : M p with
  | none =>
    rw [hM] at hg
    dsimp only at hg
    rw [hg]
    dsimp only [Option.getD_none]
    refine put_inv hP h hp hd (nodup_merge _ _ (by simp)) (fun f hf => ?_) (fun f hf => ?_) hid (by simp)
    · rw [get_merge _ _ _ hd.nodup, hd.get f, if_neg hf]
      simp [Contacts.of, hM, get_nil]
    · rw [if_neg hf]
  | some g =>
    rw [hM] at hg
    obtain ⟨d, g1, g2, g3, g4⟩ := hg
    rw [g1]
    dsimp only [Option.getD_some]
    refine put_inv hP h hp hd (nodup_merge _ _ g2) (fun f hf => ?_) (fun f hf => ?_) hid (by simp)
    · rw [get_merge _ _ _ hd.nodup, hd.get f, if_neg hf, g4 f hf]
      simp only [Contacts.of, hM, Option.getD_some]
      cases dget data f <;> simp
    · rw [if_neg hf]

theorem exec_append (w : World) (a b : List Write) : exec w (a ++ b) = exec (exec w a) b := by
  unfold exec; rw [List.foldl_append]

theorem replace_inv (hP : PresOk P) {w : World} {M : Contacts} (h : Inv P w M) {p : Text} (hp : P p) {data : Dict} (hd : DataOk data)
    (hid : ∀ x, dget data idKey = some x → x = p) :
    (replace w p data).2 = none ∧ Inv P (exec w (replace w p data).1) (M.with p (some fun f => if f = idKey then none else dget data f)) := by
  obtain ⟨h1, h2⟩ := update_inv hP (rem_inv hP h hp) hp hd hid
  unfold replace
  dsimp only
  refine ⟨h1, ?_⟩
  rw [exec_append]
  have e : (M.with p none).with p (some fun f => if f = idKey then none else (dget data f).or ((M.with p none).of p f)) =
      M.with p (some fun f => if f = idKey then none else dget data f) := by
    funext x
    unfold Contacts.with Contacts.of
    by_cases hx : x = p <;> simp [hx]
  rw [e] at h2
  exact h2

/-- What `set` and `unset` read. -/
theorem dataOk_of {d : Dict} {p : Text} {g : Text → Option Text} (hn : (d.map (·.1)).Nodup) (hid : Tab.get d idKey = some (.text p))
    (hg : ∀ f, f ≠ idKey → Tab.get d f = (g f).map .text) (hdot : ∀ f v, g f = some v → NoDot f) : DataOk d := by
  have hget : ∀ e, e ∈ d → Tab.get d e.1 = some e.2 := by
    intro e he
    clear hid hg
    induction d with
    | nil => cases he
    | cons x d ih =>
      rw [get_cons]
      rcases List.mem_cons.1 he with rfl | he
      · rw [if_pos rfl]
      · have := List.nodup_cons.1 hn
        rw [if_neg, ih this.2 he]
        intro h0
        exact this.1 (List.mem_map.2 ⟨e, he, h0.symm⟩)
  refine ⟨fun e he => ?_, fun e he => ?_, hn⟩
  · have h1 := hget e he
    by_cases hf : e.1 = idKey
    · rw [hf, hid] at h1; injection h1 with h1; exact ⟨p, h1.symm⟩
    · rw [hg e.1 hf] at h1
      cases hv : g e.1 with
      | none => rw [hv] at h1; cases h1
      | some v => rw [hv] at h1; injection h1 with h1; exact ⟨v, h1.symm⟩
  · have h1 := hget e he
    by_cases hf : e.1 = idKey
    · rw [hf]; exact nodot_id
    · rw [hg e.1 hf] at h1
      cases hv : g e.1 with
      | none => rw [hv] at h1; cases h1
      | some v => exact hdot e.1 v hv

theorem dataOk_pin {d : Dict} (h : DataOk d) {f : Text} (hf : NoDot f) (b : Text) : DataOk (Tab.pin d f (.text b)) := by
  have hm : ∀ (d : Dict) e, e ∈ Tab.pin d f (.text b) → e = (f, .text b) ∨ e ∈ d := by
    intro d e he
    induction d with
    | nil => simp [Tab.pin] at he; exact Or.inl he
    | cons x d ih =>
      unfold Tab.pin at he
      split at he
      · rcases List.mem_cons.1 he with rfl | he
        · exact Or.inl rfl
        · exact Or.inr (by simp [he])
      · rcases List.mem_cons.1 he with rfl | he
        · exact Or.inr (by simp)
        · exact (ih he).imp id (fun h => by simp [h])
  refine ⟨fun e he => ?_, fun e he => ?_, nodup_pin h.nodup _ _⟩
  · rcases hm d e he with rfl | he
    · exact ⟨b, rfl⟩
    · exact h.text e he
  · rcases hm d e he with rfl | he
    · exact hf
    · exact h.nodot e he

theorem dataOk_rem {d : Dict} (h : DataOk d) (f : Text) : DataOk (Tab.rem d f) :=
  ⟨fun e he => h.text e (List.mem_filter.1 he).1, fun e he => h.nodot e (List.mem_filter.1 he).1, nodup_rem h.nodup f⟩

theorem Inv.congr {w : World} {M M' : Contacts} (h : Inv P w M) (e : M = M') : Inv P w M' := e ▸ h

/-- A field that is there as it is written. -/
theorem again_inv {w : World} {M : Contacts} (hP : PresOk P) (h : Inv P w M) {p f : Text} (hp : P p) (hf : f ≠ idKey) (hfd : NoDot f) :
    (∀ b, M.of p f = some b → Inv P (write w (.pinField p f b)) M) ∧ (M.of p f = none → Inv P (write w (.remField p f)) M) := by
  obtain ⟨J, hF, hJ⟩ := h.fields
  refine ⟨fun b hb => ⟨h.data, h.pres, h.names, J, ?_, hJ⟩, fun hb => ⟨h.data, h.pres, h.names, J, ?_, hJ⟩⟩
  · have := flds_pin hF (hP.nodot p hp) hfd b
    have e : index M J = (fun x y => if x = p ∧ y = f then some b else index M J x y) := by
      funext x y
      split
      · rename_i hxy
        obtain ⟨rfl, rfl⟩ := hxy
        unfold index
        rw [if_neg hf, hb]
      · rfl
    rw [e]
    exact this
  · have := flds_rem hF (hP.nodot p hp) hfd
    have e : index M J = (fun x y => if x = p ∧ y = f then none else index M J x y) := by
      funext x y
      split
      · rename_i hxy
        obtain ⟨rfl, rfl⟩ := hxy
        unfold index
        rw [if_neg hf, hb]
      · rfl
    rw [e]
    exact this

/-- Contacts do not have `id` as a field of their own. -/
def NoId (M : Contacts) : Prop := ∀ p, M.of p idKey = none

theorem call_inv (hP : PresOk P) {w : World} {M : Contacts} (h : Inv P w M) (hn : NoId M) (o : Op) (hp : P o.pre) (ho : o.ok) :
    (call w o).2 = (o.spec M).2 ∧ Inv P (call w o).1 (o.spec M).1 ∧ NoId (o.spec M).1 := by
  have hnoid : ∀ d : Dict, idKey ∉ d.map (·.1) → dget d idKey = none := fun d hd => by unfold dget; rw [get_none_of hd]; rfl
  have nw : ∀ p g, g idKey = none → NoId (M.with p (some g)) := by
    intro p g hg q
    rw [of_with]
    split
    · exact hg
    · exact hn q
  cases o with
  | update p d =>
    have hp : P p := hp
    obtain ⟨hd, hi⟩ := ho
    obtain ⟨h1, h2⟩ := update_inv hP h hp hd (fun x hx => by rw [hnoid d hi] at hx; cases hx)
    refine ⟨h1, h2.congr ?_, nw _ _ ?_⟩
    · show M.with p _ = M.with p _
      congr 2
      funext f
      by_cases hf : f = idKey
      · subst hf; simp [hnoid d hi, hn p]
      · rw [if_neg hf]
    · simp [hnoid d hi, hn p]
  | replace p d =>
    have hp : P p := hp
    obtain ⟨hd, hi⟩ := ho
    obtain ⟨h1, h2⟩ := replace_inv hP h hp hd (fun x hx => by rw [hnoid d hi] at hx; cases hx)
    refine ⟨h1, h2.congr ?_, nw _ _ (hnoid d hi)⟩
    show M.with p _ = M.with p _
    congr 2
    funext f
    by_cases hf : f = idKey
    · subst hf; simp [hnoid d hi]
    · rw [if_neg hf]
  | set p f v =>
    obtain ⟨hf, hfi, b, rfl⟩ := ho
    have hp : P p := hp
    have hg := get_inv h p
    simp only [call, Op.writes, Op.spec, textOf]
    have key : ∀ o, get w p = .ok o → DataOk (o.getD []) → (∀ x, dget (o.getD []) idKey = some x → x = p) →
        (∀ x, x ≠ idKey → dget (o.getD []) x = M.of p x) →
        (set w p f (.text b)).2 = none ∧ Inv P (exec w (set w p f (.text b)).1) (M.with p (some fun x => if x = f then some b else M.of p x)) := by
      intro o ho hd hid hx
      have hd' := dataOk_pin hd hf b
      have hid' : ∀ x, dget (Tab.pin (o.getD []) f (.text b)) idKey = some x → x = p := by
        intro x
        unfold dget
        rw [get_pin, if_neg hfi]
        exact hid x
      obtain ⟨h1, h2⟩ := replace_inv hP h hp hd' hid'
      have e : M.with p (some fun y => if y = idKey then none else dget (Tab.pin (o.getD []) f (.text b)) y) =
          M.with p (some fun x => if x = f then some b else M.of p x) := by
        congr 2
        funext y
        by_cases hy : y = idKey
        · subst hy; rw [if_pos rfl, if_neg (fun h => hfi h.symm), hn p]
        · rw [if_neg hy]
          by_cases hyf : y = f
          · subst hyf; rw [if_pos rfl]; unfold dget; rw [get_pin, if_pos rfl]; rfl
          · rw [if_neg hyf, ← hx y hy]; unfold dget; rw [get_pin, if_neg (fun h => hyf h.symm)]
      rw [e] at h2
      unfold set
      rw [ho]
      dsimp only
      revert h1 h2
      generalize replace w p (Tab.pin (o.getD []) f (.text b)) = r
      obtain ⟨ws, e'⟩ := r
      intro h1 h2
      dsimp only at h1
      subst h1
      refine ⟨rfl, ?_⟩
      dsimp only
      rw [exec_append]
      exact (again_inv hP h2 hp hfi hf).1 b (by rw [of_with]; simp)
    have hnid : NoId (M.with p (some fun x => if x = f then some b else M.of p x)) :=
      nw _ _ (by rw [if_neg (fun h => hfi h.symm), hn p])
    cases hM : M p with
    | none =>
      rw [hM] at hg
      obtain ⟨k1, k2⟩ := key none hg ⟨(fun e he => by cases he), (fun e he => by cases he), by simp⟩ (fun x hx => by simp [dget, get_nil] at hx)
        (fun x _ => by simp [dget, get_nil, Contacts.of, hM])
      exact ⟨k1, k2, hnid⟩
    | some g =>
      rw [hM] at hg
      obtain ⟨d, g1, g2, g3, g4⟩ := hg
      have hof : M.of p = g := by unfold Contacts.of; rw [hM]; rfl
      obtain ⟨k1, k2⟩ := key (some d) g1 (dataOk_of g2 g3 g4 (fun x v hx => h.names p x v (by rw [hof]; exact hx)))
        (fun x hx => by simp only [dget, Option.getD_some, g3, Option.bind_some, textOf, Option.some.injEq] at hx; exact hx.symm)
        (fun x hx => by rw [hof]; simp only [dget, Option.getD_some, g4 x hx]; cases g x <;> rfl)
      exact ⟨k1, k2, hnid⟩
  | unset p f =>
    have hp : P p := hp
    obtain ⟨hf, hfi⟩ := ho
    have hg := get_inv h p
    simp only [call, Op.writes, Op.spec]
    cases hM : M p with
    | none =>
      rw [hM] at hg
      dsimp only at hg ⊢
      unfold unset
      rw [hg]
      exact ⟨rfl, h, hn⟩
    | some g =>
      rw [hM] at hg
      obtain ⟨d, g1, g2, g3, g4⟩ := hg
      dsimp only
      have hof : M.of p = g := by unfold Contacts.of; rw [hM]; rfl
      unfold unset
      rw [g1]
      dsimp only
      have hsome : (Tab.get d f).isSome = (g f).isSome := by rw [g4 f hfi]; cases g f <;> rfl
      rw [hsome]
      by_cases hgf : (g f).isSome = true
      · rw [if_pos hgf, if_pos hgf]
        have hd := dataOk_of g2 g3 g4 (fun x v hx => h.names p x v (by rw [hof]; exact hx))
        obtain ⟨h1, h2⟩ := replace_inv hP h hp (dataOk_rem hd f) (fun x => by
          unfold dget
          rw [get_rem, if_neg hfi, g3]
          intro hx
          simp only [Option.bind_some, textOf, Option.some.injEq] at hx
          exact hx.symm)
        have e : M.with p (some fun y => if y = idKey then none else dget (Tab.rem d f) y) = M.with p (some fun x => if x = f then none else g x) := by
          congr 2
          funext y
          by_cases hy : y = idKey
          · subst hy
            rw [if_pos rfl, if_neg (fun h => hfi h.symm)]
            rw [← hof]; exact (hn p).symm
          · rw [if_neg hy]
            unfold dget
            rw [get_rem]
            by_cases hyf : y = f
            · subst hyf; simp
            · rw [if_neg (fun h => hyf h.symm), if_neg hyf, g4 y hy]
              cases g y <;> rfl
        rw [e] at h2
        revert h1 h2
        generalize replace w p (Tab.rem d f) = r
        obtain ⟨ws, e'⟩ := r
        intro h1 h2
        dsimp only at h1
        subst h1
        refine ⟨rfl, ?_, nw _ _ ?_⟩
        · dsimp only
          rw [exec_append]
          exact (again_inv hP h2 hp hfi hf).2 (by rw [of_with]; simp)
        · rw [if_neg (fun h => hfi h.symm), ← hof]; exact hn p
      · rw [if_neg hgf, if_neg hgf]
        exact ⟨rfl, h, hn⟩
  | rem p =>
    have hp : P p := hp
    refine ⟨rfl, rem_inv hP h hp, fun q => ?_⟩
    show (M.with p none).of q idKey = none
    rw [of_with]
    split
    · rfl
    · exact hn q

theorem calls_inv (hP : PresOk P) : ∀ (os : List Op) (w : World) (M : Contacts), Inv P w M → NoId M → (∀ o, o ∈ os → P o.pre ∧ o.ok) →
    (calls w os).2 = (specs M os).2 ∧ Inv P (calls w os).1 (specs M os).1 ∧ NoId (specs M os).1
  | [], _, _, h, hn, _ => ⟨rfl, h, hn⟩
  | o :: os, w, M, h, hn, ho => by
    obtain ⟨h1, h2, h3⟩ := call_inv hP h hn o (ho o (by simp)).1 (ho o (by simp)).2
    obtain ⟨i1, i2, i3⟩ := calls_inv hP os _ _ h2 h3 (fun x hx => ho x (by simp [hx]))
    exact ⟨by simp only [calls, specs]; rw [h1, i1], i2, i3⟩

theorem inv_nil : Inv P {} (fun _ => none) := by
  refine ⟨fun p => rfl, fun p h => (by cases h), fun p f v h => (by cases h), fun _ => none, ?_, fun p x h => (by cases h)⟩
  have : index (fun _ => none) (fun _ => none) = fun _ _ => none := by funext p f; unfold index; split <;> rfl
  rw [this]
  have e : pairMap (fun _ _ => none) = fun _ => none := by funext ks; unfold pairMap; split <;> rfl
  unfold Flds
  rw [e]
  exact rel_nil 46 textCodec

/-! ## The properties -/

/-- **C188 (partial).** After any calls, `get` of a contact gives the data that was given, every field as it was set last, and its `id`; and every call
raises as it should. Missing: names with the separator or `id`, values that are not text, identifiers that continue others (witnesses below). -/
theorem c188_get_partial (hP : PresOk P) (os : List Op) (ho : ∀ o, o ∈ os → P o.pre ∧ o.ok) :
    (calls {} os).2 = (specs (fun _ => none) os).2 ∧
    ∀ p, match (specs (fun _ => none) os).1 p with
      | none => get (calls {} os).1 p = .ok none
      | some g => ∃ d, get (calls {} os).1 p = .ok (some d) ∧ Tab.get d idKey = some (.text p) ∧ ∀ f, f ≠ idKey → Tab.get d f = (g f).map .text := by
  obtain ⟨h1, h2, _⟩ := calls_inv hP os {} _ inv_nil (fun p => rfl) ho
  refine ⟨h1, fun p => ?_⟩
  have := get_inv h2 p
  revert this
  cases (specs (fun _ => none) os).1 p with
  | none => exact id
  | some g => rintro ⟨d, g1, _, g3, g4⟩; exact ⟨d, g1, g3, g4⟩

/-- **C189 (partial).** After any calls, `list` gives every contact that has a field once, with its fields and its `id`, and nothing else. Missing: as in
C188, and contacts without fields. -/
theorem c189_list_partial (hP : PresOk P) (os : List Op) (ho : ∀ o, o ∈ os → P o.pre ∧ o.ok) :
    ∃ ps : List (Text × Dict), list (calls {} os).1 = .ok (ps.map (·.2)) ∧ (ps.map (·.1)).Nodup ∧
      (∀ p f v, (specs (fun _ => none) os).1.of p f = some v → p ∈ ps.map (·.1)) ∧
      ∀ p e, (p, e) ∈ ps → ((specs (fun _ => none) os).1 p).isSome ∧ Tab.get e idKey = some (.text p) ∧
        ∀ f, f ≠ idKey → Tab.get e f = ((specs (fun _ => none) os).1.of p f).map .text := by
  obtain ⟨_, h, hn⟩ := calls_inv hP os {} _ inv_nil (fun p => rfl) ho
  revert h hn
  generalize (specs (fun _ => none) os).1 = M
  generalize (calls {} os).1 = w
  intro h hn
  obtain ⟨J, hF, hJ⟩ := h.fields
  obtain ⟨L, l1, l2, l3⟩ := allFields_ok hF (fun p f v hi => ⟨hP.nodot p (index_pre h hJ hi).1, (index_pre h hJ hi).2⟩)
  have hL : ∀ x, x ∈ L → NoDot x.1 ∧ x.1 ≠ [] ∧ (M x.1).isSome := by
    rintro ⟨p, f, v⟩ hx
    have hi := (l3 p f v).1 hx
    have hp := (index_pre h hJ hi).1
    refine ⟨hP.nodot p hp, hP.ne p hp, ?_⟩
    unfold index at hi
    split at hi
    · exact (hJ p v hi).2
    · unfold Contacts.of at hi
      cases hM : M p with
      | none => rw [hM] at hi; cases hi
      | some g => rfl
  have shows : ∀ p e, Shows L p (baseOf p) e → Tab.get e idKey = some (.text p) ∧ ∀ f, f ≠ idKey → Tab.get e f = (M.of p f).map .text := by
    intro p e hs
    refine ⟨?_, fun f hf => ?_⟩
    · obtain ⟨s1, s2⟩ := hs idKey
      cases hJp : J p with
      | none => rw [s2 (fun v hv => by have := (l3 _ _ _).1 hv; unfold index at this; rw [if_pos rfl, hJp] at this; cases this)]; simp [baseOf]
      | some x =>
        have := (hJ p x hJp).1
        subst this
        exact s1 x ((l3 _ _ _).2 (by unfold index; rw [if_pos rfl, hJp]))
    · obtain ⟨s1, s2⟩ := hs f
      cases hM : M.of p f with
      | none =>
        rw [s2 (fun v hv => by have := (l3 _ _ _).1 hv; unfold index at this; rw [if_neg hf, hM] at this; cases this)]
        simp [baseOf, hf]
      | some v => exact s1 v ((l3 _ _ _).2 (by unfold index; rw [if_neg hf, hM]))
  have hmemL : ∀ p f v, M.of p f = some v → ∃ f' v', (p, f', v') ∈ L := by
    intro p f v hv
    have hf : f ≠ idKey := by rintro rfl; rw [hn p] at hv; cases hv
    exact ⟨f, v, (l3 _ _ _).2 (by unfold index; rw [if_neg hf, hv])⟩
  unfold list
  rw [l1]
  dsimp only
  match L, l2, hL, shows, hmemL with
  | [], _, _, _, hm => exact ⟨[], rfl, by simp, fun p f v hv => (by obtain ⟨_, _, h0⟩ := hm p f v hv; cases h0), fun p e h0 => (by cases h0)⟩
  | (p, f, v) :: L, l2, hL, shows, hm =>
    obtain ⟨d', ps, k1, k2, k3, k4, k5⟩ := listGo_ok L (p, f, v) (Tab.pin [(idKey, .text p)] f (.text v)) l2 (fun x hx => (hL x hx).1)
    have huniq : ∀ v', (p, f, v') ∉ L := fun v' hv' => tripleLt_irrefl ((List.pairwise_cons.1 l2).1 _ hv') ⟨rfl, rfl⟩
    refine ⟨(p, d') :: ps, ?_, k3, ?_, ?_⟩
    · rw [listGo, if_pos (hL (p, f, v) (by simp)).2.1, k1]
      rfl
    · intro q f' v' hv
      obtain ⟨f2, v2, h0⟩ := hm q f' v' hv
      simp only [List.map_cons, List.mem_cons]
      by_cases hq : q = p
      · exact Or.inl hq
      · right
        refine (k4 q).2 ⟨hq, f2, v2, ?_⟩
        rcases List.mem_cons.1 h0 with he | h0
        · injection he with he _; exact absurd he hq
        · exact h0
    · intro q e he
      rcases List.mem_cons.1 he with h0 | h0
      · injection h0 with h0 h1
        subst h0; subst h1
        refine ⟨(hL (q, f, v) (by simp)).2.2, shows q e ?_⟩
        intro f'
        obtain ⟨g1, g2⟩ := k2 f'
        refine ⟨fun v' hv' => ?_, fun hv' => ?_⟩
        · rcases List.mem_cons.1 hv' with he | hv'
          · injection he with _ he
            injection he with he1 he2
            subst he1; subst he2
            rw [g2 huniq, get_pin, if_pos rfl]
          · exact g1 v' hv'
        · rw [g2 (fun v' h => hv' v' (by simp [h])), get_pin, if_neg (by rintro rfl; exact hv' v (by simp)), get_cons, get_nil]
          unfold baseOf
          by_cases hf : f' = idKey
          · rw [if_pos hf, if_pos hf.symm]
          · rw [if_neg hf, if_neg (fun h => hf h.symm)]
      · have hqm := (k4 q).1 (List.mem_map.2 ⟨_, h0, rfl⟩)
        obtain ⟨hqp, f2, v2, hq2⟩ := hqm
        refine ⟨(hL (q, f2, v2) (by simp [hq2])).2.2, shows q e ?_⟩
        intro f'
        obtain ⟨g1, g2⟩ := k5 (q, e) h0 f'
        refine ⟨fun v' hv' => ?_, fun hv' => g2 (fun v' h => hv' v' (by simp [h]))⟩
        rcases List.mem_cons.1 hv' with he | hv'
        · injection he with he _; exact absurd he hqp
        · exact g1 v' hv'

end Verif.Org
