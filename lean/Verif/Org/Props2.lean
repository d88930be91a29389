import Verif.Org.Props

/-! # C190–C193: finding contacts, signatures, crashes, images -/

namespace Verif.Org

open Verif.Db Verif.Krm Verif.Sub

variable {P : Text → Prop}

/-! ## Finding -/

theorem addVal_spec : ∀ (vs l : List Text), l.Nodup → (vs.foldl addVal l).Nodup ∧ ∀ v, v ∈ vs.foldl addVal l ↔ v ∈ l ∨ v ∈ vs
  | [], l, h => ⟨h, fun v => by simp⟩
  | x :: vs, l, h => by
    have h1 : (addVal l x).Nodup ∧ ∀ v, v ∈ addVal l x ↔ v ∈ l ∨ v = x := by
      unfold addVal
      split
      · rename_i hx
        exact ⟨h, fun v => ⟨Or.inl, fun hv => hv.elim id (fun hv => hv ▸ hx)⟩⟩
      · rename_i hx
        refine ⟨?_, fun v => by simp⟩
        rw [List.nodup_append]
        refine ⟨h, by simp, ?_⟩
        intro a ha b hb
        simp only [List.mem_singleton] at hb
        subst hb
        rintro rfl
        exact hx ha
    obtain ⟨i1, i2⟩ := addVal_spec vs (addVal l x) h1.1
    refine ⟨i1, fun v => ?_⟩
    rw [List.foldl_cons, i2, h1.2]
    simp only [List.mem_cons]
    grind

theorem getAll_ok {w : World} : ∀ (ps : List Text), (∀ p, p ∈ ps → ∃ d, get w p = .ok (some d)) →
    ∃ l : List (Text × Dict), l.map (·.1) = ps ∧ getAll w ps = .ok (l.map fun x => some x.2) ∧ ∀ x, x ∈ l → get w x.1 = .ok (some x.2)
  | [], _ => ⟨[], rfl, rfl, fun x h => (by cases h)⟩
  | p :: ps, h => by
    obtain ⟨d, hd⟩ := h p (by simp)
    obtain ⟨l, h1, h2, h3⟩ := getAll_ok ps (fun q hq => h q (by simp [hq]))
    refine ⟨(p, d) :: l, by simp [h1], by simp [getAll, hd, h2], fun x hx => ?_⟩
    rcases List.mem_cons.1 hx with rfl | hx
    · exact hd
    · exact h3 x hx

/-- **C190 (partial).** After any calls, `findExact` gives the contacts that have the value in the field, each once, and `values` the values that some
contact has in the field, each once. Missing: as in C188; `find` and patterns are not modelled. -/
theorem c190_find_partial (hP : PresOk P) (os : List Op) (ho : ∀ o, o ∈ os → P o.pre ∧ o.ok) (field : Text) (hf : field ≠ idKey) :
    (∀ val, ∃ l : List (Text × Dict), findExact (calls {} os).1 field val = .ok (l.map fun x => some x.2) ∧ (l.map (·.1)).Nodup ∧
      (∀ x, x ∈ l → get (calls {} os).1 x.1 = .ok (some x.2)) ∧
      ∀ p, p ∈ l.map (·.1) ↔ (specs (fun _ => none) os).1.of p field = some val) ∧
    ∃ l, values (calls {} os).1 field = .ok l ∧ l.Nodup ∧ ∀ v, v ∈ l ↔ ∃ p, (specs (fun _ => none) os).1.of p field = some v := by
  obtain ⟨_, h, hn⟩ := calls_inv hP os {} _ inv_nil (fun p => rfl) ho
  revert h hn
  generalize (specs (fun _ => none) os).1 = M
  generalize (calls {} os).1 = w
  intro h hn
  obtain ⟨J, hF, hJ⟩ := h.fields
  obtain ⟨L, l1, l2, l3⟩ := allFields_ok hF (fun p f v hi => ⟨hP.nodot p (index_pre h hJ hi).1, (index_pre h hJ hi).2⟩)
  have hmem : ∀ p v, (p, field, v) ∈ L ↔ M.of p field = some v := by
    intro p v
    rw [l3]
    unfold index
    rw [if_neg hf]
  refine ⟨fun val => ?_, ?_⟩
  · have hin : ∀ p, p ∈ (L.filter fun x => decide (x.2.1 = field ∧ x.2.2 = val)).map (·.1) ↔ M.of p field = some val := by
      intro p
      rw [List.mem_map]
      constructor
      · rintro ⟨⟨p', f', v'⟩, hx, rfl⟩
        obtain ⟨hx1, hx2⟩ := List.mem_filter.1 hx
        simp only [decide_eq_true_eq] at hx2
        obtain ⟨rfl, rfl⟩ := hx2
        exact (hmem p' v').1 hx1
      · intro hp
        exact ⟨(p, field, val), List.mem_filter.2 ⟨(hmem p val).2 hp, by simp⟩, rfl⟩
    obtain ⟨l, g1, g2, g3⟩ := getAll_ok (w := w) ((L.filter fun x : Text × Text × Text => decide (x.2.1 = field ∧ x.2.2 = val)).map (fun x : Text × Text × Text => x.1)) (by
      intro p hp
      have hp := (hin p).1 hp
      have hg := get_inv h p
      cases hM : M p with
      | none => unfold Contacts.of at hp; rw [hM] at hp; cases hp
      | some g =>
        rw [hM] at hg
        obtain ⟨d, hd, _⟩ := hg
        exact ⟨d, hd⟩)
    refine ⟨l, ?_, ?_, g3, fun p => by rw [g1]; exact hin p⟩
    · unfold findExact
      rw [l1]
      exact g2
    · rw [g1]
      have hpw := l2.filter (fun x => decide (x.2.1 = field ∧ x.2.2 = val))
      unfold List.Nodup
      rw [List.pairwise_map]
      refine hpw.imp_of_mem ?_
      intro a b ha hb hab he
      have h1 := (List.mem_filter.1 ha).2
      have h2 := (List.mem_filter.1 hb).2
      simp only [decide_eq_true_eq] at h1 h2
      exact tripleLt_irrefl hab ⟨he, by rw [h1.1, h2.1]⟩
  · obtain ⟨v1, v2⟩ := addVal_spec ((L.filter fun x : Text × Text × Text => decide (x.2.1 = field)).map (fun x : Text × Text × Text => x.2.2)) [] (by simp)
    refine ⟨_, by unfold values; rw [l1], v1, fun v => ?_⟩
    rw [v2]
    simp only [List.not_mem_nil, false_or, List.mem_map, List.mem_filter, decide_eq_true_eq]
    constructor
    · rintro ⟨⟨p, f, v'⟩, ⟨hx, hff⟩, rfl⟩
      simp only at hff
      subst hff
      exact ⟨p, (hmem p v').1 hx⟩
    · rintro ⟨p, hp⟩
      exact ⟨(p, field, v), ⟨(hmem p v).2 hp, rfl⟩, rfl⟩

/-! ## Signatures -/

/-- What was signed by the writes. -/
def signs (ws : List Write) : List Dict := ws.filterMap fun
  | .pinCig _ d => some d
  | _ => none

/-- What happens: a call, a call that is cut short, or someone alters the database. -/
inductive Ev where
  | call (o : Op)
  | crash (o : Op) (n : Nat)
  | tamper (w : World)

/-- The database and what was ever signed. -/
def evolve : World × List Dict → Ev → World × List Dict
  | (w, s), .call o => ((Org.call w o).1, s ++ signs (o.writes w).1)
  | (w, s), .crash o n => (Org.crash w o n, s ++ signs ((o.writes w).1.take n))
  | (_, s), .tamper w => (w, s)

/-- Signatures are not forged: those found after an alteration were made before. -/
def Legal : World × List Dict → List Ev → Prop
  | _, [] => True
  | x, e :: es => (match e with
    | .tamper w => ∀ p d, (p, some d) ∈ w.cigs → d ∈ x.2
    | _ => True) ∧ Legal (evolve x e) es

theorem pin_mem {κ ν : Type} [DecidableEq κ] {t : Tab κ ν} {k : κ} {v : ν} {e : κ × ν} (h : e ∈ Tab.pin t k v) : e = (k, v) ∨ e ∈ t := by
  induction t with
  | nil => simp [Tab.pin] at h; exact Or.inl h
  | cons x t ih =>
    unfold Tab.pin at h
    split at h
    · rcases List.mem_cons.1 h with rfl | h
      · exact Or.inl rfl
      · exact Or.inr (by simp [h])
    · rcases List.mem_cons.1 h with rfl | h
      · exact Or.inr (by simp)
      · exact (ih h).imp id (fun h => by simp [h])

theorem exec_signed : ∀ (ws : List Write) (w : World) (s : List Dict), (∀ p d, (p, some d) ∈ w.cigs → d ∈ s) →
    ∀ p d, (p, some d) ∈ (exec w ws).cigs → d ∈ s ++ signs ws
  | [], _, _, h, p, d, hm => by simpa [signs] using h p d hm
  | x :: ws, w, s, h, p, d, hm => by
    have hx : ∀ p d, (p, some d) ∈ (write w x).cigs → d ∈ s ++ signs [x] := by
      intro p d hm
      cases x with
      | pinCig q e =>
        rcases pin_mem hm with h0 | h0
        · injection h0 with _ h0
          injection h0 with h0
          subst h0
          simp [signs]
        · exact List.mem_append_left _ (h p d h0)
      | remCig q => exact List.mem_append_left _ (h p d (List.mem_filter.1 hm).1)
      | pinData => exact List.mem_append_left _ (h p d hm)
      | pinField => exact List.mem_append_left _ (h p d hm)
      | remData => exact List.mem_append_left _ (h p d hm)
      | trim => exact List.mem_append_left _ (h p d hm)
      | remField => exact List.mem_append_left _ (h p d hm)
    have := exec_signed ws (write w x) (s ++ signs [x]) hx p d hm
    have e : signs (x :: ws) = signs [x] ++ signs ws := by
      unfold signs
      rw [← List.filterMap_append]
      rfl
    rw [e, ← List.append_assoc]
    exact this

/-- **C191 (partial).** Whatever is altered in the database, and wherever calls are cut short, `get` gives only data that was signed. Missing: that it was
signed for that contact, and last (`c191_swapped`), and anything about `list`, `find` and `values`, which read what is not signed (`c191_unsigned`). -/
theorem c191_signed_partial (es : List Ev) : ∀ (x : World × List Dict), (∀ p d, (p, some d) ∈ x.1.cigs → d ∈ x.2) → Legal x es →
    ∀ p d, get (es.foldl evolve x).1 p = .ok (some d) → ∃ d', d' ∈ (es.foldl evolve x).2 ∧ d = Tab.pin d' idKey (.text p) := by
  induction es with
  | nil =>
    intro x hx _ p d hg
    simp only [List.foldl_nil] at hg ⊢
    unfold get at hg
    cases h1 : Tab.get x.1.data p with
    | none => rw [h1] at hg; cases hg
    | some e =>
      rw [h1] at hg
      dsimp only at hg
      cases h2 : Tab.get x.1.cigs p with
      | none => rw [h2] at hg; cases hg
      | some c =>
        rw [h2] at hg
        dsimp only at hg
        split at hg
        · rename_i hc
          injection hg with hg
          injection hg with hg
          subst hc
          exact ⟨e, hx p e (get_mem h2), hg.symm⟩
        · cases hg
  | cons e es ih =>
    intro x hx hl p d hg
    obtain ⟨w, s⟩ := x
    refine ih (evolve (w, s) e) ?_ hl.2 p d hg
    cases e with
    | call o => exact exec_signed _ w s hx
    | crash o n => exact exec_signed _ w s hx
    | tamper w' => exact hl.1

/-! ## Calls that are cut short -/

/-- Writes to the index of fields only. -/
def Write.index : Write → Bool
  | .pinField .. | .trim _ | .remField .. => true
  | _ => false

theorem exec_index : ∀ (ws : List Write) (w : World), (∀ x, x ∈ ws → x.index = true) → (exec w ws).cigs = w.cigs ∧ (exec w ws).data = w.data
  | [], _, _ => ⟨rfl, rfl⟩
  | x :: ws, w, h => by
    obtain ⟨h1, h2⟩ := exec_index ws (write w x) (fun y hy => h y (by simp [hy]))
    have := h x (by simp)
    cases x <;> first | exact ⟨h1, h2⟩ | cases this

theorem fieldWrites_index (p : Text) : ∀ (d : Dict) x, x ∈ (fieldWrites p d).1 → x.index = true
  | [], x, h => by cases h
  | (f, .text v) :: d, x, h => by
    simp only [fieldWrites, List.mem_cons] at h
    rcases h with rfl | h
    · rfl
    · exact fieldWrites_index p d x h
  | (_, .other _) :: _, x, h => by cases h

theorem get_congr {w w' : World} {p : Text} (h1 : Tab.get w'.data p = Tab.get w.data p) (h2 : Tab.get w'.cigs p = Tab.get w.cigs p) : get w' p = get w p := by
  unfold get; rw [h1, h2]

/-- The identifier a write is about. -/
def Write.pre : Write → Text
  | .pinCig p _ | .pinData p _ | .pinField p _ _ | .remCig p | .remData p | .trim p | .remField p _ => p

theorem exec_other {q : Text} : ∀ (ws : List Write) (w : World), (∀ x, x ∈ ws → x.pre ≠ q) → get (exec w ws) q = get w q
  | [], _, _ => rfl
  | x :: ws, w, h => by
    have := exec_other ws (write w x) (fun y hy => h y (by simp [hy]))
    rw [show exec w (x :: ws) = exec (write w x) ws from rfl, this]
    have hx := h x (by simp)
    apply get_congr
    · cases x with
      | pinData p d => show Tab.get (Tab.pin w.data p d) q = _; rw [get_pin]; exact if_neg hx
      | remData p => show Tab.get (Tab.rem w.data p) q = _; rw [get_rem]; exact if_neg hx
      | _ => rfl
    · cases x with
      | pinCig p d => show Tab.get (Tab.pin w.cigs p (some d)) q = _; rw [get_pin]; exact if_neg hx
      | remCig p => show Tab.get (Tab.rem w.cigs p) q = _; rw [get_rem]; exact if_neg hx
      | _ => rfl

theorem fieldWrites_pre (p : Text) : ∀ (d : Dict) x, x ∈ (fieldWrites p d).1 → x.pre = p
  | [], x, h => by cases h
  | (f, .text v) :: d, x, h => by
    simp only [fieldWrites, List.mem_cons] at h
    rcases h with rfl | h
    · rfl
    · exact fieldWrites_pre p d x h
  | (_, .other _) :: _, x, h => by cases h

theorem update_pre (w : World) (p : Text) (d : Dict) : ∀ x, x ∈ (update w p d).1 → x.pre = p := by
  intro x hx
  unfold update at hx
  split at hx
  · cases hx
  · simp only [List.mem_cons] at hx
    rcases hx with rfl | rfl | hx
    · rfl
    · rfl
    · exact fieldWrites_pre p d x hx

theorem rem_pre (p : Text) : ∀ x, x ∈ rem p → x.pre = p := by
  intro x hx
  simp only [rem, List.mem_cons, List.not_mem_nil, or_false] at hx
  rcases hx with rfl | rfl | rfl <;> rfl

theorem replace_pre (w : World) (p : Text) (d : Dict) : ∀ x, x ∈ (replace w p d).1 → x.pre = p := by
  intro x hx
  unfold replace at hx
  simp only [List.mem_append] at hx
  rcases hx with hx | hx
  · exact rem_pre p x hx
  · exact update_pre _ p d x hx

theorem writes_pre (w : World) (o : Op) : ∀ x, x ∈ (o.writes w).1 → x.pre = o.pre := by
  intro x hx
  cases o with
  | update p d => exact update_pre w p d x hx
  | replace p d => exact replace_pre w p d x hx
  | rem p => exact rem_pre p x hx
  | set p f v =>
    simp only [Op.writes, set] at hx
    split at hx
    · cases hx
    · rename_i o' _
      have hr := replace_pre w p (Tab.pin (o'.getD []) f v)
      revert hr hx
      generalize replace w p (Tab.pin (o'.getD []) f v) = r
      obtain ⟨ws, e⟩ := r
      intro hx hr
      cases e with
      | some e => exact hr x hx
      | none =>
        cases v with
        | text b =>
          simp only [List.mem_append, List.mem_cons, List.not_mem_nil, or_false] at hx
          rcases hx with hx | rfl
          · exact hr x hx
          · rfl
        | other n => exact hr x hx
  | unset p f =>
    simp only [Op.writes, unset] at hx
    split at hx
    · cases hx
    · cases hx
    · rename_i d _
      split at hx
      · have hr := replace_pre w p (Tab.rem d f)
        revert hr hx
        generalize replace w p (Tab.rem d f) = r
        obtain ⟨ws, e⟩ := r
        intro hx hr
        cases e with
        | some e => exact hr x hx
        | none =>
          simp only [List.mem_append, List.mem_cons, List.not_mem_nil, or_false] at hx
          rcases hx with hx | rfl
          · exact hr x hx
          · rfl
      · cases hx

/-- Cut short, an update is not begun, done as far as `get` is concerned, or leaves a signature of data that is not there yet. -/
theorem update_cut (w : World) (p : Text) (d : Dict) (rest : List Write) (hrest : ∀ x, x ∈ rest → x.index = true) (n : Nat) :
    get (exec w (((update w p d).1 ++ rest).take n)) p = get w p ∨
    get (exec w (((update w p d).1 ++ rest).take n)) p = get (exec w ((update w p d).1 ++ rest)) p ∨
    get (exec w (((update w p d).1 ++ rest).take n)) p = .error .validation := by
  unfold update
  cases hg : get w p with
  | error e =>
    left
    dsimp only
    simp only [List.nil_append]
    obtain ⟨h1, h2⟩ := exec_index (rest.take n) w (fun x hx => hrest x (List.mem_of_mem_take hx))
    rw [get_congr (w := w) (by rw [h2]) (by rw [h1])]
    exact hg
  | ok o =>
    dsimp only
    match n with
    | 0 => left; exact hg
    | 1 =>
      simp only [List.cons_append, List.take_succ_cons, List.take_zero]
      rw [show exec w [Write.pinCig p (merge (o.getD []) d)] = write w (.pinCig p (merge (o.getD []) d)) from rfl]
      have hd : Tab.get (write w (.pinCig p (merge (o.getD []) d))).data p = Tab.get w.data p := rfl
      have hc : Tab.get (write w (.pinCig p (merge (o.getD []) d))).cigs p = some (some (merge (o.getD []) d)) := by
        show Tab.get (Tab.pin w.cigs p _) p = _
        rw [get_pin, if_pos rfl]
      cases hdata : Tab.get w.data p with
      | none =>
        left
        unfold get at hg ⊢
        rw [hd, hdata]
        rw [hdata] at hg
        exact hg
      | some e =>
        unfold get
        rw [hd, hdata]
        dsimp only
        rw [hc]
        dsimp only
        by_cases he : some (merge (o.getD []) d) = some e
        · rw [if_pos he]
          left
          unfold get at hg
          rw [hdata] at hg
          dsimp only at hg
          cases hcg : Tab.get w.cigs p with
          | none => rw [hcg] at hg; cases hg
          | some c =>
            rw [hcg] at hg
            dsimp only at hg
            split at hg
            · exact hg
            · cases hg
        · rw [if_neg he]
          exact Or.inr (Or.inr rfl)
    | n + 2 =>
      right; left
      simp only [List.cons_append, List.take_succ_cons]
      have key : ∀ ws, (∀ x, x ∈ ws → x.index = true) → get (exec w (.pinCig p (merge (o.getD []) d) :: .pinData p (merge (o.getD []) d) :: ws)) p =
          get (write (write w (.pinCig p (merge (o.getD []) d))) (.pinData p (merge (o.getD []) d))) p := by
        intro ws hws
        obtain ⟨h1, h2⟩ := exec_index ws (write (write w (.pinCig p (merge (o.getD []) d))) (.pinData p (merge (o.getD []) d))) hws
        exact get_congr (w' := exec (write (write w (.pinCig p (merge (o.getD []) d))) (.pinData p (merge (o.getD []) d))) ws) (by rw [h2]) (by rw [h1])
      have hall : ∀ x, x ∈ (fieldWrites p d).1 ++ rest → x.index = true := fun x hx =>
        (List.mem_append.1 hx).elim (fieldWrites_index p d x) (hrest x)
      rw [key _ hall, key _ (fun x hx => hall x (List.mem_of_mem_take hx))]

theorem get_removed (w : World) (p : Text) : get (write (write w (.remCig p)) (.remData p)) p = .ok none := by
  unfold get
  have : Tab.get (write (write w (.remCig p)) (.remData p)).data p = none := by
    show Tab.get (Tab.rem w.data p) p = none
    rw [get_rem, if_pos rfl]
  rw [this]

theorem get_exec_rem (w : World) (p : Text) : get (exec w (rem p)) p = .ok none :=
  (get_congr (w' := exec w (rem p)) (w := write (write w (.remCig p)) (.remData p)) rfl rfl).trans (get_removed w p)

theorem rem_cut (w : World) (p : Text) (n : Nat) : get (exec w ((rem p).take n)) p = get w p ∨
    get (exec w ((rem p).take n)) p = .error .attributeError ∨ get (exec w ((rem p).take n)) p = .ok none := by
  match n with
  | 0 => exact Or.inl rfl
  | 1 =>
    show get (write w (.remCig p)) p = _ ∨ get (write w (.remCig p)) p = _ ∨ get (write w (.remCig p)) p = _
    have hc : Tab.get (write w (.remCig p)).cigs p = none := by
      show Tab.get (Tab.rem w.cigs p) p = none
      rw [get_rem, if_pos rfl]
    unfold get
    cases hd : Tab.get (write w (.remCig p)).data p with
    | none => exact Or.inr (Or.inr rfl)
    | some d =>
      right; left
      dsimp only
      rw [hc]
  | 2 => exact Or.inr (Or.inr (get_removed w p))
  | n + 3 =>
    right; right
    have : (rem p).take (n + 3) = rem p := List.take_of_length_le (by simp [rem])
    rw [this]
    exact get_exec_rem w p

/-- A replacement, perhaps with more writes to the index. -/
theorem replace_cut (w : World) (p : Text) (d : Dict) (rest : List Write) (hrest : ∀ x, x ∈ rest → x.index = true) (n : Nat) :
    let r := get (exec w (((replace w p d).1 ++ rest).take n)) p
    r = get w p ∨ r = get (exec w ((replace w p d).1 ++ rest)) p ∨ r = .ok none ∨ r = .error .attributeError ∨ r = .error .validation := by
  dsimp only
  unfold replace
  dsimp only
  rw [List.append_assoc, List.take_append, exec_append, exec_append]
  by_cases hn : n ≤ 3
  · have : n - (rem p).length = 0 := by simp only [rem, List.length_cons, List.length_nil]; omega
    rw [this, List.take_zero]
    show get (exec w ((rem p).take n)) p = _ ∨ get (exec w ((rem p).take n)) p = _ ∨ get (exec w ((rem p).take n)) p = _ ∨ get (exec w ((rem p).take n)) p = _ ∨
      get (exec w ((rem p).take n)) p = _
    rcases rem_cut w p n with h | h | h
    · exact Or.inl h
    · exact Or.inr (Or.inr (Or.inr (Or.inl h)))
    · exact Or.inr (Or.inr (Or.inl h))
  · have ht : (rem p).take n = rem p := List.take_of_length_le (by simp only [rem, List.length_cons, List.length_nil]; omega)
    rw [ht]
    rcases update_cut (exec w (rem p)) p d rest hrest (n - (rem p).length) with h | h | h
    · rw [h, get_exec_rem]
      exact Or.inr (Or.inr (Or.inl rfl))
    · exact Or.inr (Or.inl h)
    · exact Or.inr (Or.inr (Or.inr (Or.inr h)))

/-- **C192 (partial).** A call that is cut short anywhere leaves other contacts as `get` gives them, and its own one as it was, as it would be, gone,
or such that `get` raises. Missing: that it is as it was or as it would be, for which `c192_torn` shows that it is false. -/
theorem c192_cut_partial (w : World) (o : Op) (n : Nat) :
    (∀ q, q ≠ o.pre → get (crash w o n) q = get w q ∧ get (call w o).1 q = get w q) ∧
    let r := get (crash w o n) o.pre
    r = get w o.pre ∨ r = get (call w o).1 o.pre ∨ r = .ok none ∨ r = .error .attributeError ∨ r = .error .validation := by
  refine ⟨fun q hq => ⟨exec_other _ _ (fun x hx => ?_), exec_other _ _ (fun x hx => ?_)⟩, ?_⟩
  · rw [writes_pre w o x (List.mem_of_mem_take hx)]; exact fun h => hq h.symm
  · rw [writes_pre w o x hx]; exact fun h => hq h.symm
  · dsimp only [crash, call]
    have hsame : ∀ n, exec w (([] : List Write).take n) = w := fun n => by simp [exec]
    cases o with
    | update p d =>
      rcases update_cut w p d [] (fun x hx => by cases hx) n with h | h | h
      · rw [List.append_nil] at h; exact Or.inl h
      · rw [List.append_nil] at h; exact Or.inr (Or.inl h)
      · rw [List.append_nil] at h; exact Or.inr (Or.inr (Or.inr (Or.inr h)))
    | replace p d =>
      have := replace_cut w p d [] (fun x hx => by cases hx) n
      rw [List.append_nil] at this
      exact this
    | rem p =>
      rcases rem_cut w p n with h | h | h
      · exact Or.inl h
      · exact Or.inr (Or.inr (Or.inr (Or.inl h)))
      · exact Or.inr (Or.inr (Or.inl h))
    | set p f v =>
      simp only [Op.writes, set]
      cases hg : get w p with
      | error e => exact Or.inl (by dsimp only [Op.pre]; rw [hsame, hg])
      | ok o' =>
        dsimp only
        have h1 := replace_cut w p (Tab.pin (o'.getD []) f v) [] (fun x hx => by cases hx) n
        have h2 := fun b => replace_cut w p (Tab.pin (o'.getD []) f v) [.pinField p f b] (fun x hx => by
          simp only [List.mem_cons, List.not_mem_nil, or_false] at hx; subst hx; rfl) n
        rw [List.append_nil] at h1
        rw [hg] at h1 h2
        revert h1 h2
        generalize replace w p (Tab.pin (o'.getD []) f v) = r
        obtain ⟨ws, e⟩ := r
        intro h1 h2
        cases e with
        | some e => dsimp only [Op.pre]; rw [hg]; exact h1
        | none =>
          cases v with
          | text b => dsimp only [Op.pre]; rw [hg]; exact h2 b
          | other m => dsimp only [Op.pre]; rw [hg]; exact h1
    | unset p f =>
      simp only [Op.writes, unset]
      cases hg : get w p with
      | error e => exact Or.inl (by dsimp only [Op.pre]; rw [hsame, hg])
      | ok o' =>
        cases o' with
        | none => exact Or.inl (by dsimp only [Op.pre]; rw [hsame])
        | some d =>
          dsimp only
          by_cases hf : (Tab.get d f).isSome = true
          · rw [if_pos hf]
            have h1 := replace_cut w p (Tab.rem d f) [] (fun x hx => by cases hx) n
            have h2 := replace_cut w p (Tab.rem d f) [.remField p f] (fun x hx => by
              simp only [List.mem_cons, List.not_mem_nil, or_false] at hx; subst hx; rfl) n
            rw [List.append_nil] at h1
            rw [hg] at h1 h2
            revert h1 h2
            generalize replace w p (Tab.rem d f) = r
            obtain ⟨ws, e⟩ := r
            intro h1 h2
            cases e with
            | some e => dsimp only [Op.pre]; rw [hg]; exact h1
            | none => dsimp only [Op.pre]; rw [hg]; exact h2
          · rw [if_neg hf]
            exact Or.inl (by dsimp only [Op.pre]; rw [hsame])

end Verif.Org
