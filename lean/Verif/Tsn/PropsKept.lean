import Verif.Tsn.Props
/-! # Notices that wait are kept as long as they lack what they wait for -/

namespace Verif.Tsn

variable {Att : Type} [DecidableEq Att]

/-- With the signatures kept, the notice lacks what the escrow is for, and nothing before it. -/
def Held (v : View Att) (n : Notice) (l : List Att) : Typ → Prop
  | .rmae => v.wits n.pre = none
  | .cmre => ∀ t, v.tev n.regk = some t → t.sn < n.regsn
  | .cmae => ∃ t, v.tev n.regk = some t ∧ n.regsn ≤ t.sn ∧ v.wits t.pre = none
  | .rooo | .cooo => Based v n ∧ Trusted v n ∧ v.accept n l = some true ∧ v.tels n.key n.sn = none

theorem finish_held (v : View Att) (db : Db Att) (typ : Typ) (n : Notice) (l : List Att) (cue : Cue) (ha : v.accept n l = some true) (hl : v.tels n.key n.sn = none) :
    db.finish v typ n l cue = (db.escrow typ n l cue, .error .outOfOrder) := by
  unfold Db.finish
  rw [ha, hl]

theorem handle_held (v : View Att) (db : Db Att) (n : Notice) (l : List Att) (t : Typ) (hc : n.cred = t.cred) (hh : Held v n l t) :
    ∃ cue, db.handle t.cred v n l = (db.escrow t n l cue, .error t.exn) := by
  cases t with
  | rmae =>
    refine ⟨.query n.pre, ?_⟩
    simp only [Held] at hh
    simp only [Db.handle, Typ.cred, Db.registry, hh, Typ.exn]
    simp
  | cmre =>
    refine ⟨.telquery n.regk none, ?_⟩
    simp only [Held] at hh
    simp only [Db.handle, Typ.cred, Db.credential, Typ.exn, if_true]
    cases ht : v.tev n.regk with
    | none => rfl
    | some t =>
      dsimp only
      rw [if_pos (hh t ht)]
  | cmae =>
    obtain ⟨t, h1, h2, h3⟩ := hh
    refine ⟨.query n.aid, ?_⟩
    simp only [Db.handle, Typ.cred, Db.credential, Typ.exn, if_true, h1]
    rw [if_neg (by omega), h3]
  | rooo =>
    obtain ⟨hb, ht, ha, hl⟩ := hh
    refine ⟨.telquery n.key none, ?_⟩
    simp only [Typ.cred] at hc
    unfold Based at hb
    unfold Trusted Heard at ht
    rw [hc, if_neg (by decide)] at hb ht
    obtain ⟨hw, hs⟩ := hb
    simp only [Db.handle, Typ.cred, Bool.false_eq_true, if_false, Db.registry]
    cases hw' : v.wits n.pre with
    | none => exact absurd hw' hw
    | some w =>
      dsimp only
      rw [if_neg (by cases hnb : n.nb <;> simp only [hnb] at ht ⊢ <;> grind),
        if_neg (by
          unfold stale
          cases h : v.tev n.key with
          | none => simp
          | some t => simpa using hs t h)]
      exact finish_held v db _ n l _ ha hl
  | cooo =>
    obtain ⟨hb, ht, ha, hl⟩ := hh
    refine ⟨.telquery n.regk (some n.key), ?_⟩
    simp only [Typ.cred] at hc
    unfold Based at hb
    unfold Trusted Heard at ht
    rw [hc, if_pos rfl] at hb ht
    obtain ⟨t, h1, h2, h3⟩ := hb
    obtain ⟨t', h1', ht⟩ := ht
    rw [h1] at h1'
    cases h1'
    simp only [Db.handle, Typ.cred, if_true, Db.credential, h1]
    rw [if_neg (by omega)]
    cases hw' : v.wits t.pre with
    | none => exact absurd hw' h3
    | some w =>
      dsimp only
      rw [if_neg (by cases hnb : t.nb <;> simp only [hnb] at ht ⊢ <;> grind)]
      exact finish_held v db _ n l _ ha hl

/-- Kept with signatures, not too old, and held up. -/
structure Kept (v : View Att) (n : Notice) (l : List Att) (t : Typ) : Prop where
  signed : l ≠ []
  fresh : v.now ≤ n.dt + 3600
  held : Held v n l t

theorem turn_held {h : List (Inp Att)} (ha : Apart h) {v : View Att} {db : Db Att} (hi : Inv h db) {e : Entry} (he : e ∈ db.esc) {n : Notice} (hn : Recv h n) (ho : e.Of n)
    (hr : Kept v n (db.atts e.said) e.typ) : e ∈ (db.turn v e).esc := by
  obtain ⟨m, hm, hom, hs, hd⟩ := hi.ent e he
  have hmn : m = n := ha.same m n hm hn (by rw [hom.said, ho.said])
  subst hmn
  unfold Db.turn
  rw [hd, hs]
  dsimp only
  have hf := hr.fresh
  obtain ⟨cue, hh⟩ := handle_held v db m _ e.typ ho.cred hr.held
  rw [if_neg hr.signed, if_neg (by omega), hh]
  dsimp only
  rw [if_pos rfl]
  simp only [Db.escrow]
  split <;> simp [he]

theorem turns_held {h : List (Inp Att)} (ha : Apart h) {v : View Att} (hv : Known h v) (l : List Entry) {db : Db Att} (hi : Inv h db) (hl : l.Nodup) (hm : ∀ e ∈ l, e ∈ db.esc)
    {e : Entry} (he : e ∈ db.esc) {n : Notice} (hn : Recv h n) (ho : e.Of n) (hr : Kept v n (db.atts e.said) e.typ) :
    e ∈ (l.foldl (fun db e => db.turn v e) db).esc := by
  induction l generalizing db with
  | nil => exact he
  | cons x l ih =>
    obtain ⟨h1, h2, h3, h4, h5⟩ := turn_spec ha hi hv x (hm x (by simp))
    obtain ⟨hne, hnd⟩ := List.nodup_cons.mp hl
    have hm' : ∀ y ∈ l, y ∈ (db.turn v x).esc := fun y hy => h3 y (hm y (by simp [hy])) fun hx => hne (hx ▸ hy)
    rw [List.foldl_cons]
    refine ih h1 hnd hm' ?_ (by rw [h4]; exact hr)
    by_cases hx : e = x
    · rw [← hx]
      exact turn_held ha hi he hn ho hr
    · exact h3 e he hx

theorem passes_held {h : List (Inp Att)} (ha : Apart h) {v : View Att} (hv : Known h v) (ts : List Typ) {db : Db Att} (hi : Inv h db)
    {e : Entry} (he : e ∈ db.esc) {n : Notice} (hn : Recv h n) (ho : e.Of n) (hr : Kept v n (db.atts e.said) e.typ) :
    e ∈ (ts.foldl (fun db t => db.passOf v t) db).esc := by
  induction ts generalizing db with
  | nil => exact he
  | cons t ts ih =>
    obtain ⟨h1, _, _, h4, _⟩ := passOf_spec ha hv hi t
    rw [List.foldl_cons]
    exact ih h1 (turns_held ha hv _ hi (hi.nodup.filter _) (fun x hx => (List.mem_filter.mp hx).1) he hn ho hr) (by rw [h4]; exact hr)

/-- C230: a notice that waits stays where it is at a look at which it still lacks what it waits for and is held up by nothing else, unless it is older than the limit. -/
theorem c230_kept (h : List (Inp Att)) (v : View Att) (ha : Apart (h ++ [.pass v])) (e : Entry) (he : e ∈ ((Db.empty Att).run h).esc) (n : Notice) (hn : Recv h n) (ho : e.Of n)
    (hr : Kept v n (((Db.empty Att).run h).atts e.said) e.typ) : e ∈ ((Db.empty Att).run (h ++ [.pass v])).esc := by
  have hi : Inv (h ++ [.pass v]) (h.foldl Db.step (Db.empty Att)) := (Inv.empty _).run ha h fun i hi => by simp [hi]
  unfold Db.run
  rw [List.foldl_append]
  exact passes_held ha (v := v) (.inr (by simp)) [Typ.cmre, .cmae, .cooo, .rmae, .rooo] hi he (hn.elim fun v' hn => hn.elim fun l hn => ⟨v', l, by simp [hn]⟩) ho hr

/-- C230: the signatures that came with a notice are kept while it waits. -/
theorem c230_signatures (v : View Att) (db : Db Att) (n : Notice) (l : List Att) (t : Typ) (hc : n.cred = t.cred) (hh : Held v n l t) :
    ∀ a ∈ l, a ∈ (db.process v n l).1.atts n.said := by
  intro a ha
  obtain ⟨cue, he⟩ := handle_held v db n l t hc hh
  rw [Db.process, hc, he]
  show a ∈ upd db.atts n.said (addAll (db.atts n.said) l) n.said
  rw [upd, if_pos rfl, addAll_mem]
  exact .inr ha

end Verif.Tsn
