import Verif.Tsn.Lemmas
/-!
# Notices of the state of registries and credentials: who they come from, what is saved, what waits

`Spec` has what the statements are in terms of.
-/

namespace Verif.Tsn

variable {Att : Type} [DecidableEq Att]

/-- C228, short of what the witnesses in `Demo` show: whatever the history, what is saved for an identifier and a source is the digest of a notice of that source about that identifier that came;
when it was saved the node's log had that event at the number of the notice, the signatures, all of which came, were accepted, and the source was one listened to about the registry that
the notice names. -/
theorem c228_saved_partial (h : List (Inp Att)) (ha : Apart h) (k s : Id) (d : Dig) (hs : ((Db.empty Att).run h).saved k s = some d) :
    ∃ v n l, Recv h n ∧ Known h v ∧ (∀ a ∈ l, RecvA h a) ∧ n.key = k ∧ n.aid = s ∧ n.d = d ∧ v.tels k n.sn = some d ∧ v.accept n l = some true ∧ Trusted v n :=
  (Inv.ran ha).saved k s d hs

/-- C228: a registry's notice from a source not listened to is refused and changes nothing, when the key state of the controller that it names is there. -/
theorem c228_untrusted (v : View Att) (db : Db Att) (n : Notice) (l : List Att) (w : List Id) (hc : n.cred = false) (hw : v.wits n.pre = some w) (ht : ¬ Trusted v n) :
    db.process v n l = (db, .error .untrusted) := by
  unfold Trusted Heard at ht
  rw [hc, if_neg (by decide)] at ht
  unfold Db.process Db.handle Db.registry
  rw [hc, hw]
  simp only [Bool.false_eq_true, if_false]
  rw [if_pos]
  cases hnb : n.nb <;> simp only [hnb] at ht ⊢ <;> grind

/-- C228: likewise of a credential's, when the registry that it names is there and its controller's key state. -/
theorem c228_untrusted_credential (v : View Att) (db : Db Att) (n : Notice) (l : List Att) (t : Tv) (w : List Id) (hc : n.cred = true) (hv : v.tev n.regk = some t) (hs : n.regsn ≤ t.sn)
    (hw : v.wits t.pre = some w) (ht : ¬ Trusted v n) : db.process v n l = (db, .error .untrusted) := by
  unfold Trusted Heard at ht
  rw [hc, if_pos rfl] at ht
  unfold Db.process Db.handle Db.credential
  rw [hc, hv]
  simp only [if_true]
  rw [if_neg (by omega), hw]
  dsimp only
  rw [if_pos]
  have ht := fun hh => ht ⟨t, hv, hh⟩
  cases hnb : t.nb <;> simp only [hnb] at ht ⊢ <;> grind

/-- C228, of why it falls short: whoever has the registry, a registry's notice is taken from any source that names itself a backer in it. -/
theorem c228_own_backer (v : View Att) (db : Db Att) (n : Notice) (l : List Att) (hc : n.cred = false) (hnb : n.nb = false) (hm : n.aid ∈ n.baks) (hb : Based v n)
    (ha : v.accept n l = some true) (hl : v.tels n.key n.sn = some n.d) : (db.process v n l).1.saved n.key n.aid = some n.d := by
  have ht : Trusted v n := by
    unfold Trusted Heard
    rw [hc, if_neg (by decide), hnb, if_neg (by decide)]
    exact .inr (.inr (.inr hm))
  rw [Db.process, handle_ready v db n l hb ht ha hl]
  simp [Db.update, upd]

/-- C228, likewise: whichever registry a credential is of, a credential's notice is taken from the controller of any registry that it names. -/
theorem c228_own_registry (v : View Att) (db : Db Att) (n : Notice) (l : List Att) (t : Tv) (hc : n.cred = true) (hv : v.tev n.regk = some t) (ht : t.pre = n.aid) (hb : Based v n)
    (ha : v.accept n l = some true) (hl : v.tels n.key n.sn = some n.d) : (db.process v n l).1.saved n.key n.aid = some n.d := by
  have ht : Trusted v n := by
    unfold Trusted Heard
    rw [hc, if_pos rfl]
    exact ⟨t, hv, .inr (.inl ht.symm)⟩
  rw [Db.process, handle_ready v db n l hb ht ha hl]
  simp [Db.update, upd]

/-- C229, short of what the witness in `Demo` shows: a registry's notice is saved only if its number is at least that of the node's own state of the registry, and the node's log has its event. -/
theorem c229_registry_partial (v : View Att) (db db' : Db Att) (n : Notice) (l : List Att) (hc : n.cred = false) (hp : db.process v n l = (db', .ok ())) :
    (∀ t, v.tev n.key = some t → t.sn ≤ n.sn) ∧ v.tels n.key n.sn = some n.d ∧ db'.saved n.key n.aid = some n.d := by
  rcases handle_cases n.cred v db n l rfl with ⟨x, he, _⟩ | ⟨t, cue, ht, _, he⟩ | ⟨he, hb, _, _, h1⟩ <;> rw [Db.process, he] at hp <;> cases hp
  unfold Based at hb
  rw [hc, if_neg (by decide)] at hb
  exact ⟨hb.2, h1, by simp [Db.update, upd]⟩

/-- C229: saving for one identifier and source leaves what is saved for others. -/
theorem c229_others (v : View Att) (db : Db Att) (n : Notice) (l : List Att) (k s : Id) (hks : ¬ (k = n.key ∧ s = n.aid)) : (db.process v n l).1.saved k s = db.saved k s := by
  rcases handle_cases n.cred v db n l rfl with ⟨x, he, _⟩ | ⟨t, cue, ht, _, he⟩ | ⟨he, _⟩ <;> rw [Db.process, he]
  · rfl
  · simp only [Db.update, upd]
    split
    · rename_i hk
      rw [upd, if_neg fun hs => hks ⟨hk, hs⟩, hk]
    · rfl

/-- C229, of why it falls short: with a credential's notice whose event is anywhere in the node's log, what is saved becomes that event, whatever was saved before and whatever the dates. -/
theorem c229_last_saved (v : View Att) (db : Db Att) (n : Notice) (l : List Att) (hb : Based v n) (ht : Trusted v n) (ha : v.accept n l = some true)
    (hl : v.tels n.key n.sn = some n.d) : (db.process v n l).1.saved n.key n.aid = some n.d := by
  rw [Db.process, handle_ready v db n l hb ht ha hl]
  simp [Db.update, upd]

/-- C230: after a look at the escrows, with what is known then, each entry there is for a notice that came and that still lacks what the escrow is for. -/
theorem c230_left (h : List (Inp Att)) (v : View Att) (ha : Apart (h ++ [.pass v])) (e : Entry) (he : e ∈ ((Db.empty Att).run (h ++ [.pass v])).esc) :
    ∃ n, Recv h n ∧ e.Of n ∧ Lacks v n e.typ := by
  unfold Db.run at he
  rw [List.foldl_append] at he
  have hi : Inv (h ++ [.pass v]) (h.foldl Db.step (Db.empty Att)) := (Inv.empty _).run ha h fun i hi => by simp [hi]
  rcases (passes_spec ha (v := v) (.inr (by simp)) [Typ.cmre, .cmae, .cooo, .rmae, .rooo] hi).2.1 e he with ⟨_, hn⟩ | ⟨n, ⟨v', l, hn⟩, ho, hl⟩
  · exact absurd (mem_all e.typ) hn
  · exact ⟨n, ⟨v', l, by simpa using hn⟩, ho, hl⟩

/-- C230, short of what the witness in `Demo` shows: a notice that waits is told as saved in the first look at which all is there: it is not older than the limit, its signatures are accepted, its
source listened to, key state, registry and event there. -/
theorem c230_taken_partial (h : List (Inp Att)) (v : View Att) (ha : Apart (h ++ [.pass v])) (e : Entry) (he : e ∈ ((Db.empty Att).run h).esc) (n : Notice) (hn : Recv h n) (ho : e.Of n)
    (hr : Ready v n (((Db.empty Att).run h).atts e.said)) :
    Cue.saved n ∈ ((Db.empty Att).run (h ++ [.pass v])).cues ∧ e ∉ ((Db.empty Att).run (h ++ [.pass v])).esc := by
  have hi : Inv (h ++ [.pass v]) (h.foldl Db.step (Db.empty Att)) := (Inv.empty _).run ha h fun i hi => by simp [hi]
  have hn' : Recv (h ++ [.pass v]) n := hn.elim fun v' hn => hn.elim fun l hn => ⟨v', l, by simp [hn]⟩
  constructor
  · unfold Db.run
    rw [List.foldl_append]
    exact (passes_spec ha (v := v) (.inr (by simp)) [Typ.cmre, .cmae, .cooo, .rmae, .rooo] hi).2.2.2 e he (mem_all e.typ) n hn' ho hr
  · intro hx
    obtain ⟨m, ⟨v', l, hm⟩, hom, hlk⟩ := c230_left h v ha e hx
    have hmn : m = n := ha.same m n ⟨v', l, by simp [hm]⟩ hn' (by rw [hom.said, ho.said])
    subst hmn
    have hb := hr.based
    have hc := ho.cred
    unfold Based at hb
    cases ht : e.typ <;> rw [ht] at hlk hc <;> simp only [Typ.cred] at hc <;> rw [hc] at hb <;> simp only [Lacks, if_true, Bool.false_eq_true, if_false] at hlk hb
    · exact hb.1 hlk
    · rw [hr.log] at hlk
      cases hlk
    · obtain ⟨t, h1, h2, h3⟩ := hb
      rcases hlk with hlk | ⟨t', hlk, hlt⟩
      · rw [h1] at hlk
        cases hlk
      · rw [h1] at hlk
        cases hlk
        omega
    · obtain ⟨t, h1, h2, h3⟩ := hb
      obtain ⟨t', hlk, hlt⟩ := hlk
      rw [h1] at hlk
      cases hlk
      exact h3 hlt
    · rw [hr.log] at hlk
      cases hlk

/-- C230: what is told is always of notices that came, and each was saved then: nothing waits or is refused and yet told. -/
theorem c230_told (v : View Att) (db : Db Att) (n m : Notice) (l : List Att) (hm : Cue.saved m ∈ (db.process v n l).1.cues) :
    Cue.saved m ∈ db.cues ∨ (m = n ∧ (db.process v n l).2 = .ok () ∧ (db.process v n l).1.saved n.key n.aid = some n.d) := by
  have hesc : ∀ t cue, (∀ x, cue ≠ Cue.saved x) → Cue.saved m ∈ (db.escrow t n l cue).cues → Cue.saved m ∈ db.cues := by
    intro t cue hc hh
    simp only [Db.escrow] at hh
    split at hh
    · exact hh
    · rcases List.mem_append.mp hh with hh | hh
      · exact hh
      · exact absurd (by simpa using hh : Cue.saved m = cue).symm (hc m)
  have hfin : ∀ t cue, (∀ x, cue ≠ Cue.saved x) → Cue.saved m ∈ (db.finish v t n l cue).1.cues →
      Cue.saved m ∈ db.cues ∨ (m = n ∧ (db.finish v t n l cue).2 = .ok () ∧ (db.finish v t n l cue).1.saved n.key n.aid = some n.d) := by
    intro t cue hc hh
    revert hh
    unfold Db.finish
    cases v.accept n l with
    | none => exact fun hh => .inl hh
    | some b =>
      cases b with
      | false => exact fun hh => .inl hh
      | true =>
        cases v.tels n.key n.sn with
        | none => exact fun hh => .inl (hesc _ _ hc hh)
        | some d =>
          dsimp only
          split
          · exact fun hh => .inl hh
          · intro hh
            rcases List.mem_append.mp hh with hh | hh
            · exact .inl hh
            · exact .inr ⟨by simpa using hh, rfl, by simp [Db.update, upd]⟩
  revert hm
  unfold Db.process Db.handle
  cases n.cred with
  | false =>
    simp only [Bool.false_eq_true, if_false]
    unfold Db.registry
    cases v.wits n.pre with
    | none => exact fun hh => .inl (hesc _ _ (fun _ => by simp) hh)
    | some w =>
      dsimp only
      generalize (if n.nb = true then w else n.baks) = baks
      split
      · exact fun hh => .inl hh
      split
      · exact fun hh => .inl hh
      exact hfin _ _ fun _ => by simp
  | true =>
    simp only [if_true]
    unfold Db.credential
    cases v.tev n.regk with
    | none => exact fun hh => .inl (hesc _ _ (fun _ => by simp) hh)
    | some t =>
      dsimp only
      by_cases hq : t.sn < n.regsn
      · rw [if_pos hq]
        exact fun hh => .inl (hesc _ _ (fun _ => by simp) hh)
      rw [if_neg hq]
      cases v.wits t.pre with
      | none => exact fun hh => .inl (hesc _ _ (fun _ => by simp) hh)
      | some w =>
        dsimp only
        generalize (if t.nb = true then w else t.baks) = baks
        split
        · exact fun hh => .inl hh
        exact hfin _ _ fun _ => by simp

/-- C231: a registry's notice whose controller is not known waits, and the controller's key state is asked for, once. -/
theorem c231_asks_controller (v : View Att) (db : Db Att) (n : Notice) (l : List Att) (hc : n.cred = false) (hw : v.wits n.pre = none) :
    ⟨.rmae, n.key, n.aid, n.said⟩ ∈ (db.process v n l).1.esc ∧ (db.process v n l).2 = .error .missingAnchor ∧
    (db.process v n l).1.cues = db.cues ++ if ⟨.rmae, n.key, n.aid, n.said⟩ ∈ db.esc then [] else [.query n.pre] := by
  unfold Db.process Db.handle Db.registry
  rw [hc, hw]
  simp only [Bool.false_eq_true, if_false, Db.escrow]
  refine ⟨by split <;> simp [*], trivial, by split <;> simp⟩

/-- C231: a credential's notice whose registry is not known, or not that far, waits, and the registry's events are asked for, once. -/
theorem c231_asks_registry (v : View Att) (db : Db Att) (n : Notice) (l : List Att) (hc : n.cred = true) (hw : ∀ t, v.tev n.regk = some t → t.sn < n.regsn) :
    ⟨.cmre, n.key, n.aid, n.said⟩ ∈ (db.process v n l).1.esc ∧ (db.process v n l).2 = .error .missingRegistry ∧
    (db.process v n l).1.cues = db.cues ++ if ⟨.cmre, n.key, n.aid, n.said⟩ ∈ db.esc then [] else [.telquery n.regk none] := by
  unfold Db.process Db.handle Db.credential
  rw [hc]
  cases ht : v.tev n.regk with
  | none =>
    simp only [if_true, Db.escrow]
    refine ⟨by split <;> simp [*], trivial, by split <;> simp⟩
  | some t =>
    simp only [if_true]
    rw [if_pos (hw t ht)]
    simp only [Db.escrow]
    refine ⟨by split <;> simp [*], trivial, by split <;> simp⟩

/-- C231: a notice of either kind for which all else is there but its event waits, and the events are asked for, once, of the registry or of the credential in it. -/
theorem c231_asks_events (v : View Att) (db : Db Att) (n : Notice) (l : List Att) (hb : Based v n) (ht : Trusted v n) (ha : v.accept n l = some true) (hl : v.tels n.key n.sn = none) :
    ⟨if n.cred then .cooo else .rooo, n.key, n.aid, n.said⟩ ∈ (db.process v n l).1.esc ∧ (db.process v n l).2 = .error .outOfOrder ∧
    (db.process v n l).1.cues = db.cues ++
      if ⟨if n.cred then .cooo else .rooo, n.key, n.aid, n.said⟩ ∈ db.esc then [] else [if n.cred then .telquery n.regk (some n.key) else .telquery n.key none] := by
  unfold Based at hb
  unfold Trusted Heard at ht
  unfold Db.process
  cases hc : n.cred with
  | false =>
    rw [hc, if_neg (by decide)] at hb ht
    obtain ⟨hw, hs⟩ := hb
    unfold Db.handle Db.registry
    simp only [Bool.false_eq_true, if_false]
    cases hw' : v.wits n.pre with
    | none => exact absurd hw' hw
    | some w =>
      dsimp only
      rw [if_neg (by cases hnb : n.nb <;> simp only [hnb] at ht ⊢ <;> grind),
        if_neg (by
          unfold stale
          cases h : v.tev n.key with
          | none => simp
          | some t => simpa using hs t h)]
      unfold Db.finish
      rw [ha, hl]
      simp only [Db.escrow]
      refine ⟨by split <;> simp [*], trivial, by split <;> simp⟩
  | true =>
    rw [hc, if_pos rfl] at hb ht
    obtain ⟨t, h1, h2, h3⟩ := hb
    obtain ⟨t', h1', ht⟩ := ht
    rw [h1] at h1'
    cases h1'
    unfold Db.handle Db.credential
    simp only [if_true]
    rw [h1]
    dsimp only
    rw [if_neg (by omega)]
    cases hw' : v.wits t.pre with
    | none => exact absurd hw' h3
    | some w =>
      dsimp only
      rw [if_neg (by cases hnb : t.nb <;> simp only [hnb] at ht ⊢ <;> grind)]
      unfold Db.finish
      rw [ha, hl]
      simp only [Db.escrow]
      refine ⟨by split <;> simp [*], trivial, by split <;> simp⟩

/-- C231, of why it falls short: of a credential's notice whose registry is known but not the registry's controller, the key state of the source is asked for, whoever controls the registry. -/
theorem c231_asks_source (v : View Att) (db : Db Att) (n : Notice) (l : List Att) (t : Tv) (hc : n.cred = true) (hv : v.tev n.regk = some t) (hs : n.regsn ≤ t.sn) (hw : v.wits t.pre = none)
    (hn : ⟨.cmae, n.key, n.aid, n.said⟩ ∉ db.esc) : (db.process v n l).1.cues = db.cues ++ [.query n.aid] ∧ (db.process v n l).2 = .error .missingAnchor := by
  unfold Db.process Db.handle Db.credential
  rw [hc, hv]
  simp only [if_true]
  rw [if_neg (by omega), hw]
  simp only [Db.escrow]
  rw [if_neg hn]
  exact ⟨rfl, trivial⟩

end Verif.Tsn
