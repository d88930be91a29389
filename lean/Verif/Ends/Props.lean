import Verif.Ends.Lemmas

/-!
# Endpoints: which are found, and which are told to others

`lastRole h cid r eid` and `lastLoc h eid s` are what the last of the replies accepted, `h`, says of a role and of a location.
-/

namespace Verif.Ends

open Verif.Krm

variable {Id Url : Type} [DecidableEq Id]

/-! ## C213: looking up -/

/-- **C213.** A role is allowed as the last reply about it says. -/
theorem c213_authorised (w : Id → Option (List Id)) (h : List (Rep Id Url)) (cid : Id) (r : Role) (eid : Id) :
    fetchEndAllowed (run w h) cid r eid = lastRole h cid r eid ∧ fetchEndAuthzed (run w h) cid r eid = lastRole h cid r eid := by
  unfold fetchEndAllowed fetchEndAuthzed
  rw [run_ends]
  cases lastRole h cid r eid <;> simp

/-- **C213.** The URL found is that of the last reply. -/
theorem c213_url (w : Id → Option (List Id)) (h : List (Rep Id Url)) (eid : Id) (s : Scheme) : fetchUrl (run w h) eid s = lastLoc h eid s :=
  run_locs w h eid s

/-- **C213.** All URLs found, when no scheme is asked for, are those of the last replies, without those emptied. -/
theorem c213_urls (w : Id → Option (List Id)) (h : List (Rep Id Url)) (eid : Id) (s : Scheme) (u : Url) :
    (s, u) ∈ fetchUrls (run w h) eid none ↔ lastLoc h eid s = some (some u) := by
  simp [mem_urls, starts]

/-- **C213, partial.** When a scheme is asked for, the URLs found are of that scheme. Missing: HTTP. -/
theorem c213_scheme_partial (w : Id → Option (List Id)) (h : List (Rep Id Url)) (eid : Id) (q : Scheme) (hq : q ≠ .http) (s : Scheme) (u : Url) :
    (s, u) ∈ fetchUrls (run w h) eid (some q) ↔ s = q ∧ lastLoc h eid s = some (some u) := by
  rw [mem_urls]
  cases q <;> cases s <;> simp [starts, Scheme.name] at hq ⊢

/-- **C213 fails** for HTTP: the URLs of HTTPS are found too. -/
theorem c213_http (w : Id → Option (List Id)) (h : List (Rep Id Url)) (eid : Id) (s : Scheme) (u : Url) :
    (s, u) ∈ fetchUrls (run w h) eid (some .http) ↔ (s = .http ∨ s = .https) ∧ lastLoc h eid s = some (some u) := by
  rw [mem_urls]
  cases s <;> simp [starts, Scheme.name]

theorem mem_witUrls (db : Db Id Url) (s : Option Scheme) (eids l : List Id) (r : Role) (eid : Id) (us : List (Scheme × Url)) :
    (r, eid, us) ∈ witUrls db s eids l ↔ r = .witness ∧ eid ∈ l ∧ among eids eid = true ∧ us = fetchUrls db eid s ∧ us ≠ [] := by
  induction l with
  | nil => simp [witUrls]
  | cons v l ih =>
    rw [witUrls]
    split
    · rename_i hv
      split
      · rename_i he
        have he' : fetchUrls db v s = [] := by simpa using he
        rw [ih]
        constructor
        · rintro ⟨h1, h2, h3⟩; exact ⟨h1, List.mem_cons_of_mem _ h2, h3⟩
        · rintro ⟨h1, h2, h3, h4, h5⟩
          rcases List.mem_cons.1 h2 with rfl | h2
          · exact absurd (h4.trans he') h5
          · exact ⟨h1, h2, h3, h4, h5⟩
      · rename_i he
        have he' : fetchUrls db v s ≠ [] := by simpa using he
        rw [List.mem_cons, ih]
        constructor
        · rintro (h1 | ⟨h1, h2, h3⟩)
          · cases h1; exact ⟨rfl, List.mem_cons_self, hv, rfl, he'⟩
          · exact ⟨h1, List.mem_cons_of_mem _ h2, h3⟩
        · rintro ⟨h1, h2, h3, h4, h5⟩
          rcases List.mem_cons.1 h2 with rfl | h2
          · exact .inl (by rw [h1, h4])
          · exact .inr ⟨h1, h2, h3, h4, h5⟩
    · rename_i hv
      rw [ih]
      constructor
      · rintro ⟨h1, h2, h3⟩; exact ⟨h1, List.mem_cons_of_mem _ h2, h3⟩
      · rintro ⟨h1, h2, h3, h4⟩
        rcases List.mem_cons.1 h2 with rfl | h2
        · exact absurd h3 hv
        · exact ⟨h1, h2, h3, h4⟩

theorem mem_endUrls (db : Db Id Url) (cid : Id) (role : Option Role) (s : Option Scheme) (eids : List Id) (en al : Bool) (l : Tab (Id × Role × Id) Ender)
    (r : Role) (eid : Id) (us : List (Scheme × Url)) :
    (r, eid, us) ∈ endUrls db cid role s eids en al l ↔
      (∃ v, ((cid, r, eid), v) ∈ l ∧ ((en && v.enabled) || (al && v.allowed)) = true) ∧ (role = none ∨ role = some r) ∧ among eids eid = true ∧
        us = fetchUrls db eid s ∧ us ≠ [] := by
  induction l with
  | nil => simp [endUrls]
  | cons e l ih =>
    obtain ⟨⟨c, q, f⟩, v⟩ := e
    rw [endUrls]
    by_cases hc : c = cid ∧ (role = none ∨ role = some q)
    · by_cases hb : ((en && v.enabled) || (al && v.allowed)) = true
      · by_cases ha : among eids f = true
        · by_cases hu : fetchUrls db f s = []
          · rw [if_pos (by simpa using hc), if_pos hb, if_pos ha, if_pos (by simp [hu]), ih]
            grind
          · rw [if_pos (by simpa using hc), if_pos hb, if_pos ha, if_neg (by simp [hu]), List.mem_cons, ih]
            grind
        · rw [if_pos (by simpa using hc), if_pos hb, if_neg ha, ih]
          grind
      · rw [if_pos (by simpa using hc), if_neg hb, ih]
        grind
    · rw [if_neg (by simpa using hc), ih]
      grind

/-- **C213.** Those found in a role are those that the last reply allows, and, when witnesses are asked for, the witnesses of the key state; of both
only those of which a URL is known, and, if some are asked for, only these. -/
theorem c213_roles (w : Id → Option (List Id)) (h : List (Rep Id Url)) (cid : Id) (role : Option Role) (s : Option Scheme) (eids : List Id)
    (r : Role) (eid : Id) (us : List (Scheme × Url)) :
    (r, eid, us) ∈ fetchRoleUrls (run w h) cid role s eids true true ↔
      (((role = none ∨ role = some r) ∧ lastRole h cid r eid = some true) ∨
        (role = some .witness ∧ r = .witness ∧ ∃ ws, w cid = some ws ∧ eid ∈ ws)) ∧
      (eids = [] ∨ eid ∈ eids) ∧ us = fetchUrls (run w h) eid s ∧ us ≠ [] := by
  have ha : among eids eid = true ↔ (eids = [] ∨ eid ∈ eids) := by simp [among]
  have hv : (∃ v, ((cid, r, eid), v) ∈ (run w h).ends ∧ ((true && v.enabled) || (true && v.allowed)) = true) ↔ lastRole h cid r eid = some true := by
    constructor
    · rintro ⟨v, h1, h2⟩
      obtain ⟨b, h3, rfl⟩ := (mem_ends w h cid r eid v).1 h1
      simp at h2
      rw [h3, h2]
    · intro h1
      exact ⟨⟨false, true⟩, (mem_ends w h cid r eid _).2 ⟨true, h1, rfl⟩, rfl⟩
  unfold fetchRoleUrls
  rw [List.mem_append, mem_endUrls, hv, ha]
  by_cases hr : role = some .witness
  · rw [if_pos hr, mem_witUrls, ha, run_wits]
    cases hw : w cid with
    | none => simp; grind
    | some ws => simp; grind
  · rw [if_neg hr]
    simp [hr]
    grind

/-- What is asked for as allowed only is not answered with what is not. -/
theorem c213_none (w : Id → Option (List Id)) (h : List (Rep Id Url)) (cid : Id) (role : Option Role) (s : Option Scheme) (eids : List Id)
    (hr : role ≠ some .witness) (al : Bool) (r : Role) (eid : Id) (us : List (Scheme × Url))
    (hm : (r, eid, us) ∈ fetchRoleUrls (run w h) cid role s eids true al) : al = true := by
  unfold fetchRoleUrls at hm
  rw [if_neg hr, List.nil_append, mem_endUrls] at hm
  obtain ⟨⟨v, h1, h2⟩, _⟩ := hm
  obtain ⟨b, _, rfl⟩ := (mem_ends w h cid r eid v).1 h1
  simp at h2
  exact h2.1

/-- A mailbox added, with two locations of which one is emptied. -/
example :
    fetchRoleUrls (run (fun _ => none) [.role 1 .mailbox 2 true, .loc 2 .http (some 80), .loc 2 .tcp (some 7), .loc 2 .tcp none]) 1 none none [] true
      true = [(Role.mailbox, 2, [(Scheme.http, 80)])] := by
  decide +kernel

/-! ## C214: the endpoints that messages are sent to -/

theorem mem_stored (db : Db Id Url) (cid : Id) (r : Role) (l : Tab (Id × Role × Id) Ender) (eid : Id) (us : List (Scheme × Url)) :
    (eid, us) ∈ stored db cid r l ↔ (∃ v, ((cid, r, eid), v) ∈ l) ∧ us = fetchUrls db eid none := by
  induction l with
  | nil => simp [stored]
  | cons e l ih =>
    obtain ⟨⟨c, q, f⟩, v⟩ := e
    rw [stored]
    by_cases hc : c = cid ∧ q = r
    · rw [if_pos (by simpa using hc), List.mem_cons, ih]
      grind
    · rw [if_neg (by simpa using hc), ih]
      grind

theorem endsFor_other (db : Db Id Url) (cid : Id) (r : Role) (hr : r ≠ .witness) : endsFor db cid r = stored db cid r db.ends := by
  cases r <;> first | rfl | exact absurd rfl hr

/-- **C214 fails**: an endpoint is there whenever there was any reply about it, whether the last adds it or cuts it. -/
theorem c214_ends (w : Id → Option (List Id)) (h : List (Rep Id Url)) (cid : Id) (r : Role) (hr : r ≠ .witness) (eid : Id) (us : List (Scheme × Url)) :
    (eid, us) ∈ endsFor (run w h) cid r ↔ (lastRole h cid r eid).isSome = true ∧ us = fetchUrls (run w h) eid none := by
  rw [endsFor_other _ _ _ hr, mem_stored]
  constructor
  · rintro ⟨⟨v, h1⟩, h2⟩
    obtain ⟨b, h3, _⟩ := (mem_ends w h cid r eid v).1 h1
    exact ⟨by rw [h3]; rfl, h2⟩
  · rintro ⟨h1, h2⟩
    obtain ⟨b, h3⟩ := Option.isSome_iff_exists.1 h1
    exact ⟨⟨_, (mem_ends w h cid r eid _).2 ⟨b, h3, rfl⟩⟩, h2⟩

/-- **C214 fails**: an agent that was cut is an endpoint still, though it is not found as such (`fetchRoleUrls`). -/
theorem c214_cut : ∃ h : List (Rep Nat Nat), lastRole h 1 .agent 2 = some false ∧ (2, [(Scheme.http, 80)]) ∈ endsFor (run (fun _ => none) h) 1 .agent ∧
    fetchRoleUrls (run (fun _ => none) h) 1 (some .agent) none [] true true = [] :=
  ⟨[.role 1 .agent 2 true, .loc 2 .http (some 80), .role 1 .agent 2 false], by decide +kernel⟩

/-- **C214, partial.** When no reply cuts a role, the endpoints are those that the last reply allows. Missing: replies that cut. -/
theorem c214_partial (w : Id → Option (List Id)) (h : List (Rep Id Url)) (hc : ∀ c r e, Rep.role c r e false ∉ h) (cid : Id) (r : Role) (hr : r ≠ .witness)
    (eid : Id) (us : List (Scheme × Url)) :
    (eid, us) ∈ endsFor (run w h) cid r ↔ lastRole h cid r eid = some true ∧ us = fetchUrls (run w h) eid none := by
  rw [c214_ends w h cid r hr]
  cases hl : lastRole h cid r eid with
  | none => simp
  | some b =>
    cases b with
    | true => simp
    | false =>
      unfold lastRole at hl
      obtain ⟨x, hx, hy⟩ := List.exists_of_findSome?_eq_some hl
      cases x with
      | loc e t u => cases hy
      | role c q e b =>
        dsimp only at hy
        split at hy
        · cases hy
          exact absurd (List.mem_reverse.1 hx) (hc c q e)
        · cases hy

/-- The witnesses are those of the key state, if it has any. -/
theorem c214_witnesses (w : Id → Option (List Id)) (h : List (Rep Id Url)) (cid : Id) (ws : List Id) (hw : w cid = some ws) (hn : ws ≠ []) (eid : Id)
    (us : List (Scheme × Url)) : (eid, us) ∈ endsFor (run w h) cid .witness ↔ eid ∈ ws ∧ us = fetchUrls (run w h) eid none := by
  unfold endsFor
  rw [run_wits, hw]
  cases ws with
  | nil => exact absurd rfl hn
  | cons v vs =>
    simp only [Option.getD_some, List.mem_map, List.mem_eraseDups, Prod.mk.injEq]
    grind

example : endsFor (run (fun _ => some [5, 6]) [.role 1 .witness 2 true, .loc 5 .tcp (some 7)]) 1 .witness = [(5, [(Scheme.tcp, 7)]), (6, [])] := by
  decide +kernel

/-! ## C215: what is told to others -/

/-- **C215.** Nothing is told of an identifier that is not known. -/
theorem c215_unknown (db : Db Id Url) (self cid : Id) (role : Option Role) (eids : List Id) (s : Option Scheme) (hw : db.wits cid = none) :
    replyEndRole db self cid role eids s = [] := by
  unfold replyEndRole; rw [hw]

/-- **C215.** The log comes first, and there is no other. -/
theorem c215_log (db : Db Id Url) (self cid : Id) (role : Option Role) (eids : List Id) (s : Option Scheme) (ws : List Id) (hw : db.wits cid = some ws) :
    ∃ rest, replyEndRole db self cid role eids s = .kel cid :: rest ∧ ∀ p, .kel p ∉ rest := by
  unfold replyEndRole
  rw [hw]
  refine ⟨_, rfl, ?_⟩
  intro p hp
  rcases List.mem_append.1 hp with hp | hp
  · split at hp
    · obtain ⟨v, _, hv⟩ := List.mem_flatMap.1 hp
      unfold witMsgs at hv
      split at hv
      · rcases List.mem_append.1 hv with hv | hv
        · split at hv
          · simp [replyLocScheme] at hv
          · simp [loadLocScheme] at hv
        · split at hv <;> simp at hv
      · cases hv
    · cases hp
  · obtain ⟨e, _, he⟩ := List.mem_flatMap.1 hp
    unfold endMsgs at he
    split at he
    · rcases List.mem_append.1 he with he | he
      · simp [loadLocScheme] at he
      · unfold loadEndRole at he
        split at he
        · split at he <;> simp at he
        · cases he
    · cases he

theorem mem_loadLoc (w : Id → Option (List Id)) (h : List (Rep Id Url)) (eid : Id) (q : Option Scheme) (m : Msg Id Url) :
    m ∈ loadLocScheme (run w h) eid q ↔ ∃ s, m = .loc eid s ∧ starts q s = true ∧ (lastLoc h eid s).isSome = true := by
  unfold loadLocScheme
  rw [List.mem_filterMap]
  constructor
  · rintro ⟨⟨⟨e, t⟩, o⟩, hm, hx⟩
    dsimp only at hx
    split at hx
    · rename_i hc
      rw [Bool.and_eq_true, decide_eq_true_eq] at hc
      obtain ⟨rfl, hc⟩ := hc
      cases hx
      rw [mem_iff_get (run_nodup w h).2, run_locs] at hm
      exact ⟨t, rfl, hc, by rw [hm]; rfl⟩
    · cases hx
  · rintro ⟨s, rfl, hc, hl⟩
    obtain ⟨o, hl⟩ := Option.isSome_iff_exists.1 hl
    rw [← run_locs w, ← mem_iff_get (run_nodup w h).2] at hl
    exact ⟨_, hl, by simp [hc]⟩

theorem mem_loadEnd (w : Id → Option (List Id)) (h : List (Rep Id Url)) (cid : Id) (r : Role) (eid : Id) (m : Msg Id Url) :
    m ∈ loadEndRole (run w h) cid r eid ↔ m = .auth cid r eid ∧ lastRole h cid r eid = some true := by
  unfold loadEndRole
  rw [run_ends]
  cases lastRole h cid r eid with
  | none => simp
  | some b => cases b <;> simp

theorem mem_endMsgs (w : Id → Option (List Id)) (h : List (Rep Id Url)) (cid : Id) (role : Option Role) (q : Option Scheme) (eids : List Id) (m : Msg Id Url) :
    m ∈ (run w h).ends.flatMap (endMsgs (run w h) cid role q eids) ↔
      ∃ r eid, lastRole h cid r eid = some true ∧ (role = none ∨ role = some r) ∧ (eids = [] ∨ eid ∈ eids) ∧
        (m = .auth cid r eid ∨ ∃ s, m = .loc eid s ∧ starts q s = true ∧ (lastLoc h eid s).isSome = true) := by
  rw [List.mem_flatMap]
  constructor
  · rintro ⟨⟨⟨c, r, eid⟩, v⟩, h1, h2⟩
    unfold endMsgs at h2
    split at h2
    · rename_i hc
      simp only [Bool.and_eq_true, decide_eq_true_eq, Bool.or_eq_true, Option.isNone_iff_eq_none, among, List.isEmpty_iff] at hc
      obtain ⟨⟨⟨rfl, hv⟩, hr⟩, ha⟩ := hc
      obtain ⟨b, h3, rfl⟩ := (mem_ends w h c r eid v).1 h1
      have hb : b = true := by simpa using hv
      subst hb
      refine ⟨r, eid, h3, hr, ha, ?_⟩
      rcases List.mem_append.1 h2 with h2 | h2
      · exact .inr ((mem_loadLoc w h eid q m).1 h2)
      · exact .inl ((mem_loadEnd w h c r eid m).1 h2).1
    · cases h2
  · rintro ⟨r, eid, h1, hr, ha, hm⟩
    refine ⟨((cid, r, eid), ⟨false, true⟩), (mem_ends w h cid r eid _).2 ⟨true, h1, rfl⟩, ?_⟩
    unfold endMsgs
    rw [if_pos (by simp [among, hr, ha])]
    rw [List.mem_append]
    rcases hm with rfl | hm
    · exact .inr ((mem_loadEnd w h cid r eid _).2 ⟨rfl, h1⟩)
    · exact .inl ((mem_loadLoc w h eid q m).2 hm)

theorem witMsgs_no_auth (db : Db Id Url) (self : Id) (b : Bool) (s : Option Scheme) (eids : List Id) (v c : Id) (r : Role) (e : Id) :
    .auth c r e ∉ witMsgs db self b s eids v := by
  intro hv
  unfold witMsgs at hv
  split at hv
  · rcases List.mem_append.1 hv with hv | hv
    · split at hv
      · simp [replyLocScheme] at hv
      · simp [loadLocScheme] at hv
    · split at hv <;> simp at hv
  · cases hv

/-- **C215.** The authorisations told are those that the identifier gave last, of the roles and endpoints asked for. -/
theorem c215_authorised (w : Id → Option (List Id)) (h : List (Rep Id Url)) (self cid : Id) (role : Option Role) (eids : List Id) (q : Option Scheme)
    (c : Id) (r : Role) (eid : Id) :
    .auth c r eid ∈ replyEndRole (run w h) self cid role eids q ↔
      (w cid).isSome = true ∧ c = cid ∧ lastRole h cid r eid = some true ∧ (role = none ∨ role = some r) ∧ (eids = [] ∨ eid ∈ eids) := by
  unfold replyEndRole
  rw [run_wits]
  cases hw : w cid with
  | none => simp
  | some ws =>
    dsimp only
    rw [List.mem_cons, List.mem_append, mem_endMsgs]
    constructor
    · rintro (h1 | h1 | ⟨r', e', h1, h2, h3, h4⟩)
      · cases h1
      · split at h1
        · obtain ⟨v, _, hv⟩ := List.mem_flatMap.1 h1
          exact absurd hv (witMsgs_no_auth _ _ _ _ _ _ _ _ _)
        · cases h1
      · rcases h4 with h4 | ⟨s, h4, _⟩
        · cases h4; exact ⟨rfl, rfl, h1, h2, h3⟩
        · cases h4
    · rintro ⟨_, rfl, h1, h2, h3⟩
      exact .inr (.inr ⟨r, eid, h1, h2, h3, .inl rfl⟩)

/-- **C215.** The locations told are those known of the endpoints authorised, and, when witnesses are asked for, of the witnesses of the key state
other than oneself. -/
theorem c215_locations (w : Id → Option (List Id)) (h : List (Rep Id Url)) (self cid : Id) (role : Option Role) (eids : List Id) (q : Option Scheme)
    (eid : Id) (s : Scheme) :
    .loc eid s ∈ replyEndRole (run w h) self cid role eids q ↔
      ((∃ r, (w cid).isSome = true ∧ lastRole h cid r eid = some true ∧ (role = none ∨ role = some r)) ∨
        (role = some .witness ∧ eid ≠ self ∧ ∃ ws, w cid = some ws ∧ eid ∈ ws)) ∧
      (eids = [] ∨ eid ∈ eids) ∧ starts q s = true ∧ (lastLoc h eid s).isSome = true := by
  unfold replyEndRole
  rw [run_wits]
  cases hw : w cid with
  | none => simp
  | some ws =>
    dsimp only
    rw [List.mem_cons, List.mem_append, mem_endMsgs]
    constructor
    · rintro (h1 | h1 | ⟨r', e', h1, h2, h3, h4⟩)
      · cases h1
      · split at h1
        · rename_i hr
          obtain ⟨v, hv1, hv⟩ := List.mem_flatMap.1 h1
          unfold witMsgs at hv
          split at hv
          · rename_i ha
            rcases List.mem_append.1 hv with hv | hv
            · split at hv
              · simp [replyLocScheme] at hv
              · rename_i hvs
                obtain ⟨s', h5, h6⟩ := (mem_loadLoc w h v q _).1 hv
                cases h5
                exact ⟨.inr ⟨hr, hvs, ws, rfl, hv1⟩, by simpa [among] using ha, h6⟩
            · split at hv <;> simp at hv
          · cases hv
        · cases h1
      · rcases h4 with h4 | ⟨s, h4, h5⟩
        · cases h4
        · cases h4; exact ⟨.inl ⟨r', rfl, h1, h2⟩, h3, h5⟩
    · rintro ⟨⟨r, _, h1, h2⟩ | ⟨rfl, h1, ws', h2, h3⟩, h4, h5⟩
      · exact .inr (.inr ⟨r, eid, h1, h2, h4, .inr ⟨s, rfl, h5⟩⟩)
      · cases h2
        refine .inr (.inl ?_)
        rw [if_pos rfl]
        refine List.mem_flatMap.2 ⟨eid, h3, ?_⟩
        unfold witMsgs
        rw [if_pos (by simpa [among] using h4), if_neg h1]
        exact List.mem_append_left _ ((mem_loadLoc w h eid q _).2 ⟨s, rfl, h5⟩)

/-- **C215.** Of itself as a witness an identifier tells the URLs that it has, in its own name. -/
theorem c215_own (w : Id → Option (List Id)) (h : List (Rep Id Url)) (self cid : Id) (role : Option Role) (eids : List Id) (q : Option Scheme)
    (x eid : Id) (s : Scheme) (u : Url) :
    .ownLoc x eid s u ∈ replyEndRole (run w h) self cid role eids q ↔
      role = some .witness ∧ x = self ∧ eid = self ∧ (∃ ws, w cid = some ws ∧ self ∈ ws) ∧ (eids = [] ∨ self ∈ eids) ∧ starts q s = true ∧
        lastLoc h self s = some (some u) := by
  unfold replyEndRole
  rw [run_wits]
  cases hw : w cid with
  | none => simp
  | some ws =>
    dsimp only
    rw [List.mem_cons, List.mem_append, mem_endMsgs]
    constructor
    · rintro (h1 | h1 | ⟨r', e', h1, h2, h3, h4⟩)
      · cases h1
      · split at h1
        · rename_i hr
          obtain ⟨v, hv1, hv⟩ := List.mem_flatMap.1 h1
          unfold witMsgs at hv
          split at hv
          · rename_i ha
            rcases List.mem_append.1 hv with hv | hv
            · split at hv
              · rename_i hvs
                subst hvs
                obtain ⟨⟨t, u'⟩, h5, h6⟩ := List.mem_map.1 hv
                cases h6
                have := (mem_urls w h _ q t u').1 h5
                exact ⟨hr, rfl, rfl, ⟨ws, rfl, hv1⟩, by simpa [among] using ha, this⟩
              · simp [loadLocScheme] at hv
            · split at hv <;> simp at hv
          · cases hv
        · cases h1
      · rcases h4 with h4 | ⟨s, h4, h5⟩
        · cases h4
        · cases h4
    · rintro ⟨rfl, rfl, rfl, ⟨ws', h2, h3⟩, h4, h5⟩
      cases h2
      refine .inr (.inl ?_)
      rw [if_pos rfl]
      refine List.mem_flatMap.2 ⟨_, h3, ?_⟩
      unfold witMsgs
      rw [if_pos (by simpa [among] using h4), if_pos rfl]
      exact List.mem_append_left _ (List.mem_map.2 ⟨(s, u), (mem_urls w h _ q s u).2 h5, rfl⟩)

/-- **C215 fails** for witnesses: what is made to say that they are, when one is not a witness oneself, says so of oneself, whoever was asked for. -/
theorem c215_made (w : Id → Option (List Id)) (h : List (Rep Id Url)) (self cid : Id) (role : Option Role) (eids : List Id) (q : Option Scheme)
    (x : Id) (r : Role) (eid : Id) :
    .made x r eid ∈ replyEndRole (run w h) self cid role eids q ↔
      role = some .witness ∧ r = .witness ∧ x = self ∧ (∃ ws, w cid = some ws ∧ eid ∈ ws ∧ self ∉ ws) ∧ (eids = [] ∨ eid ∈ eids) := by
  unfold replyEndRole
  rw [run_wits]
  cases hw : w cid with
  | none => simp
  | some ws =>
    dsimp only
    rw [List.mem_cons, List.mem_append, mem_endMsgs]
    constructor
    · rintro (h1 | h1 | ⟨r', e', h1, h2, h3, h4⟩)
      · cases h1
      · split at h1
        · rename_i hr
          obtain ⟨v, hv1, hv⟩ := List.mem_flatMap.1 h1
          unfold witMsgs at hv
          split at hv
          · rename_i ha
            rcases List.mem_append.1 hv with hv | hv
            · split at hv
              · simp [replyLocScheme] at hv
              · simp [loadLocScheme] at hv
            · split at hv
              · cases hv
              · rename_i hs
                rw [List.mem_singleton] at hv
                cases hv
                exact ⟨hr, rfl, rfl, ⟨ws, rfl, hv1, by simpa using hs⟩, by simpa [among] using ha⟩
          · cases hv
        · cases h1
      · rcases h4 with h4 | ⟨s, h4, h5⟩
        · cases h4
        · cases h4
    · rintro ⟨rfl, rfl, rfl, ⟨ws', h2, h3, h6⟩, h4⟩
      cases h2
      refine .inr (.inl ?_)
      rw [if_pos rfl]
      refine List.mem_flatMap.2 ⟨_, h3, ?_⟩
      unfold witMsgs
      rw [if_pos (by simpa [among] using h4)]
      exact List.mem_append_right _ (by simp [h6])

/-- **C215 fails**: asked for the witnesses of another, of which it is none itself, an identifier (9) signs that they are its own, and nothing says that
they are those of the other (1). -/
theorem c215_misattributed : ∃ h : List (Rep Nat Nat), ∃ w : Nat → Option (List Nat), 
    replyEndRole (run w h) 9 1 (some .witness) [] none = [.kel 1, .loc 5 .http, .made 9 .witness 5] :=
  ⟨[.loc 5 .http (some 80)], fun i => if i = 1 then some [5] else none, by decide +kernel⟩

/-- **C215 fails**: asked for all roles, witnesses are not among what is told. -/
theorem c215_all_roles : ∃ h : List (Rep Nat Nat), ∃ w : Nat → Option (List Nat), w 1 = some [5] ∧ lastLoc h 5 .http = some (some 80) ∧
    replyEndRole (run w h) 9 1 none [] none = [.kel 1] :=
  ⟨[.loc 5 .http (some 80)], fun i => if i = 1 then some [5] else none, by decide +kernel⟩

/-! ## C216: the same for keys held elsewhere -/

theorem sigEnds_some (w : Id → Option (List Id)) (h : List (Rep Id Url)) (cid : Id) (role : Option Role) (q : Option Scheme) (eids : List Id)
    (l : Tab (Id × Role × Id) Ender) (out : List (Msg Id Url)) (ho : sigEnds (run w h) cid role q eids l = some out) (m : Msg Id Url)
    (hk : ∀ p, m ≠ .kel p) : m ∈ out ↔ m ∈ l.flatMap (endMsgs (run w h) cid role q eids) := by
  induction l generalizing out with
  | nil => rw [sigEnds] at ho; cases ho; simp
  | cons e l ih =>
    rw [sigEnds] at ho
    rw [List.flatMap_cons, List.mem_append]
    split at ho
    · rename_i hc
      have he : endMsgs (run w h) cid role q eids e = loadLocScheme (run w h) e.1.2.2 q ++ loadEndRole (run w h) cid e.1.2.1 e.1.2.2 := if_pos hc
      split at ho
      · cases ho
      · rename_i k hr
        rw [Option.map_eq_some_iff] at ho
        obtain ⟨o, h1, rfl⟩ := ho
        have hk' : m ∉ k := by
          unfold replay at hr
          rw [Option.map_eq_some_iff] at hr
          obtain ⟨_, _, rfl⟩ := hr
          simpa using hk e.1.2.2
        rw [he]
        simp [← ih o h1, hk', or_assoc]
    · rename_i hc
      have he : endMsgs (run w h) cid role q eids e = [] := if_neg hc
      rw [he, ← ih out ho]
      simp

/-- **C216, partial.** When it does not fail, the authorisations told are the same as for keys that are held here. -/
theorem c216_authorised_partial (w : Id → Option (List Id)) (h : List (Rep Id Url)) (self cid : Id) (role : Option Role) (eids : List Id)
    (q : Option Scheme) (out : List (Msg Id Url)) (ho : sigReplyEndRole (run w h) self cid role eids q = some out) (c : Id) (r : Role) (eid : Id) :
    .auth c r eid ∈ out ↔ .auth c r eid ∈ replyEndRole (run w h) self cid role eids q := by
  unfold sigReplyEndRole at ho
  unfold replyEndRole
  cases hw : (run w h).wits cid with
  | none => rw [hw] at ho; cases ho
  | some ws =>
    rw [hw] at ho
    dsimp only at ho ⊢
    rw [Option.map_eq_some_iff] at ho
    obtain ⟨o, h1, rfl⟩ := ho
    have h2 := sigEnds_some w h cid role q eids _ o h1 (.auth c r eid) (by intro p hp; cases hp)
    rw [List.mem_cons, List.mem_append, List.mem_cons, List.mem_append, h2]
    have h3 : ∀ v, .auth c r eid ∉ sigWit (run w h) self (decide (self ∈ ws)) q eids v := by
      intro v hv
      unfold sigWit at hv
      split at hv
      · rcases List.mem_append.1 hv with hv | hv
        · simp [loadLocScheme] at hv
        · split at hv <;> simp at hv
      · cases hv
    constructor
    · rintro (h4 | h4 | h4)
      · cases h4
      · split at h4
        · rcases List.mem_append.1 h4 with h4 | h4
          · obtain ⟨v, _, hv⟩ := List.mem_flatMap.1 h4
            exact absurd hv (h3 v)
          · split at h4 <;> simp at h4
        · cases h4
      · exact .inr (.inr h4)
    · rintro (h4 | h4 | h4)
      · cases h4
      · split at h4
        · obtain ⟨v, _, hv⟩ := List.mem_flatMap.1 h4
          exact absurd hv (witMsgs_no_auth _ _ _ _ _ _ _ _ _)
        · cases h4
      · exact .inr (.inr h4)

theorem sigEnds_none (w : Id → Option (List Id)) (h : List (Rep Id Url)) (cid : Id) (role : Option Role) (q : Option Scheme) (eids : List Id)
    (l : Tab (Id × Role × Id) Ender) :
    sigEnds (run w h) cid role q eids l = none ↔
      ∃ r eid v, ((cid, r, eid), v) ∈ l ∧ (v.enabled || v.allowed) = true ∧ (role = none ∨ role = some r) ∧ (eids = [] ∨ eid ∈ eids) ∧ w eid = none := by
  induction l with
  | nil => simp [sigEnds]
  | cons e l ih =>
    obtain ⟨⟨c, r, eid⟩, v⟩ := e
    rw [sigEnds]
    split
    · rename_i hc
      simp only [Bool.and_eq_true, decide_eq_true_eq, Option.isNone_iff_eq_none, among, List.isEmpty_iff, Bool.or_eq_true] at hc
      obtain ⟨⟨⟨rfl, hv⟩, hr⟩, ha⟩ := hc
      cases hk : w eid with
      | none =>
        have : replay (run w h) eid = none := by unfold replay; rw [run_wits, hk]; rfl
        rw [this]
        simp only [true_iff]
        exact ⟨r, eid, v, List.mem_cons_self, by simpa using hv, hr, ha, hk⟩
      | some x =>
        have : replay (run w h) eid = some [.kel eid] := by unfold replay; rw [run_wits, hk]; rfl
        rw [this]
        dsimp only
        rw [Option.map_eq_none_iff, ih]
        constructor
        · rintro ⟨r', e', v', h1, h2⟩; exact ⟨r', e', v', List.mem_cons_of_mem _ h1, h2⟩
        · rintro ⟨r', e', v', h1, h2, h3, h4, h5⟩
          rcases List.mem_cons.1 h1 with h1 | h1
          · cases h1; rw [hk] at h5; cases h5
          · exact ⟨r', e', v', h1, h2, h3, h4, h5⟩
    · rename_i hc
      rw [ih]
      constructor
      · rintro ⟨r', e', v', h1, h2⟩; exact ⟨r', e', v', List.mem_cons_of_mem _ h1, h2⟩
      · rintro ⟨r', e', v', h1, h2, h3, h4, h5⟩
        rcases List.mem_cons.1 h1 with h1 | h1
        · cases h1
          exact absurd (by simp [among, h3, h4] at h2 ⊢; exact h2) hc
        · exact ⟨r', e', v', h1, h2, h3, h4, h5⟩

/-- **C216 fails**: nothing is told, an exception is raised, when the log of one endpoint that is authorised is not known (or that of the identifier
itself). -/
theorem c216_raises (w : Id → Option (List Id)) (h : List (Rep Id Url)) (self cid : Id) (role : Option Role) (eids : List Id) (q : Option Scheme) :
    sigReplyEndRole (run w h) self cid role eids q = none ↔
      w cid = none ∨ ∃ r eid, lastRole h cid r eid = some true ∧ (role = none ∨ role = some r) ∧ (eids = [] ∨ eid ∈ eids) ∧ w eid = none := by
  unfold sigReplyEndRole
  rw [run_wits]
  cases hw : w cid with
  | none => simp
  | some ws =>
    dsimp only
    rw [Option.map_eq_none_iff, sigEnds_none]
    constructor
    · rintro ⟨r, eid, v, h1, h2, h3⟩
      obtain ⟨b, h4, rfl⟩ := (mem_ends w h cid r eid v).1 h1
      have hb : b = true := by simpa using h2
      exact .inr ⟨r, eid, hb ▸ h4, h3⟩
    · rintro (h1 | ⟨r, eid, h1, h2⟩)
      · cases h1
      · exact ⟨r, eid, ⟨false, true⟩, (mem_ends w h cid r eid _).2 ⟨true, h1, rfl⟩, rfl, h2⟩

/-- An agent authorised whose log is not known: told by one kind of habitat, not by the other. -/
theorem c216_witness : ∃ h : List (Rep Nat Nat), ∃ w : Nat → Option (List Nat),
    sigReplyEndRole (run w h) 1 1 none [] none = none ∧ replyEndRole (run w h) 1 1 none [] none = [.kel 1, .loc 5 .http, .auth 1 .agent 5] :=
  ⟨[.role 1 .agent 5 true, .loc 5 .http (some 80)], fun i => if i = 1 then some [] else none, by decide +kernel⟩

example : sigReplyEndRole (run (fun i => if i = 1 ∨ i = 5 then some [] else none) [Rep.role 1 .agent 5 true, .loc 5 .http (some 80)]) 1 1 none [] none =
    some [.kel 1, .kel 5, .loc 5 .http, .auth 1 .agent 5] := by
  decide +kernel

end Verif.Ends
