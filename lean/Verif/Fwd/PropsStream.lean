import Verif.Fwd.Model

/-! # Sending streams on: what is in them and who gets them (C219) -/

namespace Verif.Fwd

open Verif.Ends

variable {Id Url : Type} [DecidableEq Id]

/-! ## Chunks -/

theorem fill_spec (essr : Bool) (m : Bytes) (evts : List Evt) :
    ∃ t rest, evts = t ++ rest ∧ fill essr m evts = (m ++ t.flatMap Evt.bytes, rest) ∧
      (essr = false → rest = []) ∧ (essr = true → t ≠ [] → m.length + (t.flatMap Evt.bytes).length ≤ limit) := by
  induction evts generalizing m with
  | nil => exact ⟨[], [], rfl, by simp [fill], fun _ => rfl, fun _ h => absurd rfl h⟩
  | cons e r ih =>
    rw [fill]
    split
    · rename_i hc
      refine ⟨[], e :: r, rfl, by simp, ?_, fun _ h => absurd rfl h⟩
      intro h; rw [h] at hc; simp at hc
    · rename_i hc
      obtain ⟨t, rest, h1, h2, h3, h4⟩ := ih (m ++ e.raw ++ e.atc.getD [])
      refine ⟨e :: t, rest, by rw [h1]; rfl, by rw [h2]; simp [Evt.bytes], h3, ?_⟩
      intro he _
      by_cases ht : t = []
      · subst ht
        rw [he] at hc
        simp [Evt.bytes] at hc ⊢
        omega
      · have := h4 he ht
        simp [Evt.bytes] at this ⊢
        omega

/-- Does an event fit into a chunk. -/
def fits (c : Cfg Id Url) (e : Evt) : Prop := c.head.length + e.bytes.length ≤ limit

/-- A chunk takes at least one event if the first one fits. -/
theorem fill_progress (m : Bytes) (e : Evt) (r : List Evt) (h : m.length + e.bytes.length ≤ limit) (essr : Bool) :
    (fill essr m (e :: r)).2.length ≤ r.length := by
  rw [fill, if_neg]
  · obtain ⟨t, rest, h1, h2, _⟩ := fill_spec essr (m ++ e.raw ++ e.atc.getD []) r
    rw [h2, h1]
    simp
  · simp [Evt.bytes] at h ⊢
    intro _
    omega

theorem cut_spec (c : Cfg Id Url) (evts : List Evt) :
    ∃ t rest, evts = t ++ rest ∧ cut c evts = ((if c.essr then c.head else []) ++ t.flatMap Evt.bytes, rest) ∧
      (c.essr = false → rest = []) ∧ (c.essr = true → t ≠ [] → c.head.length + (t.flatMap Evt.bytes).length ≤ limit) := by
  obtain ⟨t, rest, h1, h2, h3, h4⟩ := fill_spec c.essr (if c.essr then c.head else []) evts
  refine ⟨t, rest, h1, h2, h3, ?_⟩
  intro he ht
  have := h4 he ht
  simpa [he] using this

theorem fill_keeps (m : Bytes) (evts : List Evt) (e : Evt) (he : e ∈ evts) (n : Nat) (hn : n ≤ m.length) (hb : limit < n + e.bytes.length) :
    e ∈ (fill true m evts).2 := by
  induction evts generalizing m with
  | nil => cases he
  | cons x r ih =>
    rw [fill]
    split
    · exact he
    · rename_i hc
      rcases List.mem_cons.1 he with rfl | he
      · simp [Evt.bytes] at hc hb
        omega
      · exact ih _ he (by simp; omega)

/-- **C219 fails** in ESSR mode for an event that does not fit into a chunk: `deliver` does not end. -/
theorem c219_oversize (c : Cfg Id Url) (pick : Nat) (hc : c.essr = true) (e : Evt) (hb : limit < c.head.length + e.bytes.length) (n : Nat) (s : SP Id Url)
    (doers : List (Mgr Id Url)) (evts : List Evt) (he : e ∈ evts) (s' : SP Id Url) (d' : List (Mgr Id Url)) :
    deliverAll c pick n s doers evts ≠ .done s' d' := by
  induction n generalizing s doers evts with
  | zero =>
    cases evts with
    | nil => cases he
    | cons x r => rw [deliverAll]; intro h; cases h
  | succ n ih =>
    cases evts with
    | nil => cases he
    | cons x r =>
      rw [deliverAll]
      have hk : e ∈ (cut c (x :: r)).2 := by
        unfold cut
        rw [hc]
        exact fill_keeps _ _ e he c.head.length (by simp) hb
      have hr : (chunk c pick s (x :: r)).2.2 = (cut c (x :: r)).2 := by
        unfold chunk
        split
        rename_i msg rest hcut
        rw [hcut]
        split
        · rfl
        · split <;> rfl
      rw [← hr] at hk
      split
      · intro h; cases h
      · rename_i s'' l rest heq
        rw [heq] at hk
        exact ih _ _ _ hk

/-- It is running for any number of rounds, if somebody has a URL; each round sends a chunk without an event. -/
example (n : Nat) : deliverAll (Id := Nat) (Url := Nat)
    ⟨true, [0], ⟨0, [], 9, [], fun _ => false, fun _ => false⟩, false, fun r => match r with | .controller => [(1, [(.http, 80)])] | _ => [], fun b => (b, []),
      fun _ b => b, []⟩ 0 n ⟨[], []⟩ [] [⟨List.replicate 16384 1, none⟩] ≠ .done ⟨[], []⟩ [] :=
  c219_oversize _ _ rfl ⟨List.replicate 16384 1, none⟩ (by
    unfold Evt.bytes limit
    rw [List.length_append, List.length_replicate]
    decide) n _ _ _ List.mem_cons_self _ _

/-! ## To one controller -/

/-- What `deliver` returns after chunks that each add a messenger: those so far, again each time. -/
def tally (old : List (Mgr Id Url)) : List (Mgr Id Url) → List (Mgr Id Url)
  | [] => []
  | m :: ms => (old ++ [m]) ++ tally (old ++ [m]) ms

theorem tally_length (old ms : List (Mgr Id Url)) : ms.length + ms.length * old.length ≤ (tally old ms).length := by
  induction ms generalizing old with
  | nil => simp [tally]
  | cons m ms ih =>
    have := ih (old ++ [m])
    simp [tally] at this ⊢
    have h2 : ms.length * (old.length + 1) = ms.length * old.length + ms.length := by rw [Nat.mul_add, Nat.mul_one]
    have h3 : (ms.length + 1) * old.length = ms.length * old.length + old.length := by rw [Nat.add_mul, Nat.one_mul]
    omega

theorem tally_more (m1 m2 : Mgr Id Url) (ms : List (Mgr Id Url)) : (m1 :: m2 :: ms).length < (tally [] (m1 :: m2 :: ms)).length := by
  have := tally_length ([] ++ [m1] ++ [m2]) ms
  simp [tally] at this ⊢
  omega

theorem dispatch_one (c : Cfg Id Url) (pick : Nat) (id : Id) (urls : List (Scheme × Url)) (u : Url) (hends : c.ends .controller = [(id, urls)])
    (hu : messenger urls = some (.http u)) (msg : Bytes) (s : SP Id Url) :
    dispatch c pick msg s =
      ({ s with mgrs := s.mgrs ++ [⟨id, .http u, some (if c.essr then c.sealed id msg else msg)⟩] },
        .mgrs (s.mgrs ++ [⟨id, .http u, some (if c.essr then c.sealed id msg else msg)⟩])) := by
  unfold dispatch
  rw [hends]
  simp [direct, streamer, hu]

/-- **C219, partial.** To somebody with one controller, with HTTP, and with events that fit: all bytes of all events are sent, in order, in chunks that
are not larger than allowed. Missing: other endpoints, events that do not fit. -/
theorem c219_delivered_partial (c : Cfg Id Url) (pick : Nat) (id : Id) (urls : List (Scheme × Url)) (u : Url) (hends : c.ends .controller = [(id, urls)])
    (hu : messenger urls = some (.http u)) (n : Nat) (evts : List Evt) (hn : evts.length ≤ n) (hf : ∀ e ∈ evts, fits c e) (s : SP Id Url)
    (doers : List (Mgr Id Url)) :
    ∃ parts : List Bytes,
      deliverAll c pick n s doers evts =
        .done { s with mgrs := s.mgrs ++ parts.map (fun p => ⟨id, .http u, some (if c.essr then c.sealed id (c.head ++ p) else p)⟩) }
          (doers ++ tally s.mgrs (parts.map (fun p => ⟨id, .http u, some (if c.essr then c.sealed id (c.head ++ p) else p)⟩))) ∧
      parts.flatten = evts.flatMap Evt.bytes ∧ (c.essr = true → ∀ p ∈ parts, c.head.length + p.length ≤ limit) := by
  induction n generalizing evts s doers with
  | zero =>
    have : evts = [] := List.length_eq_zero_iff.1 (Nat.le_zero.1 hn)
    subst this
    exact ⟨[], by simp [deliverAll, tally], rfl, by simp⟩
  | succ n ih =>
    cases evts with
    | nil => exact ⟨[], by simp [deliverAll, tally], rfl, by simp⟩
    | cons e r =>
      rw [deliverAll]
      obtain ⟨t, rest, h1, h2, h3, h4⟩ := cut_spec c (e :: r)
      have hp : rest.length ≤ n := by
        have h5 : (cut c (e :: r)).2.length ≤ r.length := by
          unfold cut
          have := hf e List.mem_cons_self
          refine fill_progress _ e r ?_ _
          unfold fits at this
          cases c.essr <;> simp <;> omega
        rw [h2] at h5
        simp at hn
        exact Nat.le_trans h5 hn
      have ht : t ≠ [] := by
        rintro rfl
        simp at h1
        rw [← h1] at hp
        have h5 : (cut c (e :: r)).2.length ≤ r.length := by
          unfold cut
          have := hf e List.mem_cons_self
          refine fill_progress _ e r ?_ _
          unfold fits at this
          cases c.essr <;> simp <;> omega
        rw [h2, ← h1] at h5
        simp at h5
        omega
      have hfr : ∀ x ∈ rest, fits c x := fun x hx => hf x (by rw [h1]; exact List.mem_append_right _ hx)
      unfold chunk
      rw [h2]
      dsimp only
      by_cases hm : ((if c.essr then c.head else []) ++ t.flatMap Evt.bytes).isEmpty = true
      · rw [if_pos hm]
        dsimp only
        obtain ⟨parts, h6, h7, h8⟩ := ih rest hp hfr s (doers ++ [])
        have hm' : t.flatMap Evt.bytes = [] := by
          rw [List.isEmpty_iff, List.append_eq_nil_iff] at hm
          exact hm.2
        refine ⟨parts, by rw [h6]; simp, ?_, h8⟩
        rw [h1, List.flatMap_append, hm', h7]
        rfl
      · rw [if_neg hm, dispatch_one c pick id urls u hends hu]
        dsimp only
        obtain ⟨parts, h6, h7, h8⟩ := ih rest hp hfr
          { s with mgrs := s.mgrs ++ [⟨id, .http u, some (if c.essr then c.sealed id ((if c.essr then c.head else []) ++ t.flatMap Evt.bytes)
            else (if c.essr then c.head else []) ++ t.flatMap Evt.bytes)⟩] }
          (doers ++ (s.mgrs ++ [⟨id, .http u, some (if c.essr then c.sealed id ((if c.essr then c.head else []) ++ t.flatMap Evt.bytes)
            else (if c.essr then c.head else []) ++ t.flatMap Evt.bytes)⟩]))
        refine ⟨t.flatMap Evt.bytes :: parts, ?_, ?_, ?_⟩
        · rw [h6]
          cases hE : c.essr <;> simp [tally]
        · rw [List.flatten_cons, h7, h1, List.flatMap_append]
        · intro hE p hpm
          rcases List.mem_cons.1 hpm with rfl | hpm
          · exact h4 hE ht
          · exact h8 hE p hpm

/-- **C219 fails**: with more than one chunk some messengers are returned, and so run, more than once. -/
theorem c219_duplicates (c : Cfg Id Url) (pick : Nat) (hE : c.essr = true) (id : Id) (urls : List (Scheme × Url)) (u : Url)
    (hends : c.ends .controller = [(id, urls)]) (hu : messenger urls = some (.http u)) (evts : List Evt) (hf : ∀ e ∈ evts, fits c e)
    (hh : c.head.length ≤ limit) (hb : limit < c.head.length + (evts.flatMap Evt.bytes).length) :
    ∃ s doers, deliverAll c pick evts.length ⟨[], []⟩ [] evts = .done s doers ∧ s.mgrs.length < doers.length := by
  obtain ⟨parts, h1, h2, h3⟩ := c219_delivered_partial c pick id urls u hends hu evts.length evts (Nat.le_refl _) hf ⟨[], []⟩ []
  refine ⟨_, _, h1, ?_⟩
  have h3 := h3 hE
  match parts, h2, h3 with
  | [], h2, _ =>
    simp only [List.flatten_nil] at h2
    rw [← h2] at hb
    simp at hb
    omega
  | [p], h2, h3 =>
    have := h3 p List.mem_cons_self
    simp at h2
    rw [h2] at this
    omega
  | p :: q :: r, _, _ =>
    simp only [List.nil_append, List.map_cons]
    exact tally_more _ _ _

/-- Two events of 9000 bytes. -/
example (a b : Bytes) (ha : a.length = 9000) (hb : b.length = 9000) (c : Cfg Nat Nat) (hE : c.essr = true) (hh : c.head.length = 100)
    (he : c.ends .controller = [(1, [(.http, 80)])]) :
    ∃ s doers, deliverAll c 0 2 ⟨[], []⟩ [] [⟨a, none⟩, ⟨b, none⟩] = .done s doers ∧ s.mgrs.length < doers.length :=
  c219_duplicates c 0 hE 1 [(.http, 80)] 80 he (by decide) [⟨a, none⟩, ⟨b, none⟩]
    (by
      intro e he
      simp only [List.mem_cons, List.not_mem_nil, or_false] at he
      rcases he with rfl | rfl <;> simp [fits, Evt.bytes, limit, ha, hb, hh])
    (by rw [hh]; decide)
    (by simp [Evt.bytes, limit, ha, hb, hh])

/-! ## To whom -/

theorem direct_to (c : Cfg Id Url) (msg : Bytes) (l : Locs Id Url) (P : Mgr Id Url → Prop)
    (hP : ∀ e urls b m, (e, urls) ∈ l → streamer e urls b = some m → P m) (s : SP Id Url) (hs : ∀ m ∈ s.mgrs, P m) :
    ∀ m ∈ (direct c msg s l).1.mgrs, P m := by
  induction l generalizing s with
  | nil => exact hs
  | cons x l ih =>
    obtain ⟨e, urls⟩ := x
    rw [direct]
    split
    · exact hs
    · rename_i m hm
      refine ih (fun e' u' b m' h1 => hP e' u' b m' (List.mem_cons_of_mem _ h1)) _ ?_
      intro m' hm'
      rcases List.mem_append.1 hm' with hm' | hm'
      · exact hs m' hm'
      · rw [List.mem_singleton.1 hm']
        exact hP e urls _ m List.mem_cons_self hm

theorem relay_to (c : Cfg Id Url) (pick : Nat) (msg : Bytes) (l : Locs Id Url) (P : Mgr Id Url → Prop)
    (hP : ∀ e urls b m, (e, urls) ∈ l → streamer e urls b = some m → P m) (s : SP Id Url) (hs : ∀ m ∈ s.mgrs, P m) :
    ∀ m ∈ (relay c pick msg s l).1.mgrs, P m := by
  unfold relay
  split
  · exact hs
  · split
    · exact hs
    · rename_i m urls hm
      split
      · exact hs
      · split
        · exact hs
        · rename_i x hx
          intro m' hm'
          rcases List.mem_append.1 hm' with hm' | hm'
          · exact hs m' hm'
          · rw [List.mem_singleton.1 hm']
            exact hP m urls _ x (List.mem_of_getElem? hm) hx

/-- The endpoints that chunks go to: those of the first of these roles that has any. -/
def targets (c : Cfg Id Url) : Locs Id Url :=
  if c.ends .controller ≠ [] then c.ends .controller
  else if c.ends .agent ≠ [] then c.ends .agent
  else if c.ends .mailbox ≠ [] then c.ends .mailbox
  else c.ends .witness

theorem dispatch_to (c : Cfg Id Url) (pick : Nat) (msg : Bytes) (P : Mgr Id Url → Prop)
    (hP : ∀ e urls b m, (e, urls) ∈ targets c → streamer e urls b = some m → P m) (s : SP Id Url) (hs : ∀ m ∈ s.mgrs, P m) :
    ∀ m ∈ (dispatch c pick msg s).1.mgrs, P m := by
  unfold dispatch
  unfold targets at hP
  split
  · rename_i h1
    rw [if_pos (by simpa using h1)] at hP
    exact direct_to c msg _ P hP s hs
  · rename_i h1
    rw [if_neg (by simpa using h1)] at hP
    split
    · rename_i h2
      rw [if_pos (by simpa using h2)] at hP
      exact direct_to c msg _ P hP s hs
    · rename_i h2
      rw [if_neg (by simpa using h2)] at hP
      split
      · rename_i h3
        rw [if_pos (by simpa using h3)] at hP
        exact relay_to c pick msg _ P hP s hs
      · rename_i h3
        rw [if_neg (by simpa using h3)] at hP
        split
        · exact relay_to c pick msg _ P hP s hs
        · exact hs

theorem deliverAll_to (c : Cfg Id Url) (pick : Nat) (P : Mgr Id Url → Prop)
    (hP : ∀ e urls b m, (e, urls) ∈ targets c → streamer e urls b = some m → P m) (n : Nat) (s : SP Id Url) (doers : List (Mgr Id Url))
    (evts : List Evt) (hs : ∀ m ∈ s.mgrs, P m) (s' : SP Id Url) (d' : List (Mgr Id Url)) (hd : deliverAll c pick n s doers evts = .done s' d') :
    ∀ m ∈ s'.mgrs, P m := by
  induction n generalizing s doers evts with
  | zero =>
    cases evts with
    | nil => rw [deliverAll] at hd; cases hd; exact hs
    | cons x r => rw [deliverAll] at hd; cases hd
  | succ n ih =>
    cases evts with
    | nil => rw [deliverAll] at hd; cases hd; exact hs
    | cons x r =>
      rw [deliverAll] at hd
      have hk : ∀ m ∈ (chunk c pick s (x :: r)).1.mgrs, P m := by
        unfold chunk
        split
        rename_i msg rest hcut
        split
        · exact hs
        · have := dispatch_to c pick msg P hP s hs
          split <;> rename_i heq <;> rw [heq] at this <;> exact this
      split at hd
      · cases hd
      · rename_i s'' l rest heq
        rw [heq] at hk
        exact ih _ _ _ hk hd

/-- **C219 fails** for more than one role: only the endpoints of the first one, of controllers, agents, mailboxes and witnesses, are sent anything. -/
theorem c219_first_role (c : Cfg Id Url) (pick n : Nat) (evts : List Evt) (s : SP Id Url) (doers : List (Mgr Id Url))
    (hd : deliverAll c pick n ⟨[], []⟩ [] evts = .done s doers) (m : Mgr Id Url) (hm : m ∈ s.mgrs) : ∃ urls, (m.to, urls) ∈ targets c := by
  refine deliverAll_to c pick (fun m => ∃ urls, (m.to, urls) ∈ targets c) ?_ n _ _ evts (by intro m hm; cases hm) s doers hd m hm
  intro e urls b m h1 h2
  unfold streamer at h2
  split at h2 <;> cases h2 <;> exact ⟨urls, h1⟩

/-- **C219 fails** for endpoints with TCP only: nothing is sent to them. -/
theorem c219_tcp (c : Cfg Id Url) (pick n : Nat) (evts : List Evt) (s : SP Id Url) (doers : List (Mgr Id Url))
    (hd : deliverAll c pick n ⟨[], []⟩ [] evts = .done s doers) (m : Mgr Id Url) (hm : m ∈ s.mgrs) :
    m.msg = none ↔ ∃ u, m.via = .tcp u := by
  refine deliverAll_to c pick (fun m => m.msg = none ↔ ∃ u, m.via = .tcp u) ?_ n _ _ evts (by intro m hm; cases hm) s doers hd m hm
  intro e urls b m h1 h2
  unfold streamer at h2
  split at h2 <;> cases h2 <;> simp

/-! ## What -/

/-- **C219.** What is for a controller or an agent, of somebody who has no mailbox, is queued as it is. -/
theorem c219_queued (c : Cfg Id Url) (e : Evt) (hm : c.ends .mailbox = []) (hc : c.ends .controller ≠ [] ∨ c.ends .agent ≠ []) : send c e = .queued e := by
  unfold send
  rw [if_pos, if_pos]
  · simp [hm]
  · simp
    rcases hc with h | h
    · exact .inl (.inl h)
    · exact .inl (.inr h)

/-- **C219 fails** for somebody who has a mailbox and a controller or an agent: what is sent to these is not the message, but that which is made for the
mailbox to forward. -/
theorem c219_wrapped (c : Cfg Id Url) (e : Evt) (a : Bytes) (ha : e.atc = some a) (hm : c.ends .mailbox ≠ []) :
    ∃ f, send c e = .queued f ∧ f.bytes = (c.wrap (e.raw ++ a)).1 ++ ((c.wrap (e.raw ++ a)).1 ++ (c.wrap (e.raw ++ a)).2) := by
  unfold send
  have hm' : (c.ends .mailbox).isEmpty = false := by simpa using hm
  rw [hm', if_pos (by simp), if_neg (by simp)]
  unfold createForward
  rw [ha]
  exact ⟨_, rfl, rfl⟩

/-- **C219 fails** for messages without attachments that are to be relayed: an exception is raised. -/
theorem c219_no_attachment (c : Cfg Id Url) (e : Evt) (ha : e.atc = none)
    (hm : c.ends .mailbox ≠ [] ∨ (c.ends .controller = [] ∧ c.ends .agent = [] ∧ c.ends .witness ≠ [])) : send c e = .typeError := by
  have hf : createForward c e = none := by unfold createForward; rw [ha]
  unfold send
  rw [hf]
  by_cases hx : c.ends .mailbox = []
  · rcases hm with h | ⟨h1, h2, h3⟩
    · exact absurd hx h
    · simp [hx, h1, h2, h3]
  · simp [hx]

/-- What is sent to a controller who has a mailbox too: twice the forward ([7], the second time with its signature [8]), not the message. -/
theorem c219_wrapped_witness :
    deliverAll (Id := Nat) (Url := Nat)
      ⟨false, [], ⟨0, [], 9, [], fun _ => false, fun _ => false⟩, false, fun r => match r with
        | .controller => [(1, [(.http, 80)])]
        | .mailbox => [(2, [(.http, 81)])]
        | _ => [], fun _ => ([7], [8]), fun _ b => b, []⟩ 0 1 ⟨[], []⟩ [] [⟨[7], some [7, 8]⟩] =
      .done ⟨[⟨1, .http 80, some [7, 7, 8]⟩], []⟩ [⟨1, .http 80, some [7, 7, 8]⟩] ∧
    send (Id := Nat) (Url := Nat)
      ⟨false, [], ⟨0, [], 9, [], fun _ => false, fun _ => false⟩, false, fun r => match r with
        | .controller => [(1, [(.http, 80)])]
        | .mailbox => [(2, [(.http, 81)])]
        | _ => [], fun _ => ([7], [8]), fun _ b => b, []⟩ ⟨[1], some [2]⟩ = .queued ⟨[7], some [7, 8]⟩ := by
  decide +kernel

/-- **C219 fails** for a mailbox that is here: stored is not the message ([1, 2]), but what is made to be forwarded. -/
theorem c219_own_mailbox :
    (match send (Id := Nat) (Url := Nat)
        ⟨false, [], ⟨0, [], 9, [], fun _ => false, fun i => decide (i = 2)⟩, true, fun r => match r with | .mailbox => [(2, [(.http, 81)])] | _ => [],
          fun _ => ([7], [8]), fun _ b => b, []⟩ ⟨[1], some [2]⟩ with
      | .queued f => deliverAll
        ⟨false, [], ⟨0, [], 9, [], fun _ => false, fun i => decide (i = 2)⟩, true, fun r => match r with | .mailbox => [(2, [(.http, 81)])] | _ => [],
          fun _ => ([7], [8]), fun _ b => b, []⟩ 0 1 ⟨[], []⟩ [] [f]
      | _ => .running) = .done ⟨[], [[7, 7, 8]]⟩ [] := by
  decide +kernel

/-- **C219**, what a relay is given: over HTTP, the log of the sender if it is introduced, and the chunk, sealed for the relay in ESSR mode; a mailbox here keeps the
chunk without what it begins with in ESSR mode. -/
theorem c219_relayed (c : Cfg Id Url) (pick : Nat) (msg : Bytes) (s : SP Id Url) (hc : c.ends .controller = []) (ha : c.ends .agent = []) {x : List (Mgr Id Url)}
    (h : (dispatch c pick msg s).2 = .mgrs x) (ht : targets c ≠ []) :
    (c.mbx = true ∧ (∃ e ∈ targets c, c.hab.own e.1 = true) ∧ x = [] ∧ (dispatch c pick msg s).1.mgrs = s.mgrs ∧
      ((c.essr = false ∧ (dispatch c pick msg s).1.kept = s.kept ++ [msg]) ∨
       (c.essr = true ∧ (dispatch c pick msg s).1.kept = s.kept ++ [msg.drop c.head.length]))) ∨
    ((¬∃ e ∈ targets c, c.mbx = true ∧ c.hab.own e.1 = true) ∧ (dispatch c pick msg s).1.kept = s.kept ∧ ∃ e urls i via, (e, urls) ∈ targets c ∧
      messenger urls = some via ∧ introduces c.hab e = some i ∧
      ∀ u, via = .http u →
        x = s.mgrs ++ [⟨e, via, some ((if i then c.intro else []) ++ (if c.essr then c.sealed e msg else msg))⟩] ∧ (dispatch c pick msg s).1.mgrs = x) := by
  have key : dispatch c pick msg s = relay c pick msg s (targets c) := by
    unfold dispatch targets at *
    simp only [hc, ha, List.isEmpty_nil, Bool.not_true, Bool.false_eq_true, if_false, ne_eq, not_true] at *
    by_cases hm : c.ends .mailbox = []
    · simp only [hm, List.isEmpty_nil, Bool.not_true, Bool.false_eq_true, if_false, not_true] at *
      by_cases hw : c.ends .witness = []
      · simp [hw] at ht
      · simp [hw]
    · simp [hm]
  rw [key] at h ⊢
  unfold relay at h ⊢
  by_cases ho : (c.mbx && (targets c).any (fun e => c.hab.own e.1)) = true
  · rw [if_pos ho] at h ⊢
    simp only [Bool.and_eq_true, List.any_eq_true] at ho
    simp only [Ret.mgrs.injEq] at h
    refine .inl ⟨ho.1, ho.2, h.symm, rfl, ?_⟩
    cases he : c.essr <;> simp
  · rw [if_neg ho] at h ⊢
    refine .inr ⟨fun ⟨e, he, h1, h2⟩ => ho (by simp only [h1, Bool.true_and, List.any_eq_true]; exact ⟨e, he, h2⟩), ?_⟩
    cases hg : (targets c)[pick % (targets c).length]? with
    | none => rw [hg] at h; simp at h
    | some p =>
      obtain ⟨e, urls⟩ := p
      rw [hg] at h
      dsimp only at h ⊢
      cases hi : introduces c.hab e with
      | none => rw [hi] at h; simp at h
      | some i =>
        rw [hi] at h
        dsimp only at h ⊢
        cases hv : messenger urls with
        | none => simp only [streamer, hv] at h; simp at h
        | some via =>
          cases via with
          | http u =>
            simp only [streamer, hv, Ret.mgrs.injEq] at h ⊢
            exact ⟨trivial, e, urls, i, _, List.mem_of_getElem? hg, hv, hi, fun _ _ => ⟨h.symm, h⟩⟩
          | tcp u =>
            simp only [streamer, hv, Ret.mgrs.injEq] at h ⊢
            exact ⟨trivial, e, urls, i, _, List.mem_of_getElem? hg, hv, hi, fun _ e => (by cases e)⟩

/-- The hypotheses of `c219_relayed` hold of a mailbox that is not here. -/
example : (dispatch (Id := Nat) (Url := Nat)
    ⟨true, [], ⟨0, [], 9, [], fun _ => false, fun _ => false⟩, false, fun r => match r with | .mailbox => [(2, [(.http, 81)])] | _ => [], fun _ => ([7], [8]),
      fun _ b => 5 :: b, [3]⟩ 0 [1] ⟨[], []⟩).2 = .mgrs [⟨2, .http 81, some [3, 5, 1]⟩] := by
  rfl

end Verif.Fwd
