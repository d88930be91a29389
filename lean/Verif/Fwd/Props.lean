import Verif.Fwd.Model
import Verif.Ends.Props

/-! # Sending messages on: what is posted, and what is reported -/

namespace Verif.Fwd

open Verif.Ends

variable {Id Url : Type} [DecidableEq Id]

/-! ## C217: one request -/

theorem urlOf_none (urls : List (Scheme × Url)) (s : Scheme) : urlOf urls s = none ↔ ∀ u, (s, u) ∉ urls := by
  unfold urlOf
  rw [Option.map_eq_none_iff, List.find?_eq_none]
  constructor
  · intro h u hu; exact h _ hu (by simp)
  · intro h p hp hs
    have : p.1 = s := by simpa using hs
    exact h p.2 (by rw [← this]; exact hp)

theorem urlOf_some (urls : List (Scheme × Url)) (s : Scheme) (u : Url) (h : urlOf urls s = some u) : (s, u) ∈ urls := by
  unfold urlOf at h
  rw [Option.map_eq_some_iff] at h
  obtain ⟨p, h1, rfl⟩ := h
  have h2 := List.find?_some h1
  have h3 : p.1 = s := by simpa using h2
  rw [← h3]
  exact List.mem_of_find?_eq_some h1

/-- **C217.** There is a way to send whenever there is any URL. -/
theorem c217_reachable (urls : List (Scheme × Url)) : messenger urls = none ↔ urls = [] := by
  constructor
  · intro h
    unfold messenger at h
    split at h <;> try cases h
    rename_i h1 h2 h3
    rw [urlOf_none] at h1 h2 h3
    cases urls with
    | nil => rfl
    | cons p r =>
      obtain ⟨s, u⟩ := p
      cases s
      · exact absurd List.mem_cons_self (h3 u)
      · exact absurd List.mem_cons_self (h2 u)
      · exact absurd List.mem_cons_self (h1 u)
  · rintro rfl; rfl

/-- **C217.** TCP is used only when there is no URL of HTTP or HTTPS, and HTTP only when there is none of HTTPS. -/
theorem c217_scheme (urls : List (Scheme × Url)) (v : Via Url) (h : messenger urls = some v) :
    (∃ u, (Scheme.https, u) ∈ urls ∧ v = .http u) ∨ (∃ u, (Scheme.http, u) ∈ urls ∧ v = .http u ∧ ∀ x, (Scheme.https, x) ∉ urls) ∨
      (∃ u, (Scheme.tcp, u) ∈ urls ∧ v = .tcp u ∧ (∀ x, (Scheme.https, x) ∉ urls) ∧ ∀ x, (Scheme.http, x) ∉ urls) := by
  unfold messenger at h
  split at h
  · rename_i u _ _ h1
    cases h; exact .inl ⟨_, urlOf_some _ _ _ h1, rfl⟩
  · rename_i h1 h2
    cases h; exact .inr (.inl ⟨_, urlOf_some _ _ _ h2, rfl, (urlOf_none _ _).1 h1⟩)
  · rename_i h1 h2 h3
    cases h; exact .inr (.inr ⟨_, urlOf_some _ _ _ h3, rfl, (urlOf_none _ _).1 h1, (urlOf_none _ _).1 h2⟩)
  · cases h

theorem sendDirect_acts (q : Req Id) (l : Locs Id Url) (as : List (Act Id Url)) (r : Res) (h : sendDirect q l = (as, r)) (a : Act Id Url) (ha : a ∈ as) :
    ∃ c urls v, (c, urls) ∈ l ∧ messenger urls = some v ∧ a = .direct c v q.msg := by
  induction l generalizing as r with
  | nil => rw [sendDirect] at h; cases h; cases ha
  | cons e l ih =>
    obtain ⟨c, urls⟩ := e
    rw [sendDirect] at h
    split at h
    · cases h; cases ha
    · rename_i v hv
      split at h
      rename_i as' res hs
      cases h
      rcases List.mem_cons.1 ha with rfl | ha
      · exact ⟨c, urls, v, List.mem_cons_self, hv, rfl⟩
      · obtain ⟨c', u', v', h1, h2⟩ := ih _ _ hs ha
        exact ⟨c', u', v', List.mem_cons_of_mem _ h1, h2⟩

theorem sendDirect_ok (q : Req Id) (l : Locs Id Url) (as : List (Act Id Url)) (h : sendDirect q l = (as, .ok)) (c : Id) (urls : List (Scheme × Url))
    (hc : (c, urls) ∈ l) : ∃ v, messenger urls = some v ∧ .direct c v q.msg ∈ as := by
  induction l generalizing as with
  | nil => cases hc
  | cons e l ih =>
    obtain ⟨c', urls'⟩ := e
    rw [sendDirect] at h
    split at h
    · cases h
    · rename_i v hv
      split at h
      rename_i as' res hs
      cases h
      rcases List.mem_cons.1 hc with hc | hc
      · cases hc; exact ⟨v, hv, List.mem_cons_self⟩
      · obtain ⟨v', h1, h2⟩ := ih _ hs hc
        exact ⟨v', h1, List.mem_cons_of_mem _ h2⟩

theorem sendDirect_res (q : Req Id) (l : Locs Id Url) : (sendDirect q l).2 = .ok ∨ (sendDirect q l).2 = .config := by
  induction l with
  | nil => exact .inl rfl
  | cons e l ih =>
    obtain ⟨c', urls'⟩ := e
    rw [sendDirect]
    split
    · exact .inr rfl
    · exact ih

/-- The endpoints one of which is to relay a message: mailboxes, or witnesses if there is nobody else. -/
def relays (ends : Role → Locs Id Url) : Locs Id Url :=
  if ends .mailbox ≠ [] then ends .mailbox
  else if ends .controller = [] ∧ ends .agent = [] then ends .witness
  else []

/-- Is it posted to the endpoint itself. -/
def Act.isDirect : Act Id Url → Bool
  | .direct .. => true
  | _ => false

/-- What a delivery without exception did: messages to all controllers and agents, and one relay. -/
theorem deliverOne_ok (h : Hab Id) (mbx : Bool) (ends : Role → Locs Id Url) (q : Req Id) (as : List (Act Id Url))
    (hd : deliverOne h mbx ends q = (as, .ok)) :
    ∃ x y z, as = x ++ y ++ z ∧ sendDirect q (ends .controller) = (x, .ok) ∧ sendDirect q (ends .agent) = (y, .ok) ∧
      ((relays ends = [] ∧ z = []) ∨ (relays ends ≠ [] ∧ forward h mbx q (relays ends) = (z, .ok))) := by
  unfold deliverOne at hd
  split at hd
  · rename_i hr
    cases hx : sendDirect q (ends .controller) with
    | mk x rx =>
      rw [hx] at hd
      cases rx <;> simp only [andThen] at hd <;> try (cases hd)
      cases hy : sendDirect q (ends .agent) with
      | mk y ry =>
        rw [hy] at hd
        cases ry <;> simp only [andThen] at hd <;> try (exfalso; simp at hd; done)
        by_cases hm : ends .mailbox = []
        · have hrel : relays ends = [] := by
            unfold relays
            rw [if_neg (by simp [hm]), if_neg]
            rintro ⟨h1, h2⟩
            simp [h1, h2, hm] at hr
          simp [hm] at hd
          exact ⟨x, y, [], by simp [hd], rfl, rfl, .inl ⟨hrel, rfl⟩⟩
        · have hrel : relays ends = ends .mailbox := by
            unfold relays
            rw [if_pos hm]
          have hm' : (ends .mailbox).isEmpty = false := by simpa using hm
          rw [hm'] at hd
          simp only [Bool.false_eq_true, if_false] at hd
          cases hf : forward h mbx q (ends .mailbox) with
          | mk z rz =>
            rw [hf] at hd
            simp only [Prod.mk.injEq] at hd
            obtain ⟨h1, rfl⟩ := hd
            refine ⟨x, y, z, by simp [← h1], rfl, rfl, .inr ⟨by rw [hrel]; exact hm, by rw [hrel, hf]⟩⟩
  · rename_i hr
    have hr' : ends .controller = [] ∧ ends .agent = [] ∧ ends .mailbox = [] := by
      simp at hr
      exact ⟨hr.1.1, hr.1.2, hr.2⟩
    obtain ⟨h1, h2, h3⟩ := hr'
    have hrel : relays ends = ends .witness := by
      unfold relays
      rw [if_neg (by simp [h3]), if_pos ⟨h1, h2⟩]
    split at hd
    · rename_i hw
      refine ⟨[], [], as, rfl, by rw [h1]; rfl, by rw [h2]; rfl, .inr ⟨?_, by rw [hrel]; exact hd⟩⟩
      rw [hrel]
      simpa using hw
    · cases hd

theorem forward_acts (h : Hab Id) (mbx : Bool) (q : Req Id) (l : Locs Id Url) (z : List (Act Id Url)) (hf : forward h mbx q l = (z, .ok)) :
    (∃ e urls, (e, urls) ∈ l ∧ h.own e = true ∧ mbx = true ∧ z = [.store q.dest q.topic (q.raw ++ q.atc.getD [])]) ∨
    (∃ e urls v i, (e, urls) ∈ l ∧ introduces h e = some i ∧ messenger urls = some v ∧ q.atc.isSome = true ∧
      z = [.forward e v i q.dest q.topic (q.raw ++ q.atc.getD [])]) := by
  unfold forward at hf
  split at hf
  · rename_i ho
    cases hf
    rw [Bool.and_eq_true, List.any_eq_true] at ho
    obtain ⟨h1, ⟨e, urls⟩, h2, h3⟩ := ho
    exact .inl ⟨e, urls, h2, h3, h1, rfl⟩
  · split at hf
    · cases hf
    · rename_i m urls hm
      split at hf
      · cases hf
      · rename_i i hi
        split at hf
        · cases hf
        · rename_i a ha
          split at hf
          · cases hf
          · rename_i v hv
            cases hf
            exact .inr ⟨m, urls, v, i, List.mem_of_getElem? hm, hi, hv, by rw [ha]; rfl, by rw [ha]; rfl⟩

/-- **C217.** Of a delivery reported, every controller and agent with an endpoint was sent the message with its attachment, and nobody else directly. -/
theorem c217_direct (h : Hab Id) (mbx : Bool) (ends : Role → Locs Id Url) (q : Req Id) (as : List (Act Id Url))
    (hd : deliverOne h mbx ends q = (as, .ok)) :
    (∀ c urls, (c, urls) ∈ ends .controller ∨ (c, urls) ∈ ends .agent → ∃ v, messenger urls = some v ∧ .direct c v (q.raw ++ q.atc.getD []) ∈ as) ∧
    (∀ c v m, .direct c v m ∈ as → m = q.raw ++ q.atc.getD [] ∧ ∃ urls, ((c, urls) ∈ ends .controller ∨ (c, urls) ∈ ends .agent) ∧ messenger urls = some v) := by
  obtain ⟨x, y, z, rfl, hx, hy, hz⟩ := deliverOne_ok h mbx ends q as hd
  refine ⟨?_, ?_⟩
  · rintro c urls (hc | hc)
    · obtain ⟨v, h1, h2⟩ := sendDirect_ok q _ _ hx c urls hc
      exact ⟨v, h1, by simp [Req.msg] at h2 ⊢; simp [h2]⟩
    · obtain ⟨v, h1, h2⟩ := sendDirect_ok q _ _ hy c urls hc
      exact ⟨v, h1, by simp [Req.msg] at h2 ⊢; simp [h2]⟩
  · intro c v m hm
    rcases List.mem_append.1 hm with hm | hm
    · rcases List.mem_append.1 hm with hm | hm
      · obtain ⟨c', u', v', h1, h2, h3⟩ := sendDirect_acts q _ _ _ hx _ hm
        cases h3; exact ⟨rfl, u', .inl h1, h2⟩
      · obtain ⟨c', u', v', h1, h2, h3⟩ := sendDirect_acts q _ _ _ hy _ hm
        cases h3; exact ⟨rfl, u', .inr h1, h2⟩
    · rcases hz with ⟨_, rfl⟩ | ⟨_, hz⟩
      · cases hm
      · rcases forward_acts h mbx q _ z hz with ⟨_, _, _, _, _, rfl⟩ | ⟨_, _, _, _, _, _, _, _, rfl⟩ <;> simp at hm

/-- **C217.** Of a delivery reported, one mailbox, or one witness if there is no other endpoint, was given the message to keep for the recipient under the
topic, or it was stored here, if one of these is here. -/
theorem c217_relayed (h : Hab Id) (mbx : Bool) (ends : Role → Locs Id Url) (q : Req Id) (as : List (Act Id Url))
    (hd : deliverOne h mbx ends q = (as, .ok)) :
    (relays ends = [] ∧ as.filter (fun a => !a.isDirect) = []) ∨
    (∃ e urls, (e, urls) ∈ relays ends ∧ h.own e = true ∧ mbx = true ∧
      as.filter (fun a => !a.isDirect) = [.store q.dest q.topic (q.raw ++ q.atc.getD [])]) ∨
    (∃ e urls v i, (e, urls) ∈ relays ends ∧ messenger urls = some v ∧ introduces h e = some i ∧
      as.filter (fun a => !a.isDirect) = [.forward e v i q.dest q.topic (q.raw ++ q.atc.getD [])]) := by
  obtain ⟨x, y, z, rfl, hx, hy, hz⟩ := deliverOne_ok h mbx ends q as hd
  have hfx : x.filter (fun a => !a.isDirect) = [] := by
    rw [List.filter_eq_nil_iff]
    intro a ha
    obtain ⟨c', u', v', h1, h2, rfl⟩ := sendDirect_acts q _ _ _ hx _ ha
    simp [Act.isDirect]
  have hfy : y.filter (fun a => !a.isDirect) = [] := by
    rw [List.filter_eq_nil_iff]
    intro a ha
    obtain ⟨c', u', v', h1, h2, rfl⟩ := sendDirect_acts q _ _ _ hy _ ha
    simp [Act.isDirect]
  rw [List.filter_append, List.filter_append, hfx, hfy, List.nil_append, List.nil_append]
  rcases hz with ⟨h1, rfl⟩ | ⟨_, hz⟩
  · exact .inl ⟨h1, rfl⟩
  · rcases forward_acts h mbx q _ z hz with ⟨e, urls, h1, h2, h3, rfl⟩ | ⟨e, urls, v, i, h1, h2, h3, _, rfl⟩
    · exact .inr (.inl ⟨e, urls, h1, h2, h3, rfl⟩)
    · exact .inr (.inr ⟨e, urls, v, i, h1, h3, h2, rfl⟩)

/-- A controller, an agent and a mailbox: all three are sent to. -/
example :
    deliverOne (Id := Nat) (Url := Nat) ⟨0, [], 9, [], fun _ => false, fun _ => false⟩ false
      (fun r => match r with | .controller => [(1, [(.http, 80)])] | .agent => [(2, [(.tcp, 7)])] | .mailbox => [(3, [(.https, 443), (.http, 80)])] | _ => [])
      ⟨1, 5, 77, [1, 2], some [3], 0⟩ =
    ([.direct 1 (.http 80) [1, 2, 3], .direct 2 (.tcp 7) [1, 2, 3], .forward 3 (.http 443) true 1 5 [1, 2, 3]], .ok) := by
  decide +kernel

/-- **C217 fails** for messages without attachments: there is no relaying them, unless the relay is here. -/
theorem c217_no_attachment (h : Hab Id) (ends : Role → Locs Id Url) (q : Req Id) (hq : q.atc = none) (hr : relays ends ≠ []) :
    (deliverOne h false ends q).2 ≠ .ok := by
  intro hk
  obtain ⟨x, y, z, _, _, _, hz⟩ := deliverOne_ok h false ends q (deliverOne h false ends q).1 (by rw [← hk])
  rcases hz with ⟨h1, _⟩ | ⟨_, hz⟩
  · exact hr h1
  · rcases forward_acts h false q _ z hz with ⟨_, _, _, _, h3, _⟩ | ⟨_, _, _, _, _, _, _, h3, _⟩
    · cases h3
    · rw [hq] at h3; cases h3

/-- **C217 fails** for mailboxes with a transferable identifier that are not one's own witness: there is no relaying to them. -/
theorem c217_transferable (h : Hab Id) (ends : Role → Locs Id Url) (q : Req Id) (hr : relays ends ≠ [])
    (ht : ∀ e urls, (e, urls) ∈ relays ends → h.trans e = true ∧ e ∉ h.wits) : (deliverOne h false ends q).2 ≠ .ok := by
  intro hk
  obtain ⟨x, y, z, _, _, _, hz⟩ := deliverOne_ok h false ends q (deliverOne h false ends q).1 (by rw [← hk])
  rcases hz with ⟨h1, _⟩ | ⟨_, hz⟩
  · exact hr h1
  · rcases forward_acts h false q _ z hz with ⟨_, _, _, _, h3, _⟩ | ⟨e, urls, v, i, h1, h2, _⟩
    · cases h3
    · have := ht e urls h1
      unfold introduces at h2
      rw [if_neg this.2, if_pos this.1] at h2
      cases h2

/-- **C217 fails**: an agent without a URL keeps a mailbox from being sent to, and the delivery from being reported, though a controller has the message
by then. -/
theorem c217_config :
    deliver (Id := Nat) (Url := Nat) ⟨0, [], 9, [], fun _ => false, fun _ => false⟩ false
      (fun _ r => match r with | .controller => [(1, [(.http, 80)])] | .agent => [(2, [])] | .mailbox => [(3, [(.http, 80)])] | _ => [])
      [⟨1, 5, 77, [1, 2], some [3], 0⟩] = ⟨[.direct 1 (.http 80) [1, 2, 3]], [], true⟩ := by
  decide +kernel

/-! ## C218: all requests -/

/-- Does it raise an exception that nobody catches. -/
def Res.fatal (r : Res) : Prop := r = .attrError ∨ r = .typeError

theorem turn_alive (h : Hab Id) (mbx : Bool) (ends : Id → Role → Locs Id Url) (o : Out Id Url) (q : Req Id) (ho : o.alive = true)
    (hf : ¬ (deliverOne h mbx (ends q.dest) q).2.fatal) :
    turn h mbx ends o q =
      ⟨o.acts ++ (deliverOne h mbx (ends q.dest) q).1,
        o.cues ++ (if (deliverOne h mbx (ends q.dest) q).2 = .ok then [q.said] else []), true⟩ := by
  unfold turn
  rw [if_pos ho]
  cases hd : deliverOne h mbx (ends q.dest) q with
  | mk as r =>
    rw [hd] at hf
    cases r <;> simp [Res.fatal] at hf ⊢ <;> exact ho

theorem deliver_from (h : Hab Id) (mbx : Bool) (ends : Id → Role → Locs Id Url) (qs : List (Req Id)) (o : Out Id Url) (ho : o.alive = true)
    (hf : ∀ q ∈ qs, ¬ (deliverOne h mbx (ends q.dest) q).2.fatal) :
    qs.foldl (turn h mbx ends) o =
      ⟨o.acts ++ qs.flatMap (fun q => (deliverOne h mbx (ends q.dest) q).1),
        o.cues ++ (qs.filter (fun q => (deliverOne h mbx (ends q.dest) q).2 = .ok)).map (·.said), true⟩ := by
  induction qs generalizing o with
  | nil => cases o; simp at ho ⊢; exact ho
  | cons q qs ih =>
    rw [List.foldl_cons, turn_alive h mbx ends o q ho (hf q List.mem_cons_self), ih _ rfl (fun q' hq' => hf q' (List.mem_cons_of_mem _ hq'))]
    by_cases hk : (deliverOne h mbx (ends q.dest) q).2 = .ok <;> simp [hk]

/-- **C218, partial.** Requests are served one after another, as each for itself, and those that end without an exception are reported, in order. Missing:
requests that raise an exception other than ConfigurationError. -/
theorem c218_partial (h : Hab Id) (mbx : Bool) (ends : Id → Role → Locs Id Url) (qs : List (Req Id))
    (hf : ∀ q ∈ qs, ¬ (deliverOne h mbx (ends q.dest) q).2.fatal) :
    deliver h mbx ends qs =
      ⟨qs.flatMap (fun q => (deliverOne h mbx (ends q.dest) q).1),
        (qs.filter (fun q => (deliverOne h mbx (ends q.dest) q).2 = .ok)).map (·.said), true⟩ := by
  unfold deliver
  rw [deliver_from h mbx ends qs _ rfl hf]
  simp

theorem dead (h : Hab Id) (mbx : Bool) (ends : Id → Role → Locs Id Url) (qs : List (Req Id)) (o : Out Id Url) (ho : o.alive = false) :
    qs.foldl (turn h mbx ends) o = o := by
  induction qs with
  | nil => rfl
  | cons q qs ih =>
    rw [List.foldl_cons]
    have : turn h mbx ends o q = o := by unfold turn; rw [ho]; rfl
    rw [this, ih]

/-- **C218 fails**: after a request that raises such an exception none is served. -/
theorem c218_stops (h : Hab Id) (mbx : Bool) (ends : Id → Role → Locs Id Url) (pre : List (Req Id)) (q : Req Id) (post : List (Req Id))
    (hf : ∀ q ∈ pre, ¬ (deliverOne h mbx (ends q.dest) q).2.fatal) (hq : (deliverOne h mbx (ends q.dest) q).2.fatal) :
    deliver h mbx ends (pre ++ q :: post) = deliver h mbx ends (pre ++ [q]) ∧ (deliver h mbx ends (pre ++ [q])).alive = false ∧
      (deliver h mbx ends (pre ++ [q])).cues = (deliver h mbx ends pre).cues := by
  have h1 : deliver h mbx ends (pre ++ [q]) = turn h mbx ends (deliver h mbx ends pre) q := by
    unfold deliver; rw [List.foldl_append]; rfl
  have ha : (deliver h mbx ends pre).alive = true := by rw [c218_partial h mbx ends pre hf]
  have h2 : (turn h mbx ends (deliver h mbx ends pre) q).alive = false ∧
      (turn h mbx ends (deliver h mbx ends pre) q).cues = (deliver h mbx ends pre).cues := by
    unfold turn
    rw [if_pos ha]
    cases hd : deliverOne h mbx (ends q.dest) q with
    | mk as r =>
      rw [hd] at hq
      cases r <;> simp [Res.fatal] at hq ⊢
  refine ⟨?_, by rw [h1]; exact h2.1, by rw [h1]; exact h2.2⟩
  rw [h1]
  have h3 : deliver h mbx ends (pre ++ q :: post) = post.foldl (turn h mbx ends) (turn h mbx ends (deliver h mbx ends pre) q) := by
    unfold deliver; rw [List.foldl_append, List.foldl_cons]
  rw [h3, dead _ _ _ _ _ h2.1]

/-- The exceptions are met with: a message without an attachment for somebody who has witnesses only stops all that come after it. -/
theorem c218_witness :
    deliver (Id := Nat) (Url := Nat) ⟨0, [], 9, [], fun _ => false, fun _ => false⟩ false
      (fun _ r => match r with | .witness => [(3, [(.http, 80)])] | _ => [])
      [⟨1, 5, 77, [1, 2], none, 0⟩, ⟨1, 5, 78, [1, 2], some [3], 0⟩] = ⟨[], [], false⟩ := by
  decide +kernel

/-- **C218 fails**: what is sent to nobody is not reported. -/
theorem c218_nobody (h : Hab Id) (mbx : Bool) (ends : Id → Role → Locs Id Url) (q : Req Id) (he : ∀ r, ends q.dest r = []) :
    deliver h mbx ends [q] = ⟨[], [], true⟩ := by
  unfold deliver
  simp [turn, deliverOne, he]

/-- **C218.** A delivery is reported only if it was made. -/
theorem c218_sent (h : Hab Id) (mbx : Bool) (ends : Id → Role → Locs Id Url) (qs : List (Req Id)) (said : Nat)
    (hs : sent (deliver h mbx ends qs) said = true) : ∃ q ∈ qs, q.said = said ∧ (deliverOne h mbx (ends q.dest) q).2 = .ok := by
  have key : ∀ (qs : List (Req Id)) (o : Out Id Url), said ∈ (qs.foldl (turn h mbx ends) o).cues →
      said ∈ o.cues ∨ ∃ q ∈ qs, q.said = said ∧ (deliverOne h mbx (ends q.dest) q).2 = .ok := by
    intro qs
    induction qs with
    | nil => intro o ho; exact .inl ho
    | cons q qs ih =>
      intro o ho
      rw [List.foldl_cons] at ho
      rcases ih _ ho with h1 | ⟨q', h1, h2⟩
      · unfold turn at h1
        split at h1
        · cases hd : deliverOne h mbx (ends q.dest) q with
          | mk as r =>
            rw [hd] at h1
            cases r <;> simp at h1 <;> try exact .inl h1
            rcases h1 with h1 | h1
            · exact .inl h1
            · exact .inr ⟨q, List.mem_cons_self, h1.symm, by rw [hd]⟩
        · exact .inl h1
      · exact .inr ⟨q', List.mem_cons_of_mem _ h1, h2⟩
  unfold sent at hs
  rw [List.any_eq_true] at hs
  obtain ⟨c, h1, h2⟩ := hs
  have h3 : c = said := by simpa using h2
  subst h3
  rcases key qs _ h1 with h4 | h4
  · cases h4
  · exact h4

/-- **C218 fails**: an agent that was cut is sent the messages still. -/
theorem c218_cut : ∃ hist : List (Rep Nat Nat), lastRole hist 1 .agent 2 = some false ∧
    deliver ⟨0, [], 9, [], fun _ => false, fun _ => false⟩ false (fun d r => endsFor (run (fun _ => none) hist) d r) [⟨1, 5, 77, [1], some [2], 0⟩] =
      ⟨[.direct 2 (.http 80) [1, 2]], [77], true⟩ :=
  ⟨[.role 1 .agent 2 true, .loc 2 .http (some 80), .role 1 .agent 2 false], by decide +kernel⟩

/-- **C218.** Waiting for a cue that is there ends, and leaves the cues of others. -/
theorem c218_await (said : Nat) (l : List Nat) (hs : said ∈ l) (n : Nat) (hn : l.length ≤ n) :
    (await said n l).1 = true ∧ (await said n l).2.Perm (l.erase said) := by
  have key : ∀ (a b : List Nat), said ∉ b → said ∈ a → ∀ n, a.length ≤ n →
      (await said n (a ++ b)).1 = true ∧ (await said n (a ++ b)).2.Perm ((a ++ b).erase said) := by
    intro a
    induction a with
    | nil => intro b _ h; cases h
    | cons c a ih =>
      intro b hb hc n hn
      cases n with
      | zero => simp at hn
      | succ n =>
        rw [await, List.cons_append, poll]
        by_cases he : c = said
        · rw [if_pos he, he]
          simp
        · rw [if_neg he]
          dsimp only
          have hc' : said ∈ a := by
            rcases List.mem_cons.1 hc with h | h
            · exact absurd h.symm he
            · exact h
          have := ih (b ++ [c]) (by simp [hb]; exact fun h => he h.symm) hc' n (by simpa using hn)
          rw [List.append_assoc]
          refine ⟨this.1, this.2.trans ?_⟩
          rw [List.erase_cons_tail (by simpa using he)]
          rw [← List.append_assoc, List.erase_append_left _ (by simp [hc'])]
          exact List.perm_append_comm
  have := key l [] (by simp) hs n hn
  simpa using this

/-- **C218 fails**: waiting for one that does not come does not end. -/
theorem c218_waits (said : Nat) (l : List Nat) (hs : said ∉ l) (n : Nat) : (await said n l).1 = false := by
  induction n generalizing l with
  | zero => rfl
  | succ n ih =>
    rw [await]
    cases l with
    | nil => exact ih [] (by simp)
    | cons c l =>
      rw [poll, if_neg (fun h => hs (by simp [h]))]
      exact ih _ (by simp at hs ⊢; exact ⟨hs.2, hs.1⟩)

example : await 3 5 [1, 2, 3, 4] = (true, [4, 1, 2]) := by decide

/-! ## C220: introductions -/

/-- **C220.** Whoever has not been shown to know an identifier is sent its log before anything that it signs. -/
theorem c220_introduced (h : Hab Id) (o : Id) (hw : o ∉ h.wits) (ht : h.trans o = false) (hr : ∀ e ∈ h.rcts, e.2.1 = h.said → e.2.2 ≠ h.self) :
    introduces h o = some true := by
  unfold introduces
  rw [if_neg hw, ht]
  simp
  intro a b c hm _ hb
  exact hr _ hm hb

/-- **C220 fails**: receipts are stored under the identifier of the event, and looked for under that of the receipter; so none is found, and everybody
but the witnesses is sent the log every time. -/
theorem c220_always (h : Hab Id) (owner : Nat → Id) (hs : owner h.said = h.self) (hr : ∀ e ∈ h.rcts, e.1 = owner e.2.1) (o : Id) (ho : o ≠ h.self)
    (ht : h.trans o = false) : introduces h o = some (decide (o ∉ h.wits)) := by
  unfold introduces
  by_cases hw : o ∈ h.wits
  · simp [hw]
  · rw [if_neg hw, ht]
    simp [hw]
    intro a b c hm h1 h2 _
    have := hr _ hm
    simp only at this
    rw [h2, hs, h1] at this
    exact ho this

/-- **C220 fails** for transferable identifiers that are not witnesses: an exception is raised. -/
theorem c220_transferable (h : Hab Id) (o : Id) : introduces h o = none ↔ o ∉ h.wits ∧ h.trans o = true := by
  unfold introduces
  by_cases hw : o ∈ h.wits
  · simp [hw]
  · cases ht : h.trans o <;> simp [hw]

/-- The receipter (5) has receipted the last event (9) of the sender (0), and is sent its log all the same. -/
example : introduces (Id := Nat) ⟨0, [], 9, [(0, 9, 5)], fun _ => false, fun _ => false⟩ 5 = some true := by decide

end Verif.Fwd
