import Verif.Hand.Spec
import Verif.Prs.PropsStream

/-!
# Messages reach their processors (C147, C148, C149, C150)
-/

namespace Verif.Hand

open Verif.Prs
open Verif.Ctr (Ver)

/-! ## The dictionary of a message -/

theorem asdicts_eq {β : Type} (es : List (Exts β)) : asdicts es = es.map asdict := by
  induction es with
  | nil => rfl
  | cons e es ih => simp [asdicts, ih]

theorem asdict_body {β : Type} (e : Exts β) : (asdict e).body = e.body := by cases e; rfl
theorem asdict_get {β : Type} (e : Exts β) (s : Slot) : (asdict e).get s = e.get s := by cases e; rfl
theorem asdict_nests {β : Type} (e : Exts β) : (asdict e).nests = e.nests.map asdict := by
  cases e; simp [asdict, Dict.nests, Exts.nests, asdicts_eq]

theorem dict_ext {β : Type} {a b : Dict β} (h1 : a.body = b.body) (h2 : ∀ s, a.get s = b.get s) (h3 : a.nests = b.nests) : a = b := by
  cases a; cases b
  simp only [Dict.body, Dict.nests] at h1 h3
  have : ∀ s, _ = _ := h2
  simp only [Dict.get] at this
  rw [h1, h3, funext this]

mutual
theorem size_nests {β : Type} : ∀ (e x : Exts β), x ∈ e.nests → sizeOf x < sizeOf e
  | .mk b a ns, x, h => by
    have := List.sizeOf_lt_of_mem (show x ∈ ns from h)
    simp only [Exts.mk.sizeOf_spec]
    omega
end

/-- Messages that are the same as far as the receiver can tell have the same dictionary. -/
theorem asdict_same {β : Type} (n : Nat) : ∀ (e e' : Exts β), sizeOf e ≤ n → Same e e' → asdict e = asdict e' := by
  induction n with
  | zero => intro e e' hn _; cases e; simp at hn
  | succ n ih =>
    intro e e' hn h
    cases h with
    | mk h1 h2 h3 =>
      refine dict_ext (by rw [asdict_body, asdict_body, h1]) (fun s => by rw [asdict_get, asdict_get, h2]) ?_
      rw [asdict_nests, asdict_nests]
      have key : ∀ (l l' : List (Exts β)), All2 Same l l' → (∀ x ∈ l, sizeOf x ≤ n) → l.map asdict = l'.map asdict := by
        intro l l' h
        induction h with
        | nil => intro _; rfl
        | cons g _ ih' =>
          intro hs
          rw [List.map_cons, List.map_cons, ih _ _ (hs _ (by simp)) g, ih' (fun x hx => hs x (by simp [hx]))]
      exact key _ _ h3 (fun x hx => by have := size_nests e x hx; omega)

theorem all2_dicts {β : Type} {l l' : List (Exts β)} (h : All2 Same l l') : l'.map asdict = l.map asdict := by
  induction h with
  | nil => rfl
  | cons g _ ih => rw [List.map_cons, List.map_cons, ih, asdict_same _ _ _ (Nat.le_refl _) g]

/-! ## Delivery -/

/-- **C147.** Of a stream of messages built by `messagize`, however it is cut into pieces, the node makes what it would make of the messages
handed over one by one, in the order sent, each with the attachments sent; whatever becomes of one message has no effect on how the next
is read.  The calls made are those of each message, in order. -/
theorem c147_delivered {σ β : Type} (P : Procs σ β) (L : Loader β) (u : Ver) (as : List Args) (b p first : Bytes) (pieces : List Bytes)
    (es : List (Exts β)) (n : Nat) (s : σ) (h : Series L u as b es) (he : ∀ a ∈ as, a.enclosed = true) (hp : Cut L (lastVer u as) p)
    (hb : first ++ pieces.flatten = b ++ p) (hn : pieces.length < n) :
    feed P s ((parsator L false n ⟨first, pieces, u⟩).map asdict) = feed P s (es.map asdict) ∧
    calls P s ((parsator L false n ⟨first, pieces, u⟩).map asdict) = calls P s (es.map asdict) := by
  obtain ⟨es', h1, h2⟩ := c87_pieces L u as b p first pieces es n h he hp hb hn
  rw [h1, all2_dicts h2]
  exact ⟨rfl, rfl⟩

/-- What the dictionary of a built message contains: the body, the attachments given to `messagize`, the nested messages. -/
theorem c147_contents {β : Type} (L : Loader β) (a : Args) (b : Bytes) (e : Exts β) (h : Built L a b e) (s : Slot) :
    (asdict e).get s = a.expected s := by
  obtain ⟨_, _, _, _, _, h3⟩ := h.carries
  rw [asdict_get]
  exact h3.lists s

/-! ## Every call fits the message -/

theorem call_calls {σ β : Type} {P : Procs σ β} {c x : Call β} {r : Run σ β} (h : x ∈ (r.call P c).calls) : x ∈ r.calls ∨ x = c := by
  unfold Run.call at h
  split at h
  · simpa using h
  · exact Or.inl h

theorem ne_and2 {α : Type} {a b : List α} (h : ¬ (a = [] ∧ b = [])) : a ≠ [] ∨ b ≠ [] := by
  by_cases ha : a = []
  · exact Or.inr (fun hb => h ⟨ha, hb⟩)
  · exact Or.inl ha

theorem keyEvent_fits {σ β : Type} {P : Procs σ β} {d : Dict β} {s : σ} {i : Ilk} (h1 : (P.head d.body).cls = .keri) (h2 : (P.head d.body).ilk = some i)
    (h3 : i.isEvent = true) {c : Call β} (h : c ∈ (keyEvent P d ⟨s, [], true⟩).calls) : Fits (P.head d.body) d c := by
  have hi : i ∈ [Ilk.icp, .rot, .ixn, .dip, .drt] := by simp [Ilk.isEvent] at h3; simp; exact h3
  unfold keyEvent at h
  dsimp only at h
  split at h
  · cases h
  · rename_i hs
    split at h
    · cases h
    · have e1 : ∀ x ∈ (Run.call P (.event d (d.get .frcs).getLast? (d.get .sscs).getLast?) ⟨s, [], true⟩).calls, Fits (P.head d.body) d x := by
        intro x hx
        rcases call_calls hx with hx | rfl
        · cases hx
        · exact .event h1 h2 hi hs
      generalize (Run.call P (.event d (d.get .frcs).getLast? (d.get .sscs).getLast?) ⟨s, [], true⟩) = r1 at e1 h
      have e2 : ∀ x ∈ (if d.get .cigars = [] then r1 else r1.call P (.couples d (d.get .frcs).getLast?)).calls, Fits (P.head d.body) d x := by
        intro x hx
        split at hx
        · exact e1 x hx
        · rename_i hc
          rcases call_calls hx with hx | rfl
          · exact e1 x hx
          · exact .couples h1 h2 hi hs hc
      generalize (if d.get .cigars = [] then r1 else r1.call P (.couples d (d.get .frcs).getLast?)) = r2 at e2 h
      split at h
      · exact e2 c h
      · rename_i hg
        rcases call_calls h with h | rfl
        · exact e2 c h
        · exact .groups h1 h2 hi hs hg

theorem reply_fits {σ β : Type} {P : Procs σ β} {d : Dict β} {r : Run σ β} {has : Bool} (h1 : (P.head d.body).cls = .keri)
    (h2 : (P.head d.body).ilk = some .rpy) (hr : r.calls = []) {c : Call β} (h : c ∈ (reply P has d r).calls) : Fits (P.head d.body) d c := by
  unfold reply at h
  split at h
  · rw [Run.raise, hr] at h; cases h
  · rename_i hs
    split at h
    · rw [Run.raise, hr] at h; cases h
    · rcases call_calls h with h | rfl
      · rw [hr] at h; cases h
      · exact .reply h1 h2 (ne_and2 hs)

theorem exchange_fits {σ β : Type} {P : Procs σ β} {d : Dict β} {r : Run σ β} {has : Bool} (h1 : (P.head d.body).cls = .keri)
    (h2 : (P.head d.body).ilk = some .exn) (hr : r.calls = []) {c : Call β} (h : c ∈ (exchange P has d r).calls) : Fits (P.head d.body) d c := by
  unfold exchange at h
  split at h
  · rw [Run.raise, hr] at h; cases h
  · rename_i hs
    split at h
    · rw [Run.raise, hr] at h; cases h
    · rcases call_calls h with h | rfl
      · rw [hr] at h; cases h
      · exact .exchange h1 h2 (ne_and2 hs)

theorem query_fits {σ β : Type} {P : Procs σ β} {d : Dict β} {r : Run σ β} {has : Bool} {src : Source} {sigs : List Elem}
    (h1 : (P.head d.body).cls = .keri) (h2 : (P.head d.body).ilk = some .qry) (hr : r.calls = []) (hv : Vouched (P.head d.body) d src sigs)
    {c : Call β} (h : c ∈ (query P has d src sigs r).calls) : Fits (P.head d.body) d c := by
  unfold query at h
  generalize hroute : (P.head d.body).route = route at h
  cases route <;> dsimp only at h
  all_goals first
    | (rw [Run.raise, hr] at h; cases h; done)
    | (split at h
       · rw [Run.raise, hr] at h; cases h
       · rcases call_calls h with h | rfl
         · rw [hr] at h; cases h
         · first
           | exact .queryKel h1 h2 (by simp [hroute]) hv
           | exact .queryTel h1 h2 (by simp [hroute]) hv)

theorem getLast_none {α : Type} {l : List α} (h : l.getLast? = none) : l = [] := by simpa using h

theorem processMsg_fits {σ β : Type} {P : Procs σ β} {d : Dict β} {r : Run σ β} {i : Ilk} (h1 : (P.head d.body).cls = .keri)
    (h2 : (P.head d.body).ilk = some i) (h3 : (P.head d.body).major ≥ 2) (hr : r.calls = []) {c : Call β} (h : c ∈ (processMsg P i d r).calls) :
    Fits (P.head d.body) d c := by
  unfold processMsg at h
  dsimp only at h
  split at h
  · rw [Run.raise, hr] at h; cases h
  · split at h
    · simp only [Run.raise] at h; rw [hr] at h; cases h
    · have hr' : ({ r with st := (P.kram d r.st).1 } : Run σ β).calls = [] := hr
      generalize ({ r with st := (P.kram d r.st).1 } : Run σ β) = r' at h hr'
      cases i <;> dsimp only at h
      all_goals first
        | (rw [Run.raise, hr'] at h; cases h; done)
        | (rw [hr'] at h; cases h; done)
        | exact reply_fits h1 h2 hr' h
        | exact exchange_fits h1 h2 hr' h
        | skip
      unfold query2 at h
      split at h
      · rename_i g hg
        exact query_fits h1 h2 hr' (Or.inl ⟨g, hg, rfl, rfl⟩) h
      · rename_i hg
        have hl := getLast_none hg
        split at h
        · rename_i hs
          split at h
          · rw [Run.raise, hr'] at h; cases h
          · rename_i hc
            exact query_fits h1 h2 hr' (Or.inr ⟨h3, Or.inr ⟨hl, hs, hc, rfl, rfl⟩⟩) h
        · rename_i hs
          split at h
          · rw [Run.raise, hr'] at h; cases h
          · rename_i j hj
            exact query_fits h1 h2 hr' (Or.inr ⟨h3, Or.inl ⟨hl, hs, rfl, j, hj, rfl⟩⟩) h

/-- **C148.** Whatever the message and the state, a processor is only called with the method for the type of the message, with this message and
its attachments, the seal and first-seen couple that came last, and only if the signatures the type needs are attached. -/
theorem c148_fits {σ β : Type} (P : Procs σ β) (d : Dict β) (s : σ) (c : Call β) (h : c ∈ (msgProcess P d s).calls) :
    Fits (P.head d.body) d c := by
  unfold msgProcess at h
  split at h
  · rename_i i h1 h2
    unfold keri at h
    split at h
    · rename_i hg
      simp only [Bool.and_eq_true, decide_eq_true_eq] at hg
      exact processMsg_fits h1 h2 hg.1.2 rfl h
    split at h
    · rename_i he; exact keyEvent_fits h1 h2 he h
    split at h
    · rename_i hi
      subst hi
      unfold receipt at h
      split at h
      · cases h
      · rename_i hs
        split at h
        · cases h
        · rcases call_calls h with h | rfl
          · cases h
          · refine .receipt h1 h2 ?_
            by_cases a1 : d.get .cigars = []
            · by_cases a2 : d.get .wigers = []
              · by_cases a3 : d.get .tsgs = []
                · exact Or.inr (Or.inr (Or.inr (fun a4 => hs ⟨a1, a2, a3, a4⟩)))
                · exact Or.inr (Or.inr (Or.inl a3))
              · exact Or.inr (Or.inl a2)
            · exact Or.inl a1
    split at h
    · rename_i hi; subst hi; exact reply_fits h1 h2 rfl h
    split at h
    · rename_i hi
      subst hi
      unfold query1 at h
      split at h
      · rename_i g hg
        exact query_fits h1 h2 rfl (Or.inl ⟨g, hg, rfl, rfl⟩) h
      · cases h
    split at h
    · rename_i hi; subst hi; exact exchange_fits h1 h2 rfl h
    split at h
    · rename_i ht
      split at h
      · cases h
      · rcases call_calls h with h | rfl
        · cases h
        · exact .tel h1 h2 (by simp [Ilk.isTel] at ht; simp; exact ht)
    · cases h
  · cases h
  · rename_i h1 h2
    split at h
    · cases h
    · rcases call_calls h with h | rfl
      · cases h
      · exact .acdc h1 h2
  · cases h
  · cases h

/-- The same for a whole stream, whatever bytes arrive and however: every call is about one of the messages read from the stream, and fits. -/
theorem c148_stream {σ β : Type} (P : Procs σ β) (L : Loader β) (framed : Bool) (n : Nat) (st : St) (s : σ) (c : Call β)
    (h : c ∈ calls P s ((parsator L framed n st).map asdict)) :
    ∃ e ∈ parsator L framed n st, Fits (P.head e.body) (asdict e) c ∧ c.dict = asdict e := by
  generalize parsator L framed n st = es at h ⊢
  induction es generalizing s with
  | nil => cases h
  | cons e es ih =>
    simp only [List.map_cons, calls, List.mem_append] at h
    rcases h with h | h
    · have := c148_fits P _ _ _ h
      rw [asdict_body] at this
      refine ⟨e, by simp, this, ?_⟩
      cases this <;> rfl
    · obtain ⟨e', h1, h2⟩ := ih _ h
      exact ⟨e', by simp [h1], h2⟩

/-! ## And every message that qualifies is handed over -/

/-- The calls a message is to lead to, by what is attached. -/
def due {β : Type} (h : Head) (d : Dict β) : List (Call β) :=
  match h.cls, h.ilk with
  | .acdc, none => [.acdc d (d.last .ssts)]
  | .keri, some i =>
    if i ∈ [Ilk.icp, .rot, .ixn, .dip, .drt] then
      [.event d (d.last .frcs) (d.last .sscs)] ++ (if d.get .cigars = [] then [] else [.couples d (d.last .frcs)]) ++
        (if d.get .rsgs = [] then [] else [.groups d (d.last .frcs)])
    else if i ∈ [Ilk.vcp, .vrt, .iss, .rev, .bis, .brv] then [.tel d (d.last .sscs)]
    else if i = .rct then [.receipt d]
    else if i = .rpy then [.reply d]
    else if i = .exn then [.exchange d]
    else []
  | _, _ => []

/-- What has to be attached for the message to be handed over. -/
def Signed {β : Type} (h : Head) (d : Dict β) : Prop :=
  (h.ilk ∈ [some Ilk.icp, some .rot, some .ixn, some .dip, some .drt] → d.get .sigers ≠ []) ∧
  (h.ilk = some .rct → d.get .cigars ≠ [] ∨ d.get .wigers ≠ [] ∨ d.get .tsgs ≠ [] ∨ d.get .rsgs ≠ []) ∧
  (h.ilk = some .rpy ∨ h.ilk = some .exn → d.get .cigars ≠ [] ∨ d.get .tsgs ≠ [])

theorem upTo_one {σ β : Type} (P : Procs σ β) (s : σ) (c : Call β) :
    (Run.call P c ⟨s, [], true⟩).calls = (upTo P s [c]).1 ∧ (Run.call P c ⟨s, [], true⟩).st = (upTo P s [c]).2 := by
  unfold Run.call upTo upTo
  by_cases h : (P.call c s).2 = .ok <;> simp [h]

/-- **C147, handed over.** A message of any type but a query, with the signatures its type needs, is handed to the processor of its type; a key event
first as an event and then, unless that raised an exception, its couples and groups of receipts. -/
theorem c147_handed {σ β : Type} (P : Procs σ β) (hp : Equipped P) (ho : Open P) (d : Dict β) (s : σ) (hs : Signed (P.head d.body) d)
    (hq : (P.head d.body).ilk ≠ some .qry) :
    ((msgProcess P d s).calls, (msgProcess P d s).st) = upTo P s (due (P.head d.body) d) := by
  obtain ⟨k1, k2, k3, k4, k5⟩ := hp
  obtain ⟨o1, o2, o3⟩ := ho
  have pair : ∀ c, ((Run.call P c ⟨s, [], true⟩).calls, (Run.call P c ⟨s, [], true⟩).st) = upTo P s [c] :=
    fun c => Prod.ext (upTo_one P s c).1 (upTo_one P s c).2
  have href : refused P (P.head d.body).sender = false := by
    unfold refused
    cases (P.head d.body).sender <;> simp [o1, o2]
  unfold msgProcess due
  generalize hh : P.head d.body = h at hs hq href
  obtain ⟨cls, major, ilk, route, sender⟩ := h
  dsimp only at hs hq href ⊢
  obtain ⟨s1, s2, s3⟩ := hs
  dsimp only at s1 s2 s3
  cases cls <;> cases ilk <;> dsimp only
  · rfl
  · rename_i i
    unfold keri
    rw [hh]
    dsimp only
    cases i
    case qry => exact absurd rfl hq
    case icp | rot | ixn | dip | drt =>
      have hsig : d.get .sigers ≠ [] := s1 (by simp)
      simp only [k1, Ilk.isMsg, Ilk.isEvent]
      simp only [keyEvent, if_neg hsig, k1, Dict.last]
      by_cases hc : d.get .cigars = [] <;> by_cases hg : d.get .rsgs = [] <;> simp [hc, hg, Run.call, upTo] <;> grind
    case rct =>
      have := s2 rfl
      simp only [k1, Ilk.isMsg, Ilk.isEvent, receipt]
      have hn : ¬ (d.get .cigars = [] ∧ d.get .wigers = [] ∧ d.get .tsgs = [] ∧ d.get .rsgs = []) := by grind
      simp [hn, pair]
    case rpy =>
      have := s3 (Or.inl rfl)
      have hn : ¬ (d.get .cigars = [] ∧ d.get .tsgs = []) := by grind
      simp only [k1, k4, Ilk.isMsg, Ilk.isEvent, reply, processMsg, hh, href, o3]
      by_cases hm : major ≥ 2 <;> simp [hn, pair, hm]
    case exn =>
      have := s3 (Or.inr rfl)
      have hn : ¬ (d.get .cigars = [] ∧ d.get .tsgs = []) := by grind
      simp only [k1, k3, Ilk.isMsg, Ilk.isEvent, exchange, processMsg, hh, href, o3]
      by_cases hm : major ≥ 2 <;> simp [hn, pair, hm]
    case xip | pro | bar =>
      simp only [k1, Ilk.isMsg, Ilk.isEvent, Ilk.isTel, processMsg, hh, href, o3]
      by_cases hm : major ≥ 2 <;> simp [hm, upTo, Run.raise]
    case vcp | vrt | iss | rev | bis | brv =>
      simp [k2, Ilk.isMsg, Ilk.isEvent, Ilk.isTel, pair, Dict.last]
    case other => simp [Ilk.isMsg, Ilk.isEvent, Ilk.isTel, upTo, Run.raise]
  · simp [k5, pair, Dict.last]
  · rfl
  · rfl
  · rfl

/-- **C150, a requester's signature group.** A query whose signatures come with the identifier of the requester is handed to the processor of its
route, in either version. -/
theorem c150_group {σ β : Type} (P : Procs σ β) (hp : Equipped P) (ho : Open P) (d : Dict β) (s : σ) (g : Elem) (hc : (P.head d.body).cls = .keri)
    (hq : (P.head d.body).ilk = some .qry) (hg : d.last .lsgs = some g) :
    ((P.head d.body).route ∈ [Route.logs, .ksn, .mbx] →
      (msgProcess P d s).calls = [.queryKel d (.group g.mats.head?) (g.sigs.map (fun x => ⟨[], [x], []⟩))]) ∧
    ((P.head d.body).route ∈ [Route.tels, .tsn] →
      (msgProcess P d s).calls = [.queryTel d (.group g.mats.head?) (g.sigs.map (fun x => ⟨[], [x], []⟩))]) := by
  obtain ⟨k1, k2, k3, k4, k5⟩ := hp
  obtain ⟨o1, o2, o3⟩ := ho
  have href : refused P (P.head d.body).sender = false := by
    unfold refused
    cases (P.head d.body).sender <;> simp [o1, o2]
  unfold Dict.last at hg
  unfold msgProcess
  generalize hh : P.head d.body = h at *
  obtain ⟨cls, major, ilk, route, sender⟩ := h
  dsimp only at hc hq href ⊢
  subst hc hq
  dsimp only
  unfold keri
  rw [hh]
  simp only [k1, Ilk.isMsg, Ilk.isEvent, processMsg, query1, query2, hg, hh, href, o3, query, k2]
  by_cases hm : major ≥ 2 <;> cases route <;> simp [hm, Run.call, sigsIn]

/-- **C150 fails in version 1.** A query vouched for by couples of non-transferable identifiers is never handed over, whoever sends it and whatever
it asks; nor is one with plain signatures. -/
theorem c150_couples_lost {σ β : Type} (P : Procs σ β) (d : Dict β) (s : σ) (hq : (P.head d.body).ilk = some .qry) (hm : (P.head d.body).major < 2)
    (hg : d.get .lsgs = []) : (msgProcess P d s).calls = [] ∧ (msgProcess P d s).st = s := by
  unfold msgProcess
  generalize hh : P.head d.body = h at *
  obtain ⟨cls, major, ilk, route, sender⟩ := h
  dsimp only at hm hq ⊢
  subst hq
  cases cls <;> dsimp only
  · unfold keri
    rw [hh]
    have : ¬ (major ≥ 2) := by omega
    simp [this, Ilk.isEvent, query1, hg, Run.raise]
  · exact ⟨rfl, rfl⟩
  · exact ⟨rfl, rfl⟩

/-- **C150, in version 2** such queries are handed over. -/
theorem c150_couples_partial {σ β : Type} (P : Procs σ β) (hp : Equipped P) (ho : Open P) (d : Dict β) (s : σ) (hc : (P.head d.body).cls = .keri)
    (hq : (P.head d.body).ilk = some .qry) (hm : (P.head d.body).major ≥ 2) (hg : d.get .lsgs = []) (hs : d.get .sigers = [])
    (hcs : d.get .cigars ≠ []) :
    ((P.head d.body).route ∈ [Route.logs, .ksn, .mbx] → (msgProcess P d s).calls = [.queryKel d .nobody []]) ∧
    ((P.head d.body).route ∈ [Route.tels, .tsn] → (msgProcess P d s).calls = [.queryTel d .nobody []]) := by
  obtain ⟨k1, k2, k3, k4, k5⟩ := hp
  obtain ⟨o1, o2, o3⟩ := ho
  have href : refused P (P.head d.body).sender = false := by
    unfold refused
    cases (P.head d.body).sender <;> simp [o1, o2]
  unfold msgProcess
  generalize hh : P.head d.body = h at *
  obtain ⟨cls, major, ilk, route, sender⟩ := h
  dsimp only at hc hq href hm ⊢
  subst hc hq
  dsimp only
  unfold keri
  rw [hh]
  simp only [k1, Ilk.isMsg, Ilk.isEvent, processMsg, query2, hg, hs, hcs, hh, href, o3, query, k2]
  cases route <;> simp [hm, Run.call]

/-! ## Lists of senders -/

/-- **C149.** A query, reply or exchange message of version 2 whose sender is on the deny list, or not on an allow list in force, reaches no
processor and changes nothing. -/
theorem c149_refused_partial {σ β : Type} (P : Procs σ β) (hk : P.kvy = true) (d : Dict β) (s : σ) (i : Nat) (x : Ilk)
    (hc : (P.head d.body).cls = .keri) (hx : (P.head d.body).ilk = some x) (hi : x ∈ [Ilk.qry, .rpy, .exn, .xip, .pro, .bar])
    (hm : (P.head d.body).major ≥ 2) (hs : (P.head d.body).sender = some i) (hd : i ∈ P.deny ∨ (P.allow ≠ [] ∧ i ∉ P.allow)) :
    (msgProcess P d s).calls = [] ∧ (msgProcess P d s).st = s := by
  unfold msgProcess
  generalize hh : P.head d.body = h at *
  obtain ⟨cls, major, ilk, route, sender⟩ := h
  dsimp only at hc hx hs hm ⊢
  subst hc hx hs
  dsimp only
  have href : refused P (some i) = true := by
    unfold refused
    rcases hd with hd | hd <;> simp [hd]
  have hmsg : x.isMsg = true := by unfold Ilk.isMsg; simp at hi; simp; exact hi
  unfold keri
  rw [hh]
  simp [hk, hm, hmsg, processMsg, hh, href, Run.raise]

/-- **C149, replays.** A query, reply or exchange message of version 2 that replay protection (`kram`, the subject of C91–C97) does not pass reaches no processor; what
replay protection itself noted stays. -/
theorem c149_replayed {σ β : Type} (P : Procs σ β) (hk : P.kvy = true) (d : Dict β) (s : σ) (x : Ilk)
    (hc : (P.head d.body).cls = .keri) (hx : (P.head d.body).ilk = some x) (hi : x ∈ [Ilk.qry, .rpy, .exn, .xip, .pro, .bar])
    (hm : (P.head d.body).major ≥ 2) (hp : (P.kram d s).2 = false) :
    (msgProcess P d s).calls = [] ∧ ((msgProcess P d s).st = s ∨ (msgProcess P d s).st = (P.kram d s).1) := by
  unfold msgProcess
  generalize hh : P.head d.body = h at *
  obtain ⟨cls, major, ilk, route, sender⟩ := h
  dsimp only at hc hx hm ⊢
  subst hc hx
  dsimp only
  have hmsg : x.isMsg = true := by unfold Ilk.isMsg; simp at hi; simp; exact hi
  unfold keri
  rw [hh]
  simp only [hk, hm, hmsg, processMsg, hh, hp]
  cases refused P sender <;> simp [Run.raise]

/-- **C149 fails in version 1.** What becomes of a message of version 1 does not depend on the lists at all. -/
theorem c149_v1_ignored {σ β : Type} (P : Procs σ β) (d : Dict β) (s : σ) (deny allow : List Nat) (hm : (P.head d.body).major < 2) :
    (msgProcess { P with deny := deny, allow := allow } d s).calls = (msgProcess P d s).calls ∧
    (msgProcess { P with deny := deny, allow := allow } d s).st = (msgProcess P d s).st := by
  have hm' : ¬ ((P.head d.body).major ≥ 2) := by omega
  have hc : ∀ (c : Call β) (r : Run σ β), Run.call { P with deny := deny, allow := allow } c r = Run.call P c r := fun _ _ => rfl
  have hq : ∀ (b : Bool) (src : Source) (l : List Elem) (r : Run σ β), query { P with deny := deny, allow := allow } b d src l r = query P b d src l r :=
    fun _ _ _ _ => rfl
  have h1 : ∀ (i : Ilk) (r : Run σ β), keri { P with deny := deny, allow := allow } i d r = keri P i d r := by
    intro i r
    unfold keri
    simp only [hm', decide_false, Bool.and_false, Bool.false_and]
    rfl
  unfold msgProcess
  dsimp only
  simp only [h1]
  exact ⟨rfl, rfl⟩

end Verif.Hand
