import Verif.Http.Lemmas

/-! # Streams as requests (C200), the text that is signed (C201), serving introductions (C202) -/

namespace Verif.Http

/-! ## C200 -/

/-- What has been posted, in order, bodies before their attachments. -/
def sent (l : List (Bytes × Bytes)) : Bytes := l.flatMap fun r => r.1 ++ r.2

theorem attachment_length (ims : Bytes) : ims.take (attachment ims).length = attachment ims := by
  unfold attachment
  induction ims with
  | nil => rfl
  | cons b r ih =>
    by_cases h : b ≠ 123
    · rw [List.takeWhile_cons_of_pos (by simpa using h), List.length_cons, List.take_succ_cons, ih]
    · rw [List.takeWhile_cons_of_neg (by simpa using h)]; rfl

theorem attachment_free (ims : Bytes) : 123 ∉ attachment ims := by
  intro h
  have : ∀ (l : Bytes), 123 ∉ l.takeWhile (· ≠ 123) := by
    intro l
    induction l with
    | nil => simp
    | cons b r ih =>
      by_cases hb : b ≠ 123
      · rw [List.takeWhile_cons_of_pos (by simpa using hb)]
        simp only [List.mem_cons, not_or]
        exact ⟨fun h => hb h.symm, ih⟩
      · rw [List.takeWhile_cons_of_neg (by simpa using hb)]; simp
  exact this ims h

theorem requests_spec (size : Bytes → Except Err Nat) (hs : ∀ ims n, size ims = .ok n → 0 < n ∧ n ≤ ims.length) (fuel : Nat) :
    ∀ ims, ims.length ≤ fuel → ∃ rest, ims = sent (requests size fuel ims).1 ++ rest ∧
      ((requests size fuel ims).2 = none → rest = []) ∧
      (∀ f, (requests size fuel ims).2 = some f → ∃ e, size rest = .error e ∧ (e = .shortage ↔ f = .extraction)) ∧
      (∀ r, r ∈ (requests size fuel ims).1 → r.1 ≠ [] ∧ 123 ∉ r.2) := by
  induction fuel with
  | zero =>
    intro ims h
    have : ims = [] := by cases ims <;> simp_all
    subst this
    exact ⟨[], rfl, fun _ => rfl, fun f h => (by simp [requests] at h), fun r h => (by simp [requests] at h)⟩
  | succ fuel ih =>
    intro ims h
    cases ims with
    | nil => exact ⟨[], rfl, fun _ => rfl, fun f h => (by simp [requests] at h), fun r h => (by simp [requests] at h)⟩
    | cons b t =>
      generalize hims : b :: t = ims at *
      have hunf : requests size (fuel + 1) ims = match size ims with
        | .error .shortage => ([], some .extraction)
        | .error e => ([], some (.other e))
        | .ok n => ((ims.take n, attachment (ims.drop n)) :: (requests size fuel ((ims.drop n).drop (attachment (ims.drop n)).length)).1,
            (requests size fuel ((ims.drop n).drop (attachment (ims.drop n)).length)).2) := by
        subst hims; rfl
      rw [hunf]
      cases hsz : size ims with
      | error e =>
        by_cases he : e = .shortage
        · subst he
          exact ⟨ims, rfl, by simp, fun f hf => ⟨.shortage, hsz, by simp at hf; simp [← hf]⟩, by simp⟩
        · have : (match (Except.error e : Except Err Nat) with
            | .error .shortage => (([] : List (Bytes × Bytes)), some Fail.extraction)
            | .error e => ([], some (.other e))
            | .ok n => ((ims.take n, attachment (ims.drop n)) :: (requests size fuel ((ims.drop n).drop (attachment (ims.drop n)).length)).1,
                (requests size fuel ((ims.drop n).drop (attachment (ims.drop n)).length)).2)) = ([], some (.other e)) := by
            split <;> simp_all
          rw [this]
          refine ⟨ims, rfl, by simp, fun f hf => ⟨e, hsz, ?_⟩, by simp⟩
          simp at hf; subst hf; simp [he]
      | ok n =>
        simp only
        obtain ⟨hn, hle⟩ := hs ims n hsz
        obtain ⟨rest, h1, h2, h3, h4⟩ := ih ((ims.drop n).drop (attachment (ims.drop n)).length) (by simp; omega)
        refine ⟨rest, ?_, h2, h3, ?_⟩
        · rw [show ∀ x (l : List (Bytes × Bytes)), sent (x :: l) = x.1 ++ x.2 ++ sent l from fun x l => by simp [sent]]
          rw [List.append_assoc, ← h1]
          conv => lhs; rw [← List.take_append_drop n ims]
          rw [List.append_assoc]
          congr 1
          conv => lhs; rw [← List.take_append_drop (attachment (ims.drop n)).length (ims.drop n)]
          rw [attachment_length]
        · intro r hr
          rcases List.mem_cons.1 hr with rfl | hr
          · refine ⟨?_, attachment_free _⟩
            intro h0
            have := congrArg List.length h0
            rw [List.length_take, List.length_nil] at this
            omega
          · exact h4 r hr

/-- **C200.** A stream posted as requests: when no exception ends it, bodies and attachments one after the other are the stream, nothing is lost, added
or moved. When an exception ends it, they are the part of the stream before the first place at which no message could be read. No body is empty,
and no attachment has the first byte of a JSON message. -/
theorem c200_partition (size : Bytes → Except Err Nat) (hs : ∀ ims n, size ims = .ok n → 0 < n ∧ n ≤ ims.length) (ims : Bytes) :
    ((stream size ims).2 = none → sent (stream size ims).1 = ims) ∧
    (∃ rest, ims = sent (stream size ims).1 ++ rest) ∧ ∀ r, r ∈ (stream size ims).1 → r.1 ≠ [] ∧ 123 ∉ r.2 := by
  unfold stream
  split
  · exact ⟨by simp, ⟨_, rfl⟩, by simp⟩
  · rename_i b t
    split
    · exact ⟨by simp, ⟨_, rfl⟩, by simp⟩
    · obtain ⟨rest, h1, h2, _, h4⟩ := requests_spec size hs _ (b :: t) (Nat.le_refl _)
      refine ⟨fun hn => ?_, ⟨rest, h1⟩, h4⟩
      have := h2 hn
      subst this
      simpa using h1.symm

theorem takeWhile_stop {a r : Bytes} (ha : 123 ∉ a) (hr : r = [] ∨ r.head? = some 123) : attachment (a ++ r) = a := by
  unfold attachment
  induction a with
  | nil =>
    rcases hr with rfl | hr
    · rfl
    · cases r with
      | nil => simp at hr
      | cons b t => simp at hr; subst hr; simp
  | cons x a ih =>
    simp only [List.mem_cons, not_or] at ha
    rw [List.cons_append, List.takeWhile_cons_of_pos (by simpa using fun h => ha.1 h.symm), ih ha.2]

/-- **C200.** A stream of JSON messages with attachments in text, any number of them, is posted as one request for each message with its own
attachments, in order.

Missing from the full property: binary attachments (`c200_binary`) and messages in CBOR or MGPK (`c200_other_kind`). -/
theorem c200_messages_partial (size : Bytes → Except Err Nat) (l : List (Bytes × Bytes)) (hne : l ≠ [])
    (hm : ∀ r, r ∈ l → r.1.head? = some 123) (ha : ∀ r, r ∈ l → 123 ∉ r.2) (hs : ∀ r, r ∈ l → ∀ rest, size (r.1 ++ rest) = .ok r.1.length) :
    stream size (sent l) = (l, none) := by
  have key : ∀ fuel, (sent l).length ≤ fuel → requests size fuel (sent l) = (l, none) := by
    clear hne
    induction l with
    | nil => intro fuel _; cases fuel <;> rfl
    | cons r t ih =>
      intro fuel hf
      obtain ⟨m, a⟩ := r
      have hm0 := hm (m, a) (by simp)
      have hs0 := hs (m, a) (by simp) (a ++ sent t)
      have ha0 := ha (m, a) (by simp)
      have hsent : sent ((m, a) :: t) = m ++ (a ++ sent t) := by simp [sent]
      have hlen : 0 < m.length := by cases m with | nil => simp at hm0 | cons x y => simp
      have hhead : sent t = [] ∨ (sent t).head? = some 123 := by
        cases t with
        | nil => exact .inl rfl
        | cons r t =>
          right
          have := hm r (by simp)
          cases h : r.1 with
          | nil => rw [h] at this; simp at this
          | cons x y => rw [h] at this; simp [sent, h]; simpa using this
      rw [hsent] at hf ⊢
      cases fuel with
      | zero => simp only [List.length_append] at hf; omega
      | succ fuel =>
        have hatt : attachment ((m ++ (a ++ sent t)).drop m.length) = a := by
          rw [List.drop_left]; exact takeWhile_stop ha0 hhead
        have hrest : ((m ++ (a ++ sent t)).drop m.length).drop a.length = sent t := by
          rw [List.drop_left, List.drop_left]
        have := ih (fun r hr => hm r (by simp [hr])) (fun r hr => ha r (by simp [hr])) (fun r hr => hs r (by simp [hr])) fuel
          (by simp only [List.length_append] at hf; omega)
        unfold requests
        split
        · rename_i h
          have := congrArg List.length h
          rw [List.length_append, List.length_nil] at this
          omega
        · simp only at hs0
          simp only [hs0, hatt, hrest, this, List.take_left]
  unfold stream
  cases l with
  | nil => exact absurd rfl hne
  | cons r t =>
    have hm0 := hm r (by simp)
    cases hsl : sent (r :: t) with
    | nil =>
      exfalso
      cases h : r.1 with
      | nil => rw [h] at hm0; simp at hm0
      | cons x y => simp [sent, h] at hsl
    | cons b u =>
      have hb : b = 123 := by
        cases h : r.1 with
        | nil => rw [h] at hm0; simp at hm0
        | cons x y =>
          rw [h] at hm0
          simp [sent, h] at hsl
          simp at hm0
          rw [← hsl.1]; exact hm0
      subst hb
      simp only
      rw [if_neg (by decide), ← hsl]
      exact key _ (Nat.le_refl _)

/-- The size of a toy message: `{` and the count of bytes of it; CBOR ones begin with 161. -/
def Demo.size : Bytes → Except Err Nat
  | b :: n :: r => if (b = 123 ∨ b = 161) ∧ 2 ≤ n then if n ≤ r.length + 2 then .ok n else .error .shortage else .error .versionError
  | _ => .error .shortage

/-- The hypotheses are met by two messages, one with attachments. -/
example : stream Demo.size (sent [([123, 3, 7], [45, 65]), ([123, 2], [])]) = ([([123, 3, 7], [45, 65]), ([123, 2], [])], none) :=
  c200_messages_partial Demo.size _ (by simp)
    (by intro r hr; simp only [List.mem_cons, List.not_mem_nil, or_false] at hr; rcases hr with rfl | rfl <;> rfl)
    (by intro r hr; simp only [List.mem_cons, List.not_mem_nil, or_false] at hr; rcases hr with rfl | rfl <;> simp)
    (by
      intro r hr rest
      simp only [List.mem_cons, List.not_mem_nil, or_false] at hr
      rcases hr with rfl | rfl <;> simp [Demo.size])

/-- **C200 fails** for binary attachments: a byte of them that is that of `{` ends the attachments, and the rest is taken for a message. The first
request, without part of its attachments, is posted before the exception. -/
theorem c200_binary : stream Demo.size ([123, 2] ++ [224, 123, 0]) = ([([123, 2], [224])], some (.other .versionError)) := by decide +kernel

/-- **C200 fails** for messages in CBOR behind another message: the second message is posted as attachments of the first. -/
theorem c200_other_kind : stream Demo.size ([123, 2] ++ [161, 3, 0]) = ([([123, 2], [161, 3, 0])], none) ∧
    stream Demo.size [161, 3, 0] = ([([161, 3, 0], [])], none) := by decide +kernel

/-! ## C201 -/

theorem line_inj {x y : Str × Str} (hx : '"' ∉ x.1) (hy : '"' ∉ y.1) (h : line x = line y) : x = y := by
  obtain ⟨a, v⟩ := x
  obtain ⟨b, w⟩ := y
  simp only [line, List.cons_append, List.cons.injEq, true_and] at h
  simp only at hx hy
  have : a = b ∧ v = w := by
    induction a generalizing b with
    | nil =>
      cases b with
      | nil => simp at h; exact ⟨rfl, h⟩
      | cons c b => simp at h; simp [← h.1] at hy
    | cons c a ih =>
      cases b with
      | nil => simp at h; simp [h.1] at hx
      | cons d b =>
        simp only [List.cons_append, List.cons.injEq] at h
        simp only [List.mem_cons, not_or] at hx hy
        obtain ⟨h1, h2⟩ := ih hx.2 b hy.2 h.2
        exact ⟨by rw [h.1, h1], h2⟩
  rw [this.1, this.2]

theorem map_line_inj {l m : List (Str × Str)} (hl : ∀ x, x ∈ l → '"' ∉ x.1) (hm : ∀ x, x ∈ m → '"' ∉ x.1) (h : l.map line = m.map line) :
    l = m := by
  induction l generalizing m with
  | nil => cases m with
    | nil => rfl
    | cons y m => simp at h
  | cons x l ih => cases m with
    | nil => simp at h
    | cons y m =>
      simp only [List.map_cons, List.cons.injEq] at h
      rw [line_inj (hl x (by simp)) (hm y (by simp)) h.1, ih (fun x hx => hl x (by simp [hx])) (fun x hx => hm x (by simp [hx])) h.2]

/-- A name or value of a header that HTTP allows, as far as it matters: no line ends, and in names no quotes. -/
def Fits (c : List (Str × Str)) : Prop := ∀ x, x ∈ c → '"' ∉ x.1 ∧ '\n' ∉ x.1 ∧ '\n' ∉ x.2

theorem line_free {x : Str × Str} (h1 : '\n' ∉ x.1) (h2 : '\n' ∉ x.2) : '\n' ∉ line x := by
  simp [line, h1, h2]

/-- **C201.** Two requests with the same signed text have the same names and values of all that is covered, in the same order (so the same method and
path when these are covered), and the same parameters: nothing covered can be changed under a signature. For names and values without line ends.

Missing from the full property: values with line ends (`c201_line_ends`), and that what was asked to be covered is covered (`c201_skipped`). -/
theorem c201_signed_partial (lower strip lower' strip' : Str → Str) (method path method' path' : Str) (headers headers' : Str → Option Str)
    (fields fields' : List Str) (ps ps' : List (Str × Str))
    (hf : Fits (fields.filterMap (covered lower strip method path headers)))
    (hf' : Fits (fields'.filterMap (covered lower' strip' method' path' headers')))
    (hp : ∀ x, x ∈ ps → '\n' ∉ x.1 ∧ '\n' ∉ x.2) (hp' : ∀ x, x ∈ ps' → '\n' ∉ x.1 ∧ '\n' ∉ x.2)
    (h : base lower strip method path headers fields ps = base lower' strip' method' path' headers' fields' ps') :
    fields.filterMap (covered lower strip method path headers) = fields'.filterMap (covered lower' strip' method' path' headers') ∧
    params ((fields.filterMap (covered lower strip method path headers)).map (·.1)) ps =
      params ((fields'.filterMap (covered lower' strip' method' path' headers')).map (·.1)) ps' := by
  unfold base at h
  simp only at h
  generalize fields.filterMap (covered lower strip method path headers) = c at *
  generalize fields'.filterMap (covered lower' strip' method' path' headers') = c' at *
  have free : ∀ (c : List (Str × Str)) (ps : List (Str × Str)), Fits c → (∀ x, x ∈ ps → '\n' ∉ x.1 ∧ '\n' ∉ x.2) →
      ∀ t, t ∈ c.map line ++ [paramLine (params (c.map (·.1)) ps)] → '\n' ∉ t := by
    intro c ps hc hps t ht
    rcases List.mem_append.1 ht with ht | ht
    · obtain ⟨x, hx, rfl⟩ := List.mem_map.1 ht
      exact line_free (hc x hx).2.1 (hc x hx).2.2
    · simp only [List.mem_cons, List.not_mem_nil, or_false] at ht
      subst ht
      have hpar : '\n' ∉ params (c.map (·.1)) ps := by
        unfold params
        refine join_free (by decide) ?_
        intro t ht
        rcases List.mem_cons.1 ht with rfl | ht
        · have : '\n' ∉ join ' ' (c.map (·.1)) := by
            refine join_free (by decide) ?_
            intro t ht
            obtain ⟨x, hx, rfl⟩ := List.mem_map.1 ht
            exact (hc x hx).2.1
          simp [this]
        · obtain ⟨x, hx, rfl⟩ := List.mem_map.1 ht
          simp [(hps x hx).1, (hps x hx).2]
      simp [paramLine, hpar]
  have := join_inj (free c ps hf hp) (free c' ps' hf' hp') (by simp) (by simp) h
  obtain ⟨h1, h2⟩ := List.append_inj' this rfl
  refine ⟨map_line_inj (fun x hx => (hf x hx).1) (fun x hx => (hf' x hx).1) h1, ?_⟩
  simp only [List.cons.injEq, and_true] at h2
  unfold paramLine at h2
  have := (List.append_inj' h2 rfl).1
  exact List.append_cancel_left this

/-- A text that is signed. -/
example : base id id "GET".toList "/a".toList (fun f => if f = "date".toList then some "now".toList else none)
    ["@method".toList, "@path".toList, "date".toList] [("created".toList, "5".toList)] =
    "\"@method\": GET\n\"@path\": /a\n\"date\": now\n\"@signature-params: (@method @path date);created=5\"".toList := by decide +kernel

/-- Headers of a toy request. -/
def Demo.headers (a b : Str) : Str → Option Str := fun f => if f = "a".toList then some a else if f = "b".toList then some b else none

/-- The hypotheses are met. -/
example : Fits (["a".toList, "@path".toList].filterMap (covered id id "GET".toList "/x".toList (Demo.headers "1".toList "2".toList))) := by
  have : ∀ x ∈ ["a".toList, "@path".toList].filterMap (covered id id "GET".toList "/x".toList (Demo.headers "1".toList "2".toList)),
      '"' ∉ x.1 ∧ '\n' ∉ x.1 ∧ '\n' ∉ x.2 := by decide +kernel
  exact this

/-- **C201 fails** for values with line ends: two requests of which both headers differ have the same signed text. -/
theorem c201_line_ends :
    base id id [] [] (Demo.headers "1\n\"b\": 2".toList "3".toList) ["a".toList, "b".toList] [] =
      base id id [] [] (Demo.headers "1".toList "2\n\"b\": 3".toList) ["a".toList, "b".toList] [] := by decide +kernel

/-- **C201 fails** as a promise to cover what is asked for: fields that are not in the request, and unknown ones beginning with `@`, are left out, and
the text is that of not asking for them. For any request. -/
theorem c201_skipped (lower strip : Str → Str) (method path : Str) (headers : Str → Option Str) (fields : List Str) (ps : List (Str × Str)) (f : Str)
    (hf : (f.head? = some '@' ∧ f ≠ "@method".toList ∧ f ≠ "@path".toList) ∨ (f.head? ≠ some '@' ∧ headers (lower f) = none)) :
    base lower strip method path headers (f :: fields) ps = base lower strip method path headers fields ps := by
  have : covered lower strip method path headers f = none := by
    unfold covered
    rcases hf with ⟨h1, h2, h3⟩ | ⟨h1, h2⟩
    · rw [if_pos h1, if_neg h2, if_neg h3]
    · rw [if_neg h1, h2]; rfl
  unfold base
  rw [List.filterMap_cons, this]

/-! ## C202 -/

/-- **C202.** An introduction is served only of an identifier that is known and fully witnessed, with its delegator known if it has one, and that is an
own one or has an own one among its witnesses; it then names the identifier asked for (or the default) and its messages are not empty. When the others
hold and it is neither own nor witnessed by an own one, the request is not acceptable; in all other cases nothing is found. -/
theorem c202_served {Id Role M : Type} [DecidableEq Id] (default : Option Id) (kevers : Id → Option (State Id)) (prefixes : List Id) (witness : Role)
    (pick : List Id → Option Id) (hpick : ∀ l x, pick l = some x → x ∈ l) (hpick' : ∀ l, pick l = none → l = [])
    (reply : Id → Id → Option Role → List Id → List M)
    (replay : Id → List M) (aid : Option Id) (role : Option Role) (eid : Option Id) :
    let r := onGet default kevers prefixes witness pick reply replay aid role eid
    (r.1 = .ok → ∃ a k h, (aid = some a ∨ aid = none ∧ default = some a) ∧ kevers a = some k ∧ k.witnessed = true ∧
      (∀ d, k.delegator = some d → ∃ kd, kevers d = some kd) ∧ (a ∈ prefixes ∧ h = a ∨ a ∉ prefixes ∧ h ∈ k.wits ∧ h ∈ prefixes) ∧
      r.2.1 = some a ∧ r.2.2 ≠ [] ∧
      (r.2.2 = reply h a role eid.toList ∨ role = none ∧ r.2.2 = reply h a (some witness) eid.toList ++ replay a)) ∧
    (r.1 = .notAcceptable ↔ ∃ a k, (aid = some a ∨ aid = none ∧ default = some a) ∧ kevers a = some k ∧ k.witnessed = true ∧
      (∀ d, k.delegator = some d → ∃ kd, kevers d = some kd) ∧ a ∉ prefixes ∧ ∀ w, w ∈ k.wits → w ∉ prefixes) ∧
    (r.1 ≠ .ok → r.2 = (none, [])) := by
  have hor : ∀ a, aid.or default = some a ↔ (aid = some a ∨ aid = none ∧ default = some a) := by
    intro a; cases aid <;> simp
  unfold onGet
  cases ho : aid.or default with
  | none =>
    refine ⟨by simp, ?_, by simp⟩
    simp only [reduceCtorEq, false_iff]
    rintro ⟨a, k, ha, _⟩
    rw [← hor, ho] at ha; cases ha
  | some a =>
    have ha := (hor a).1 ho
    have huniq : ∀ a', (aid = some a' ∨ aid = none ∧ default = some a') → a' = a := by
      intro a' h; rw [← hor, ho] at h; injection h with h; exact h.symm
    simp only
    cases hk : kevers a with
    | none =>
      refine ⟨by simp, ?_, by simp⟩
      simp only [reduceCtorEq, false_iff]
      rintro ⟨a', k, h', hk', _⟩
      rw [huniq a' h', hk] at hk'; cases hk'
    | some k =>
      simp only
      by_cases hw : k.witnessed = false
      · rw [if_pos hw]
        refine ⟨by simp, ?_, by simp⟩
        simp only [reduceCtorEq, false_iff]
        rintro ⟨a', k', h', hk', hw', _⟩
        rw [huniq a' h', hk] at hk'; injection hk' with hk'; subst hk'; rw [hw] at hw'; cases hw'
      · rw [if_neg hw]
        have hw : k.witnessed = true := by simpa using hw
        have hdel : delegatorMissing kevers k = true ↔ ¬ ∀ d, k.delegator = some d → ∃ kd, kevers d = some kd := by
          unfold delegatorMissing
          cases k.delegator with
          | none => simp
          | some d => cases hkd : kevers d <;> simp [hkd]
        by_cases hd : delegatorMissing kevers k = true
        · rw [if_pos hd]
          refine ⟨by simp, ?_, by simp⟩
          simp only [reduceCtorEq, false_iff]
          rintro ⟨a', k', h', hk', _, hd', _⟩
          rw [huniq a' h', hk] at hk'; injection hk' with hk'; subst hk'; exact hdel.1 hd hd'
        · rw [if_neg hd]
          have hd' : ∀ d, k.delegator = some d → ∃ kd, kevers d = some kd := by
            apply Decidable.byContradiction (dec := Classical.propDecidable _)
            intro hc; exact hd (hdel.2 hc)
          cases hh : (if a ∈ prefixes then some a else pick (k.wits.filter (· ∈ prefixes))) with
          | none =>
            by_cases hap : a ∈ prefixes
            · rw [if_pos hap] at hh; cases hh
            · rw [if_neg hap] at hh
              have hnil := hpick' _ hh
              refine ⟨by simp, ?_, by simp⟩
              simp only [true_iff]
              refine ⟨a, k, ha, hk, hw, hd', hap, ?_⟩
              intro w hwm hwp
              have : w ∈ k.wits.filter (· ∈ prefixes) := List.mem_filter.2 ⟨hwm, by simpa using hwp⟩
              rw [hnil] at this; simp at this
          | some h =>
            have hpos : a ∈ prefixes ∧ h = a ∨ a ∉ prefixes ∧ h ∈ k.wits ∧ h ∈ prefixes := by
              by_cases hap : a ∈ prefixes
              · rw [if_pos hap] at hh; injection hh with hh; exact .inl ⟨hap, hh.symm⟩
              · rw [if_neg hap] at hh
                have := List.mem_filter.1 (hpick _ _ hh)
                exact .inr ⟨hap, this.1, by simpa using this.2⟩
            have hnot : ¬ ∃ a' k', (aid = some a' ∨ aid = none ∧ default = some a') ∧ kevers a' = some k' ∧ k'.witnessed = true ∧
                (∀ d, k'.delegator = some d → ∃ kd, kevers d = some kd) ∧ a' ∉ prefixes ∧ ∀ w, w ∈ k'.wits → w ∉ prefixes := by
              rintro ⟨a', k', h', hk', _, _, hnp, hnw⟩
              rw [huniq a' h'] at hk' hnp
              rw [hk] at hk'; injection hk' with hk'; subst hk'
              rcases hpos with ⟨hp, _⟩ | ⟨_, hp, hq⟩
              · exact hnp hp
              · exact hnw h hp hq
            simp only
            generalize hmsgs : (if (reply h a role eid.toList).isEmpty = true ∧ role.isNone = true then
              reply h a (some witness) eid.toList ++ replay a else reply h a role eid.toList) = msgs
            by_cases hmt : msgs.isEmpty = true
            · rw [if_pos hmt]
              exact ⟨by simp, by simp only [reduceCtorEq, false_iff]; exact hnot, by simp⟩
            · rw [if_neg hmt]
              refine ⟨fun _ => ⟨a, k, h, ha, hk, hw, hd', hpos, rfl, by simpa using hmt, ?_⟩, by
                simp only [reduceCtorEq, false_iff]; exact hnot, by simp⟩
              rw [← hmsgs]
              split
              · rename_i hr; exact .inr ⟨by simpa using hr.2, rfl⟩
              · exact .inl rfl

/-- A witness answers for an identifier it witnesses, without a role, with what it has of the role of witness and the log. -/
example : onGet (Id := Nat) (Role := Nat) (M := Nat) none (fun a => if a = 7 then some ⟨true, none, [3, 4]⟩ else none) [4] 1
    List.head? (fun _ _ r _ => if r = some 1 then [10] else []) (fun _ => [20, 21]) (some 7) none none = (.ok, some 7, [10, 20, 21]) := by
  decide +kernel

end Verif.Http
