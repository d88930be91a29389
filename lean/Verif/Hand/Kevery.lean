import Verif.Hand.PropsHand
import Verif.Rct.PropsStored

/-!
# A node that reads bytes (C151, C152)

The hand-over of `Verif.Hand.Model` put together with the stream parser of `Verif.Prs` and the Kevery of `Verif.Kel` and `Verif.Rct`: a node
whose key events and receipts come from a stream of bytes.
-/

namespace Verif.Hand

open Verif.Prs
open Verif.Kel (Env Event Sig Couple Node Inp NoColl)
open Verif.Rct

/-- How bodies and attachments are read as the values of the node models (the objects are the same in Python, the models name them
differently): bodies as key events or receipts, attachments as signatures, couples, groups, source seals and first-seen ordinals. -/
structure Dec (β : Type) where
  event : β → Event
  rct : β → Rct
  sig : Elem → Sig
  cigar : Elem → Cigar
  group : Elem → Group
  couple : Elem → Couple
  num : Elem → Nat

/-- An exception or none. -/
def resOf {ε : Type} : Except ε Unit → Res
  | .ok () => .ok
  | .error _ => .raised

/-- parsing.py:1405-1411, 1427: the calls of a Kevery with their effect on key event logs and receipts; the other calls leave these as they
are.  `lax` is that of the Kevery, `isLocal` that of the parser; `eager` is its default. -/
def Procs.onKevery {β : Type} (P : Procs RNode β) (env : Env) (lax isLocal : Bool) (D : Dec β) : Procs RNode β :=
  { P with
    kram := fun d r => (r, (P.kram d r).2)
    call := fun c r =>
      match c with
      | .event d _ a =>
        let o := r.node.processEvent env (D.event d.body) ((d.get .sigers).map D.sig) ((d.get .wigers).map D.sig) (a.map D.couple) false isLocal
        ({ r with node := o.1 }, match o.2 with | .ok _ => .ok | .error _ => .raised)
      | .couples d f =>
        let o := r.couples env lax isLocal (D.event d.body) (f.map D.num) ((d.get .cigars).map D.cigar)
        (o.1, resOf o.2)
      | .groups d f =>
        let o := r.groups env lax isLocal (D.event d.body) (f.map D.num) ((d.get .rsgs).map D.group)
        (o.1, resOf o.2)
      | .receipt d =>
        let o := r.receipt env lax isLocal (D.rct d.body) ((d.get .cigars).map D.cigar) ((d.get .wigers).map D.sig) ((d.get .tsgs).map D.group)
          ((d.get .rsgs).map D.group)
        (o.1, resOf o.2)
      | c => (r, (P.call c r).2) }

/-- The input of the node models that a message stands for. -/
inductive Means {β : Type} (lax isLocal : Bool) (D : Dec β) (head : β → Head) (e : Exts β) : RInp → Prop where
  | event {i : Ilk} : (head e.body).ilk = some i → i ∈ [.icp, .rot, .ixn, .dip, .drt] → e.get .sigers ≠ [] →
      Means lax isLocal D head e (.kel (.event (D.event e.body) ((e.get .sigers).map D.sig) ((e.get .wigers).map D.sig)
        ((e.get .sscs).getLast?.map D.couple) false isLocal))
  | couples {i : Ilk} : (head e.body).ilk = some i → i ∈ [.icp, .rot, .ixn, .dip, .drt] →
      Means lax isLocal D head e (.couples lax isLocal (D.event e.body) ((e.get .frcs).getLast?.map D.num) ((e.get .cigars).map D.cigar))
  | groups {i : Ilk} : (head e.body).ilk = some i → i ∈ [.icp, .rot, .ixn, .dip, .drt] →
      Means lax isLocal D head e (.groups lax isLocal (D.event e.body) ((e.get .frcs).getLast?.map D.num) ((e.get .rsgs).map D.group))
  | receipt : (head e.body).ilk = some .rct →
      Means lax isLocal D head e (.receipt lax isLocal (D.rct e.body) ((e.get .cigars).map D.cigar) ((e.get .wigers).map D.sig)
        ((e.get .tsgs).map D.group) ((e.get .rsgs).map D.group))

variable {β : Type} {P : Procs RNode β} {env : Env} {lax isLocal : Bool} {D : Dec β}

/-- The state after a list of calls. -/
def doneBy (P : Procs RNode β) (r : RNode) (cs : List (Call β)) : RNode := cs.foldl (fun r c => (P.call c r).1) r

theorem doneBy_snoc (P : Procs RNode β) (r : RNode) (cs : List (Call β)) (c : Call β) :
    doneBy P r (cs ++ [c]) = (P.call c (doneBy P r cs)).1 := by simp [doneBy, List.foldl_append]

/-- The state is that of the calls made. -/
def Track (P : Procs RNode β) (s : RNode) (r : Run RNode β) : Prop := r.st = doneBy P s r.calls

theorem Track.call {P : Procs RNode β} {s : RNode} {r : Run RNode β} (h : Track P s r) (c : Call β) : Track P s (r.call P c) := by
  unfold Run.call
  split
  · unfold Track
    rw [doneBy_snoc, ← h]
  · exact h

theorem Track.raise {P : Procs RNode β} {s : RNode} {r : Run RNode β} (h : Track P s r) : Track P s r.raise := h

theorem Track.query {P : Procs RNode β} {s : RNode} {r : Run RNode β} (h : Track P s r) (b : Bool) (d : Dict β) (src : Source) (l : List Elem) :
    Track P s (query P b d src l r) := by
  unfold Hand.query
  split
  all_goals first
    | exact h.raise
    | (split
       · exact h.raise
       · exact h.call _)

theorem Track.reply {P : Procs RNode β} {s : RNode} {r : Run RNode β} (h : Track P s r) (b : Bool) (d : Dict β) : Track P s (reply P b d r) := by
  unfold Hand.reply
  split
  · exact h.raise
  · split
    · exact h.raise
    · exact h.call _

theorem Track.exchange {P : Procs RNode β} {s : RNode} {r : Run RNode β} (h : Track P s r) (b : Bool) (d : Dict β) : Track P s (exchange P b d r) := by
  unfold Hand.exchange
  split
  · exact h.raise
  · split
    · exact h.raise
    · exact h.call _

theorem msgProcess_track (d : Dict β) (s : RNode) :
    Track (P.onKevery env lax isLocal D) s (msgProcess (P.onKevery env lax isLocal D) d s) := by
  have h0 : ∀ b, Track (P.onKevery env lax isLocal D) s ⟨s, [], b⟩ := fun _ => rfl
  unfold msgProcess
  split
  · unfold keri
    split
    · unfold processMsg
      dsimp only
      split
      · exact h0 _
      · have h1 : Track (P.onKevery env lax isLocal D) s ({ st := ((P.onKevery env lax isLocal D).kram d s).1, calls := [], live := true } : Run RNode β) := rfl
        split
        · exact h1
        · split
          · unfold query2
            split
            · exact h1.query _ _ _ _
            · split
              · split
                · exact h1
                · exact h1.query _ _ _ _
              · split
                · exact h1
                · exact h1.query _ _ _ _
          · exact h1.reply _ _
          · exact h1.exchange _ _
          · exact h1
          · exact h1
          · exact h1
          · exact h1
    split
    · unfold keyEvent
      dsimp only
      split
      · exact h0 _
      split
      · exact h0 _
      have h1 := (h0 true).call (.event d (d.get .frcs).getLast? (d.get .sscs).getLast?)
      generalize Run.call (P.onKevery env lax isLocal D) (.event d (d.get .frcs).getLast? (d.get .sscs).getLast?) ⟨s, [], true⟩ = r1 at h1 ⊢
      have h2 : Track (P.onKevery env lax isLocal D) s (if d.get .cigars = [] then r1 else r1.call (P.onKevery env lax isLocal D) (.couples d (d.get .frcs).getLast?)) := by
        split
        · exact h1
        · exact h1.call _
      generalize (if d.get .cigars = [] then r1 else r1.call (P.onKevery env lax isLocal D) (.couples d (d.get .frcs).getLast?)) = r2 at h2 ⊢
      split
      · exact h2
      · exact h2.call _
    split
    · unfold receipt
      split
      · exact h0 _
      split
      · exact h0 _
      · exact (h0 _).call _
    split
    · exact (h0 _).reply _ _
    split
    · unfold query1
      split
      · exact (h0 _).query _ _ _ _
      · exact h0 _
    split
    · exact (h0 _).exchange _ _
    split
    · split
      · exact h0 _
      · exact (h0 _).call _
    · exact h0 _
  · exact h0 _
  · split
    · exact h0 _
    · exact (h0 _).call _
  · exact h0 _
  · exact h0 _

/-- A call that fits a message is the input the message stands for, or no input at all. -/
theorem call_means {e : Exts β} {c : Call β} (h : Fits (P.head e.body) (asdict e) c) (r : RNode) :
    ((P.onKevery env lax isLocal D).call c r).1 = r ∨
    ∃ i, Means lax isLocal D P.head e i ∧ ((P.onKevery env lax isLocal D).call c r).1 = r.step env i := by
  have hg : ∀ s, (asdict e).get s = e.get s := asdict_get e
  have hb : (asdict e).body = e.body := asdict_body e
  cases h with
  | event h1 h2 h3 h4 =>
    refine Or.inr ⟨_, .event h2 h3 (by rw [← hg]; exact h4), ?_⟩
    simp only [Procs.onKevery, RNode.step, Node.step, hg, hb, Dict.last]
  | couples h1 h2 h3 h4 h5 =>
    refine Or.inr ⟨_, .couples h2 h3, ?_⟩
    simp only [Procs.onKevery, RNode.step, hg, hb, Dict.last]
  | groups h1 h2 h3 h4 h5 =>
    refine Or.inr ⟨_, .groups h2 h3, ?_⟩
    simp only [Procs.onKevery, RNode.step, hg, hb, Dict.last]
  | receipt h1 h2 h3 =>
    refine Or.inr ⟨_, .receipt h2, ?_⟩
    simp only [Procs.onKevery, RNode.step, hg, hb]
  | reply h1 h2 h3 => exact Or.inl rfl
  | exchange h1 h2 h3 => exact Or.inl rfl
  | queryKel h1 h2 h3 h4 => exact Or.inl rfl
  | queryTel h1 h2 h3 h4 => exact Or.inl rfl
  | tel h1 h2 h3 => exact Or.inl rfl
  | acdc h1 h2 => exact Or.inl rfl

theorem run_append (r : RNode) (h h' : List RInp) : r.run env (h ++ h') = (r.run env h).run env h' := by simp [RNode.run, List.foldl_append]

theorem calls_history {e : Exts β} : ∀ (cs : List (Call β)) (r : RNode), (∀ c ∈ cs, Fits (P.head e.body) (asdict e) c) →
    ∃ h : List RInp, (∀ i ∈ h, Means lax isLocal D P.head e i) ∧ doneBy (P.onKevery env lax isLocal D) r cs = r.run env h := by
  intro cs
  induction cs with
  | nil => intro r _; exact ⟨[], by simp, rfl⟩
  | cons c cs ih =>
    intro r hf
    obtain ⟨h, h1, h2⟩ := ih ((P.onKevery env lax isLocal D).call c r).1 (fun x hx => hf x (by simp [hx]))
    have hd : doneBy (P.onKevery env lax isLocal D) r (c :: cs) = doneBy (P.onKevery env lax isLocal D) ((P.onKevery env lax isLocal D).call c r).1 cs := rfl
    rcases call_means (env := env) (lax := lax) (isLocal := isLocal) (D := D) (hf c (by simp)) r with g | ⟨i, g1, g2⟩
    · rw [hd, h2, g]
      exact ⟨h, h1, rfl⟩
    · rw [hd, h2, g2]
      exact ⟨i :: h, by intro j hj; rcases List.mem_cons.1 hj with rfl | hj; exact g1; exact h1 j hj, rfl⟩

/-- **C152.** Whatever bytes arrive and in whatever pieces: what they make of a node is what a history of the node models makes of it, in which every
input is a key event, attached receipt or receipt message that was read from the stream, with the signatures attached to that very message.
So what holds of every history of the node models holds of every stream of bytes. -/
theorem c152_bytes (P : Procs RNode β) (env : Env) (lax isLocal : Bool) (D : Dec β) (L : Loader β) (framed : Bool) (n : Nat) (st : St) (r : RNode) :
    ∃ h : List RInp, feed (P.onKevery env lax isLocal D) r ((parsator L framed n st).map asdict) = r.run env h ∧
      ∀ i ∈ h, ∃ e ∈ parsator L framed n st, Means lax isLocal D P.head e i := by
  generalize parsator L framed n st = es
  induction es generalizing r with
  | nil => exact ⟨[], rfl, by simp⟩
  | cons e es ih =>
    have ht := msgProcess_track (P := P) (env := env) (lax := lax) (isLocal := isLocal) (D := D) (asdict e) r
    obtain ⟨h1, a1, a2⟩ := calls_history (P := P) (env := env) (lax := lax) (isLocal := isLocal) (D := D) (e := e)
      (msgProcess (P.onKevery env lax isLocal D) (asdict e) r).calls r (fun c hc => by
        have := c148_fits _ _ _ c hc
        rw [asdict_body] at this
        exact this)
    rw [← ht] at a2
    obtain ⟨h2, b1, b2⟩ := ih (msgProcess (P.onKevery env lax isLocal D) (asdict e) r).st
    refine ⟨h1 ++ h2, ?_, ?_⟩
    · rw [run_append, ← a2, ← b1]
      rfl
    · intro i hi
      rcases List.mem_append.1 hi with hi | hi
      · exact ⟨e, by simp, a1 i hi⟩
      · obtain ⟨e', c1, c2⟩ := b2 i hi
        exact ⟨e', by simp [c1], c2⟩

theorem means_delivers {e : Exts β} {i : RInp} {head : β → Head} (h : Means lax isLocal D head e i) (x : Event) (hx : i.delivers = some x) : x = D.event e.body := by
  cases h <;> simp [RInp.delivers, Inp.delivers] at hx <;> exact hx.symm

/-- **C152, reached states.** A node that starts empty and reads nothing but bytes is in a reached state, as far as key events and receipts are concerned. -/
theorem c152_reached (P : Procs RNode β) (env : Env) (lax isLocal : Bool) (D : Dec β) (L : Loader β) (framed : Bool) (n : Nat) (st : St) (U : Event → Prop)
    (hU : ∀ e ∈ parsator L framed n st, U (D.event e.body)) (r : RNode) (hr : RReached env U r) :
    RReached env U (feed (P.onKevery env lax isLocal D) r ((parsator L framed n st).map asdict)) := by
  obtain ⟨h, h1, h2⟩ := c152_bytes P env lax isLocal D L framed n st r
  obtain ⟨p, g, m, h', hd, rfl⟩ := hr
  refine ⟨p, g, m, h' ++ h, ?_, by rw [h1, run_append]⟩
  intro i hi e he
  rcases List.mem_append.1 hi with hi | hi
  · exact hd i hi e he
  · obtain ⟨x, x1, x2⟩ := h2 i hi
    rw [means_delivers x2 e he]
    exact hU x x1

/-- **C152, nothing is accepted without signatures, whatever bytes arrive.** Every event in a log of a node fed with bytes was the body of a message in
the stream and is signed by the keys in force, to their threshold. -/
theorem c152_signed (P : Procs RNode β) (env : Env) (lax isLocal : Bool) (D : Dec β) (L : Loader β) (framed : Bool) (n : Nat) (st : St)
    (hc : ∀ e ∈ parsator L framed n st, ∀ e' ∈ parsator L framed n st, (D.event e.body).said = (D.event e'.body).said → D.event e.body = D.event e'.body)
    (ps gs : List Verif.Kel.Id) (mid : Verif.Kel.Id → Option Verif.Kel.Id) (p : Verif.Kel.Id) (x : Event)
    (hx : Verif.Kel.Accepted (feed (P.onKevery env lax isLocal D) (RNode.start ps gs mid) ((parsator L framed n st).map asdict)).node.db p x) :
    (∃ e ∈ parsator L framed n st, x = D.event e.body) ∧
    ∃ a vs, Verif.Kel.Authority (feed (P.onKevery env lax isLocal D) (RNode.start ps gs mid) ((parsator L framed n st).map asdict)).node.db p x a ∧
      vs ≠ [] ∧ vs.Nodup ∧ (∀ s ∈ vs, Verif.Kel.SignedBy env a.keys x s) ∧ Verif.Thold.satisfy a.kt (vs.map Sig.index) = true := by
  let U : Event → Prop := fun y => ∃ e ∈ parsator L framed n st, y = D.event e.body
  have hnc : NoColl U := by
    rintro a b ⟨e, e1, rfl⟩ ⟨e', e2, rfl⟩ hs
    exact hc e e1 e' e2 hs
  have hr := c152_reached P env lax isLocal D L framed n st U (fun e he => ⟨e, he, rfl⟩) (RNode.start ps gs mid)
    ⟨ps, gs, mid, [], by intro i hi; simp at hi, rfl⟩
  have hk := c34_key_events hnc hr
  refine ⟨(hk.evtU p x.said x hx.2).2.2, ?_⟩
  obtain ⟨a, vs, h1, _, h3, h4, h5, h6⟩ := Verif.Kel.c19_signing_threshold hnc hk p x hx
  exact ⟨a, vs, h1, h3, h4, fun s hs => (h5 s hs).2, h6⟩

/-! ## Receipts attached to key events -/

/-- **C151.** If the event of a message is accepted or already known (its processing raises no exception), its couples and, unless these raise one, its groups of
receipts are processed with it. -/
theorem c151_receipts_partial (P : Procs RNode β) (hp : Equipped P) (d : Dict β) (r : RNode) (i : Ilk) (hc : (P.head d.body).cls = .keri)
    (hi : (P.head d.body).ilk = some i) (he : i ∈ [Ilk.icp, .rot, .ixn, .dip, .drt]) (hs : d.get .sigers ≠ []) (o : Node × Except Verif.Kel.Exn Unit)
    (ho : r.node.processEvent env (D.event d.body) ((d.get .sigers).map D.sig) ((d.get .wigers).map D.sig) ((d.last .sscs).map D.couple) false isLocal = o)
    (hok : o.2 = .ok ()) (hcs : d.get .cigars ≠ []) (hg : d.get .rsgs = []) :
    (msgProcess (P.onKevery env lax isLocal D) d r).st =
      (({ r with node := o.1 } : RNode).couples env lax isLocal (D.event d.body) ((d.last .frcs).map D.num) ((d.get .cigars).map D.cigar)).1 := by
  have hev : i.isEvent = true := by unfold Ilk.isEvent; simp at he; simp; exact he
  have hmsg : i.isMsg = false := by simp at he; rcases he with rfl | rfl | rfl | rfl | rfl <;> rfl
  unfold msgProcess
  have hh : (P.onKevery env lax isLocal D).head = P.head := rfl
  rw [hh]
  generalize hhd : P.head d.body = h at *
  obtain ⟨cls, major, ilk, route, sender⟩ := h
  dsimp only at hc hi ⊢
  subst hc hi
  dsimp only
  unfold keri
  rw [hh, hhd]
  simp only [hmsg, Bool.and_false, Bool.false_eq_true, if_false, hev, if_true]
  unfold keyEvent
  dsimp only
  have hk : (P.onKevery env lax isLocal D).kvy = true := hp.kvy
  simp only [if_neg hs, hk, Bool.not_true, Bool.false_eq_true, if_false, if_neg hcs, hg, if_true]
  unfold Dict.last at ho ⊢
  simp only [Run.call, if_true]
  simp only [Procs.onKevery, ho, hok, decide_true, if_true]

/-- **C151 fails for events that wait.** If the processing of the event raises an exception, as it does when the event is put into an escrow, none of the receipts
attached to it are stored or put into an escrow, whatever becomes of the event later. -/
theorem c151_receipts_lost (P : Procs RNode β) (d : Dict β) (r : RNode) (i : Ilk) (hc : (P.head d.body).cls = .keri)
    (hi : (P.head d.body).ilk = some i) (he : i ∈ [Ilk.icp, .rot, .ixn, .dip, .drt]) (x : Verif.Kel.Exn)
    (ho : (r.node.processEvent env (D.event d.body) ((d.get .sigers).map D.sig) ((d.get .wigers).map D.sig) ((d.last .sscs).map D.couple) false isLocal).2 =
      .error x) :
    (msgProcess (P.onKevery env lax isLocal D) d r).st.store = r.store := by
  have hev : i.isEvent = true := by unfold Ilk.isEvent; simp at he; simp; exact he
  have hmsg : i.isMsg = false := by simp at he; rcases he with rfl | rfl | rfl | rfl | rfl <;> rfl
  unfold msgProcess
  have hh : (P.onKevery env lax isLocal D).head = P.head := rfl
  rw [hh]
  generalize hhd : P.head d.body = h at *
  obtain ⟨cls, major, ilk, route, sender⟩ := h
  dsimp only at hc hi ⊢
  subst hc hi
  dsimp only
  unfold keri
  rw [hh, hhd]
  simp only [hmsg, Bool.and_false, Bool.false_eq_true, if_false, hev, if_true]
  unfold keyEvent
  dsimp only
  split
  · rfl
  split
  · rfl
  unfold Dict.last at ho
  have h1 : (Run.call (P.onKevery env lax isLocal D) (.event d (d.get .frcs).getLast? (d.get .sscs).getLast?) ⟨r, [], true⟩).live = false ∧
      (Run.call (P.onKevery env lax isLocal D) (.event d (d.get .frcs).getLast? (d.get .sscs).getLast?) ⟨r, [], true⟩).st.store = r.store := by
    simp only [Run.call, if_true]
    simp only [Procs.onKevery, ho]
    exact ⟨by decide, trivial⟩
  generalize (Run.call (P.onKevery env lax isLocal D) (.event d (d.get .frcs).getLast? (d.get .sscs).getLast?) ⟨r, [], true⟩) = r1 at h1 ⊢
  have dead : ∀ c, Run.call (P.onKevery env lax isLocal D) c r1 = r1 := fun c => by unfold Run.call; rw [h1.1]; rfl
  simp only [dead, ite_self]
  exact h1.2

end Verif.Hand
