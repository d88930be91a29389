import Verif.Bsr.PropsIssue
import Verif.Bsr.PropsName
import Verif.Kel.Demo

/-!
# Registries of blindable state: concrete cases that meet the hypotheses, and failures of C162, C163, C165, C167–C169
-/

namespace Verif.Bsr.DemoBsr

open Verif.Kel (Id Dig Node Seal Event)
open Verif.Kel.Demo (env icp ixn1 recv)

/-- Registry 3000 of identifier 1 with two updates, and another update for the place of the first. -/
def rip : REvt := ⟨.rip, 3000, 1, 0, 0, 0⟩
def bup1 : REvt := ⟨.bup, 3001, 0, 3000, 1, 3000⟩
def bup2 : REvt := ⟨.bup, 3002, 0, 3000, 2, 3001⟩
def bup1' : REvt := ⟨.bup, 3011, 0, 3000, 1, 3000⟩

/-- The log of identifier 1: a key event with the seal of each. -/
def s1 : Event := { ixn1 with seals := [⟨3000, 0, 3000⟩] }
def s2 : Event := { ixn1 with sn := 2, said := 12, prior := 11, seals := [⟨3000, 1, 3001⟩] }
def s3 : Event := { ixn1 with sn := 3, said := 13, prior := 12, seals := [⟨3000, 2, 3002⟩, ⟨3000, 1, 3011⟩] }
/-- The log of identifier 2, with the seal of the first update. -/
def t0 : Event := { icp with pre := 2, said := 50, keys := [201], ndigs := [702] }
def t1 : Event := { ixn1 with pre := 2, said := 51, prior := 50, seals := [⟨3000, 1, 3001⟩] }

def keyEvents : List Event := [icp, s1, s2, s3, t0, t1]
def U : Event → Prop := fun e => e ∈ keyEvents
def straight : List REvt := [rip, bup1, bup2]
def every : List REvt := [rip, bup1, bup2, bup1']
def V : REvt → Prop := fun e => e ∈ every
/-- Without the competing update. -/
def V1 : REvt → Prop := fun e => e ∈ straight
instance (e : REvt) : Decidable (V e) := inferInstanceAs (Decidable (e ∈ every))
instance (e : REvt) : Decidable (V1 e) := inferInstanceAs (Decidable (e ∈ straight))

theorem noCollU : Kel.NoColl U := by
  have h : ∀ x ∈ keyEvents, ∀ y ∈ keyEvents, x.said = y.said → x = y := by decide +kernel
  exact fun x y hx hy => h x hx y hy

theorem noColl : NoColl V := by
  have h : ∀ x ∈ every, ∀ y ∈ every, x.said = y.said → x = y := by decide +kernel
  exact fun x y hx hy => h x hx y hy

theorem noColl1 : NoColl V1 := by
  have h : ∀ x ∈ straight, ∀ y ∈ straight, x.said = y.said → x = y := by decide +kernel
  exact fun x y hx hy => h x hx y hy

theorem single : Single V1 := by
  have h : ∀ x ∈ straight, ∀ y ∈ straight, (if x.ilk = .rip then x.said else x.rd) = (if y.ilk = .rip then y.said else y.rd) → x.n = y.n → x = y := by
    decide +kernel
  exact fun x y hx hy => h x hx y hy

def run (w : World) (l : List Inp) : World := l.foldl (World.step env) w

/-- Whether each step passes a test. -/
def chk (g : World → Inp → Bool) : World → List Inp → Bool
  | _, [] => true
  | w, i :: l => g w i && chk g (w.step env i) l

theorem hist_trans {G : World → Inp → Prop} {a b c : World} (h : Hist env G a b) (h' : Hist env G b c) : Hist env G a c := by
  induction h' with
  | nil => exact h
  | step i _ g ih => exact .step i ih g

theorem hist_chk {g : World → Inp → Bool} {G : World → Inp → Prop} (hg : ∀ w i, g w i = true → G w i) (l : List Inp) {w : World} (h : chk g w l = true) :
    Hist env G w (run w l) := by
  induction l generalizing w with
  | nil => exact .nil
  | cons i l ih =>
    unfold chk at h
    simp only [Bool.and_eq_true] at h
    exact hist_trans (.step i .nil (hg w i h.1)) (ih h.2)

/-- The event that a call hands over. -/
def handed (w : World) : Call → List REvt
  | .event _ e => [e]
  | .make h said => match w.objs[h]? with
    | some o => [⟨.rip, said, o.hab, 0, 0, 0⟩]
    | none => []
  | .makeRegistry _ pre said => [⟨.rip, said, pre, 0, 0, 0⟩]
  | .blind h _ said => match w.objs[h]? with
    | some o => match o.regk with
      | some k => match w.s.heads k with
        | some d => match w.s.evts d with
          | some hd => [⟨.bup, said, 0, k, hd.n + 1, hd.said⟩]
          | none => []
        | none => []
      | none => []
    | none => []
  | _ => []

theorem handed_of {w : World} {c : Call} {e : REvt} (h : Hands w c e) : e ∈ handed w c := by
  cases h with
  | event h e => simp [handed]
  | make h said o ho => simp [handed, ho]
  | registry name pre said => simp [handed]
  | blind h a said o k d hd ho hk hh he => simp [handed, ho, hk, hh, he]

def within (L : List REvt) (w : World) (i : Inp) : Bool := match i.calls with
  | some c => (handed w c).all (fun e => decide (e ∈ L))
  | none => true

theorem within_of {L : List REvt} (w : World) (i : Inp) (h : within L w i = true) : Within (fun e => e ∈ L) w i := by
  intro c e hc he
  unfold within at h
  rw [hc] at h
  exact of_decide_eq_true (List.all_eq_true.1 h e (handed_of he))

def rightly (L : List REvt) (w : World) (i : Inp) : Bool := match i.calls with
  | some (.attach hab (some k)) => L.all fun e => decide (e.ilk = .rip → e.said = k → e.iss = hab)
  | some (.event h e) => match w.objs[h]? with
    | some o => decide (o.regk = none → e.ilk = .rip)
    | none => true
  | some (.anchor _ _ _ _) => false
  | _ => true

theorem rightly_of {L : List REvt} (w : World) (i : Inp) (h : rightly L w i = true) : Rightly (fun e => e ∈ L) w i := by
  unfold rightly at h
  refine ⟨fun hab k hc e he => ?_, fun j e o hc ho => ?_, fun j d num dig o e hc => ?_⟩
  · rw [hc] at h; exact of_decide_eq_true (List.all_eq_true.1 h e he)
  · rw [hc] at h; dsimp only at h; rw [ho] at h; exact of_decide_eq_true h
  · rw [hc] at h; cases h

def whole : Inp → Bool
  | .crash _ _ => false
  | _ => true

theorem whole_of {i : Inp} (h : whole i = true) : Whole i := fun c m he => by subst he; cases h

def opened (w : World) (i : Inp) : Bool := match i.calls with
  | some (.makeRegistry _ _ _) => w.s.records.all (fun x => (look w.names x.1).isSome)
  | _ => true

theorem opened_of (w : World) (i : Inp) (h : opened w i = true) : Opened w i := by
  intro name pre said hc x hx
  unfold opened at h
  rw [hc] at h
  have := List.all_eq_true.1 h x hx
  cases hl : look w.names x.1 with
  | none => rw [hl] at this; cases this
  | some i => exact ⟨i, rfl⟩

def w0 : World := World.start (Node.start [] [] (fun _ => none)) [1, 2]
theorem hist0 {g : World → Inp → Bool} {G : World → Inp → Prop} (hg : ∀ w i, g w i = true → G w i) (l : List Inp) (h : chk g w0 l = true) :
    Hist env G (World.start (Node.start [] [] (fun _ => none)) [1, 2]) (run w0 l) := hist_chk hg l h
def key (e : Event) (k : Nat) : Inp := .kel (recv e k)
def main : Name := ⟨7, false⟩
/-- An alias such as "my.reg". -/
def dotted : Name := ⟨8, true⟩

theorem reached {L : List REvt} (l : List Inp) (h : chk (within L) w0 l = true) : Reached env (fun e => e ∈ L) (run w0 l) := ⟨_, _, hist_chk within_of l h⟩

/-- Makes the registry under an alias, seals its inception, and passes over the escrows. -/
def making : List Inp := [.call (.makeRegistry main 1 3000), key icp 101, key s1 101, .call .sweep]
/-- The credential in the calls of `blind`. -/
def cred : Acdc := ⟨true, some 3000, some 1⟩
/-- Two updates, the second handed in before the first is sealed. -/
def staged : List Inp := making ++ [.call (.blind 0 cred 3001), .call (.event 0 bup2), key s2 101, key s3 101]
def updated : List Inp := staged ++ [.call (.escrows 0)]

theorem ordinary : (run w0 making).s.tels 3000 0 = some 3000 ∧ (run w0 making).s.heads 3000 = some 3000 ∧
    (run w0 staged).s.maes 3000 = [(1, 3001), (2, 3002)] ∧ (run w0 updated).s.tels 3000 1 = some 3001 ∧ (run w0 updated).s.tels 3000 2 = some 3002 ∧
    (run w0 updated).s.heads 3000 = some 3002 ∧ (run w0 updated).s.maes 3000 = [] ∧ (run w0 updated).s.ooes 3000 = [] := by decide +kernel

theorem reached_updated : Reached env V1 (run w0 updated) := reached updated (by decide +kernel)
theorem accepted1 : Accepted (run w0 updated).s 3000 1 bup1 := ⟨by decide +kernel, by decide +kernel⟩
theorem accepted2 : Accepted (run w0 updated).s 3000 2 bup2 := ⟨by decide +kernel, by decide +kernel⟩

/-- Hypotheses of `c160_log`, `c160_chain`, `c161_stays`, `c162_accepted`. -/
example := c160_log noColl1 reached_updated 3000 2 3002 (by decide +kernel)
example := c160_chain noColl1 reached_updated (reached (L := straight) (updated ++ [.reopen]) (by decide +kernel)) 3000 3000 2 3002 (by decide +kernel) (by decide +kernel)
example := c161_stays noColl1 reached_updated (hist_chk (within_of (L := straight)) [.crash (.event 0 rip) 3, .reopen] (by decide +kernel)) 3000 2 bup2 accepted2
example := c162_accepted noColl1 reached_updated 3000 3002 (by decide +kernel)

def calm (L : List REvt) (w : World) (i : Inp) : Bool := within L w i && whole i
theorem calm_of {L : List REvt} (w : World) (i : Inp) (h : calm L w i = true) : Within (fun e => e ∈ L) w i ∧ Whole i := by
  unfold calm at h; simp only [Bool.and_eq_true] at h; exact ⟨within_of w i h.1, whole_of h.2⟩

/-- Hypotheses of `c162_head_partial`. -/
example := c162_head_partial noColl1 (⟨_, _, hist_chk (calm_of (L := straight)) updated (by decide +kernel)⟩ : Calm env V1 (run w0 updated)) 3000 3002

/-- Hypotheses of `c163_sealed_partial`, `c163_some`. -/
def apt (L : List REvt) (w : World) (i : Inp) : Bool := within L w i && rightly L w i
theorem apt_of {L : List REvt} (w : World) (i : Inp) (h : apt L w i = true) : Within (fun e => e ∈ L) w i ∧ Rightly (fun e => e ∈ L) w i := by
  unfold apt at h; simp only [Bool.and_eq_true] at h; exact ⟨within_of w i h.1, rightly_of w i h.2⟩
example := c163_sealed_partial noColl1 (hist_chk (apt_of (L := straight)) updated (by decide +kernel)) 3000 2 bup2 accepted2
example := c163_some noColl1 (hist_chk (within_of (L := straight)) updated (by decide +kernel)) 3000 2 bup2 accepted2

/-- Hypotheses of `c164_raised`, `c164_taken`, `c164_prior`. -/
example := c164_taken (run w0 updated) 0 ⟨1, some 3000, some 3002⟩ bup1' bup1 (by decide +kernel) accepted1 (by decide)
example := c164_prior (run w0 updated) 0 ⟨1, some 3000, some 3002⟩ { bup2 with prior := 3011 } bup1 1 (by decide +kernel) (by decide) rfl accepted1 (by decide)
example := c164_raised env (run w0 updated) (.event 0 bup1') (.inl (by decide +kernel))

/-- Hypotheses of `c165_kept_partial`, `c165_result`. -/
def orderly (L : List REvt) (w : World) (i : Inp) : Bool := within L w i && rightly L w i && whole i
theorem orderly_of {L : List REvt} (w : World) (i : Inp) (h : orderly L w i = true) : Orderly (fun e => e ∈ L) w i := by
  unfold orderly at h; simp only [Bool.and_eq_true] at h; exact ⟨within_of w i h.1.1, rightly_of w i h.1.2, whole_of h.2⟩
example := c165_kept_partial noColl1 (hist0 (orderly_of (L := straight)) staged (by decide +kernel))
  (hist_chk (orderly_of (L := straight)) [.call (.escrows 0)] (by decide +kernel)) bup2 (by decide) (.inl (by decide +kernel))
example := (c165_result noColl1 (reached (L := straight) making (by decide +kernel)) 0 bup1 (by decide)).2 (by decide +kernel)

theorem upto {l : List Inp} (h : chk (calm every) w0 l = true) : UpToDate (run w0 l).s 3000 :=
  upto_hist noColl (sinv_empty V) (upto_empty 3000) (hist_chk calm_of l h)

theorem node_of (l : List Inp) (w : World) : ∀ (h : ∀ i ∈ l, ∀ e, (match i with | .kel x => x.delivers | _ => none) = some e → e ∈ keyEvents) (d : List Kel.Inp),
    Kel.Delivers U d → w.nd = (Node.start [] [] (fun _ => none)).run env d → Kel.Reached env U (run w l).nd := by
  induction l generalizing w with
  | nil => intro _ d hd hn; exact ⟨[], [], fun _ => none, d, hd, hn⟩
  | cons i l ih =>
    intro h d hd hn
    have hl := fun j hj => h j (List.mem_cons_of_mem _ hj)
    cases i with
    | kel x =>
      refine ih (w.step env (.kel x)) hl (d ++ [x]) (fun y hy e he => ?_) ?_
      · rcases List.mem_append.1 hy with hy | hy
        · exact hd y hy e he
        · simp only [List.mem_singleton] at hy; subst hy; exact h _ List.mem_cons_self e he
      · show w.nd.step env x = _
        rw [hn]; simp [Kel.Node.run, List.foldl_append]
    | call c => exact ih _ hl d hd hn
    | crash c m => exact ih _ hl d hd hn
    | config hs => exact ih _ hl d hd hn
    | reopen =>
      refine ih _ hl d hd ?_
      rw [← hn]
      show ((w.down.load w.s.records).getD w.down).nd = w.nd
      have : ∀ (l : List (Name × Dig)) (a b : World), a.load l = some b → b.nd = a.nd := by
        intro l
        induction l with
        | nil => intro a b hb; cases hb; rfl
        | cons x l ih =>
          intro a b hb
          unfold World.load at hb
          cases h1 : a.load1 x with
          | none => rw [h1] at hb; cases hb
          | some a1 =>
            rw [h1] at hb
            have h2 := ih a1 b hb
            rw [h2]
            unfold World.load1 at h1
            split at h1
            · cases h1
            · split at h1
              · cases h1
              · split at h1
                · cases h1
                · split at h1
                  · cases h1
                  · split at h1 <;> cases h1 <;> rfl
      cases hl2 : w.down.load w.s.records with
      | none => rfl
      | some b => exact this _ w.down b hl2

/-- Hypotheses of `c166_pass`. -/
theorem sealed1 : Sealed (run w0 staged).nd 1 ⟨3000, 1, 3001⟩ := ⟨2, 12, s2, by decide +kernel, by decide +kernel, by decide, by decide +kernel⟩
theorem sealed2 : Sealed (run w0 staged).nd 1 ⟨3000, 2, 3002⟩ := ⟨3, 13, s3, by decide +kernel, by decide +kernel, by decide, by decide +kernel⟩

def chain : Nat → REvt
  | 0 => rip
  | 1 => bup1
  | _ => bup2

example : Accepted ((run w0 staged).step env (.call (.escrows 0))).s 3000 2 bup2 := by
  have hn : Kel.Reached env U (run w0 staged).nd := by
    refine node_of staged w0 ?_ [] (fun _ h => by cases h) rfl
    intro i hi e he
    simp only [staged, making, key, recv, List.cons_append, List.nil_append, List.mem_cons, List.not_mem_nil, or_false] at hi
    rcases hi with rfl | rfl | rfl | rfl | rfl | rfl | rfl | rfl <;> simp [Kel.Inp.delivers] at he <;> subst he <;> simp [keyEvents]
  refine c166_pass noColl1 single noCollU (reached (L := straight) staged (by decide +kernel)) hn 0 ⟨1, some 3000, some 3000⟩ (by decide +kernel) 3000 rfl
    (upto (by decide +kernel)) chain 2 ?_ ?_ (by decide) ?_ ?_ ?_ 2 (by omega)
  · intro i hi; match i with
    | 0 => decide
    | 1 => decide
    | 2 => decide
    | i + 3 => omega
  · intro i hi; match i with
    | 0 => rfl
    | 1 => rfl
    | 2 => rfl
    | i + 3 => omega
  · intro i h0 hi; match i with
    | 0 => omega
    | 1 => decide
    | 2 => decide
    | i + 3 => omega
  · intro i hi; match i with
    | 0 => rfl
    | 1 => rfl
    | i + 2 => omega
  · intro i hi; match i with
    | 0 => exact .inl ⟨by decide +kernel, by decide +kernel⟩
    | 1 => exact .inr (.inr ⟨by decide +kernel, sealed1⟩)
    | 2 => exact .inr (.inr ⟨by decide +kernel, sealed2⟩)
    | i + 3 => omega

/-- Two updates for one place, queued because the inception is not accepted yet. -/
def rivals : List Inp :=
  [key icp 101, .call (.attach 1 (some 3000)), .call (.event 0 rip), key { s1 with seals := [] } 101, key s2 101, key s3 101, .call (.event 0 bup1'),
   .call (.event 0 bup1)]

/-- C167: both wait in the queue. The inception is sealed by a later event; its acceptance takes the rest along. -/
theorem queued : (run w0 rivals).s.ooes 3000 = [(1, 3011), (1, 3001)] ∧ (run w0 rivals).s.maes 3000 = [(0, 3000)] := by decide +kernel

/-- Hypotheses of `c167_queue_partial`: a call that was cut off between the commit of the inception and the pass over the queue. -/
def s4 : Event := { ixn1 with sn := 4, said := 14, prior := 13, seals := [⟨3000, 0, 3000⟩] }
def halted : List Inp := rivals ++ [key s4 101, .crash (.escrows 0) 7, .call (.attach 1 (some 3000))]

theorem upto_halted : UpToDate (run w0 halted).s 3000 := by
  refine ⟨fun h => ?_, fun d h => ⟨0, ?_, fun m hm => ?_⟩⟩
  · have : (run w0 halted).s.heads 3000 = some 3000 := by decide +kernel
    rw [this] at h; cases h
  · have : (run w0 halted).s.heads 3000 = some 3000 := by decide +kernel
    rw [this] at h; cases h; decide +kernel
  · have hr : Reached env V (run w0 halted) := reached halted (by decide +kernel)
    have h1 : (run w0 halted).s.tels 3000 1 = none := by decide +kernel
    cases ht : (run w0 halted).s.tels 3000 m with
    | none => rfl
    | some d =>
      exfalso
      have : ∀ j d, (run w0 halted).s.tels 3000 (j + 1) = some d → False := by
        intro j
        induction j with
        | zero => intro d hd; rw [h1] at hd; cases hd
        | succ j ih =>
          intro d hd
          obtain ⟨e, _, _, _, _, h3⟩ := c160_log noColl hr 3000 (j + 2) d hd
          obtain ⟨_, _, p, hp, _⟩ := h3 (j + 1) rfl
          exact ih _ hp.1
      cases m with
      | zero => omega
      | succ m => exact this m d ht

example := c167_queue_partial noColl (reached (L := every) halted (by decide +kernel)) 0 ⟨1, some 3000, none⟩ (by decide +kernel) 3000 rfl upto_halted
  (by decide +kernel) 0 rip (by decide +kernel) ⟨by decide +kernel, by decide +kernel⟩ bup1' (by decide +kernel) (by decide +kernel) rfl

theorem first_wins : (run w0 (halted ++ [.call (.escrows 0)])).s.tels 3000 1 = some 3001 := by decide +kernel

/-- C167, what fails: with the same key events and the same registry events in another order, the update sealed later is the accepted one. -/
theorem later_wins :
    (run w0 (making ++ [key s2 101, key s3 101, .call (.event 0 bup1'), .call (.event 0 bup1)])).s.tels 3000 1 = some 3011 ∧
    (run w0 (making ++ [key s2 101, key s3 101, .call (.event 0 bup1), .call (.event 0 bup1')])).s.tels 3000 1 = some 3001 := by decide +kernel

/-- Hypotheses of `c168_issue_partial`. -/
example := c168_issue_partial noColl (reached (L := every) making (by decide +kernel)) 0 ⟨1, some 3000, some 3000⟩ (by decide +kernel) 3000 rfl (upto (by decide +kernel)) 0 rip
  (by decide +kernel) ⟨by decide +kernel, by decide +kernel⟩ 3001 (by decide)

/-- Hypotheses of `c168_refused`: another issuer. -/
example := c168_refused (run w0 making) 0 ⟨1, some 3000, some 3000⟩ (by decide +kernel) ⟨true, some 3000, some 2⟩ 3001 (.inr (.inr (by decide)))

/-- C168, what fails: of two updates made one after the other before a pass sees the seal of the first, only one is accepted, and the other, though
sealed, is dropped. -/
def twice : List Inp := making ++ [.call (.blind 0 cred 3001), .call (.blind 0 cred 3011)]
theorem dropped :
    ((run w0 (making ++ [.call (.blind 0 cred 3001)])).call (.blind 0 cred 3011)).out = .done false ∧
    (run w0 twice).s.maes 3000 = [(1, 3001), (1, 3011)] ∧
    (run w0 (twice ++ [key s2 101, key s3 101, .call (.escrows 0)])).s.tels 3000 1 = some 3001 ∧
    (run w0 (twice ++ [key s2 101, key s3 101, .call (.escrows 0)])).s.maes 3000 = [] ∧
    (run w0 (twice ++ [key s2 101, key s3 101, .call (.escrows 0)])).s.ooes 3000 = [] ∧
    (run w0 (twice ++ [key s2 101, key s3 101, .call (.escrows 0)])).s.tels 3000 2 = none := by decide +kernel

/-- C168: the latest event that the object tells goes back to an older one when an accepted event comes again. -/
theorem goes_back : ((run w0 updated).objs[0]?).map (·.regd) = some (some 3002) ∧
    ((run w0 (updated ++ [.call (.event 0 bup1)])).objs[0]?).map (·.regd) = some (some 3001) ∧
    (run w0 (updated ++ [.call (.event 0 bup1)])).s.heads 3000 = some 3002 := by decide +kernel

/-- C162, what fails: a crash between the entry in the log and that of the head. -/
def behind : List Inp := making ++ [key s2 101, .crash (.event 0 bup1) 5, .reopen]

theorem head_behind : (run w0 behind).s.heads 3000 = some 3000 ∧ (run w0 behind).s.tels 3000 1 = some 3001 ∧
    (run w0 behind).s.maes 3000 = [] ∧ (run w0 behind).s.ooes 3000 = [] ∧ look (run w0 behind).names main = some 0 := by decide +kernel

/-- No update can be made any more: hypotheses of `c162_behind` and `c162_stuck`. -/
example := c162_behind (w := run w0 behind) 3000 0 rip bup1 rfl (by decide +kernel) ⟨by decide +kernel, by decide +kernel⟩ ⟨by decide +kernel, by decide +kernel⟩ 0
  ⟨1, some 3000, some 3000⟩ (by decide +kernel) rfl cred 3002 (by decide)

theorem refused : ((run w0 behind).call (.blind 0 cred 3002)).out = .validation := by decide +kernel

example := c162_stuck noColl (reached (L := every) behind (by decide +kernel)) 3000 0 rip rfl (by decide +kernel) ⟨by decide +kernel, by decide +kernel⟩ (by decide +kernel)
  (by decide +kernel) (by decide +kernel) (w' := run (run w0 behind) [.call (.escrows 0), .call .sweep, .reopen])
  (hist_chk (g := fun _ i => match i.calls with | some (.escrows _) => true | some .sweep => true | some _ => false | none => true) (fun w i h => by
    constructor
    · intro c e hc he
      rw [hc] at h
      cases he <;> cases h
    · intro c e hc he
      rw [hc] at h
      rcases he with he | ⟨_, _, _, _, rfl, _⟩
      · cases he <;> cases h
      · cases h) _ (by decide +kernel))

/-- C163, what fails: an object of another habitat takes the update of a registry because the log of that habitat has the seal; the log of the issuer of the
registry has none. -/
def foreign : List Inp := making ++ [key t0 201, key t1 201, .call (.attach 2 (some 3000)), .call (.event 1 bup1)]

theorem other_log : (run w0 foreign).s.tels 3000 1 = some 3001 ∧ (run w0 foreign).nd.db.fels 1 = [10, 11] ∧ (⟨3000, 1, 3001⟩ : Seal) ∉ icp.seals ∧
    (⟨3000, 1, 3001⟩ : Seal) ∉ s1.seals := by decide +kernel

/-- C165, what fails: a pass over the escrows that is cut off after it has taken the entry out. -/
def waiting : List Inp := making ++ [.call (.event 0 bup2), .call (.event 0 bup1), key s2 101, key s3 101]

theorem lost : (run w0 waiting).s.maes 3000 = [(1, 3001), (2, 3002)] ∧
    (run w0 (waiting ++ [.crash (.escrows 0) 3])).s.maes 3000 = [(2, 3002)] ∧ (run w0 (waiting ++ [.crash (.escrows 0) 3])).s.ooes 3000 = [] ∧
    (run w0 (waiting ++ [.crash (.escrows 0) 3])).s.tels 3000 1 = none ∧
    (run w0 (waiting ++ [.crash (.escrows 0) 3, .reopen, .call .sweep, .call .sweep])).s.tels 3000 1 = none := by decide +kernel

/-- Hypotheses of `c169_alias_partial`, `c169_made`, `c169_open`, `c169_reopen`. -/
example := c169_alias_partial (hist0 opened_of making (by decide +kernel)) (hist_chk opened_of [.crash (.event 0 bup1) 2, .reopen] (by decide +kernel)) main 3000
  (by decide +kernel)
example := c169_made env w0 main 1 3000 (by decide +kernel)
example : Loaded (run w0 updated) := c169_open (env := env) (w := w0) (fun _ h => by cases h)
  (hist_chk (g := fun _ i => match i with | .crash _ _ => false | .reopen => false | _ => true)
    (fun _ i h => ⟨(fun c m he => by subst he; cases h), (fun he => by subst he; cases h)⟩) updated (by decide +kernel))
def named (L : List REvt) (w : World) (i : Inp) : Bool := within L w i && opened w i
theorem named_of {L : List REvt} (w : World) (i : Inp) (h : named L w i = true) : Within (fun e => e ∈ L) w i ∧ Opened w i := by
  unfold named at h; simp only [Bool.and_eq_true] at h; exact ⟨within_of w i h.1, opened_of w i h.2⟩
example := c169_reopen noColl (hist0 (named_of (L := every)) making (by decide +kernel)) (by decide +kernel) (fun x hx e he => by
    have hrec : (run w0 making).s.records = [(main, 3000)] := by decide +kernel
    have hev : (run w0 making).s.evts 3000 = some rip := by decide +kernel
    rw [hrec] at hx; simp only [List.mem_singleton] at hx; subst hx
    rw [hev] at he; cases he; decide +kernel) main 3000 (by decide +kernel)

/-- C169, what fails: a registry is made under an alias with a separator, and no registry can be loaded any more. -/
theorem unloadable : (w0.call (.makeRegistry dotted 1 3000)).out = .unit ∧
    look (run w0 [.call (.makeRegistry dotted 1 3000)]).names dotted = some 0 ∧
    (run w0 [.call (.makeRegistry dotted 1 3000), .reopen]).names = [] := by decide +kernel
example := c169_dotted (hist0 opened_of [.call (.makeRegistry dotted 1 3000)] (by decide +kernel)) (.nil) dotted 3000 (by decide +kernel) rfl

/-- C169, what fails: a crash before the record leaves a stored inception in the escrow, and no alias for it. -/
theorem orphan : (run w0 [.crash (.makeRegistry main 1 3000) 2, .reopen]).s.evts 3000 = some rip ∧
    (run w0 [.crash (.makeRegistry main 1 3000) 2, .reopen]).s.maes 3000 = [(0, 3000)] ∧
    (run w0 [.crash (.makeRegistry main 1 3000) 2, .reopen]).names = [] ∧
    (run w0 [.crash (.makeRegistry main 1 3000) 2, .reopen]).regs = [] := by decide +kernel

end Verif.Bsr.DemoBsr
