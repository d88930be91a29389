import Verif.Iss.PropsKept
import Verif.Tel.PropsWait

/-!
# Properties of the issuing workflow: the source seals entered
-/

namespace Verif.Iss

open Verif.Kel (Id Dig Event Couple upd upd2 NoColl)
open Verif.Tel (TEvt Reger TInv NoCollT InLog Registered Next SealAt SelfAddressing)
open Verif.Vry (VNode VEnv VInp Cred Anchor NoCollC)
open Verif.Grp (Num completed)

variable {env : VEnv} {U : Event → Prop} {V : TEvt → Prop} {W : Cred → Anchor → Prop}

/-- An own event of registry `k` that is next in its log and waits, without a source seal, alone. -/
structure Waits (env : VEnv) (w : World) (k : Id) (e v : TEvt) (lax isLocal : Bool) : Prop where
  next : Next env.tel w.v.t.reg lax isLocal k e
  reg : Registered env.tel w.v.t.node w.v.t.reg k v
  stored : w.v.t.reg.tvts e.pre e.said = some e
  unsealed : w.v.t.reg.ancs e.pre e.said = none
  waits : (e.pre, e.sn, e.said) ∈ w.v.t.reg.taes
  alone : ∀ x ∈ w.v.t.reg.taes, x.1 = e.pre → x = (e.pre, e.sn, e.said)

theorem next_ancs {r : Reger} {lax isLocal : Bool} {k : Id} {e : TEvt} (h : Next env.tel r lax isLocal k e) (x : Id → Dig → Option Couple) :
    Next env.tel { r with ancs := x } lax isLocal k e := by
  refine ⟨h.pre, h.kind, h.ri, h.source, ?_, h.num⟩
  obtain ⟨t, h1, h2⟩ := h.known
  refine ⟨t, ?_, h2⟩
  unfold Reger.fetch at h1 ⊢
  cases hh : r.tevers k with
  | some t' => rw [hh] at h1; exact h1
  | none =>
    rw [hh] at h1
    dsimp only at h1 ⊢
    cases hs : r.states k with
    | none => rw [hs] at h1; exact h1
    | some s =>
      rw [hs] at h1
      dsimp only at h1 ⊢
      rw [show s.reload { r with ancs := x } = s.reload r from rfl]
      cases hl : s.reload r with
      | none => rw [hl] at h1; exact h1
      | some t' => rw [hl] at h1; exact h1

/-- The event is accepted by the next pass over what waits. -/
theorem accepted_of {w w' : World} (hnt : NoCollT V) (hsa : SelfAddressing V) (hi : IInv env U V W w') (fr : Frame w w') {k : Id} {e v : TEvt} {lax isLocal : Bool}
    (h : Waits env w k e v lax isLocal) {s : Nat} {d : Dig} (hc : w'.v.t.reg.ancs e.pre e.said = some (s, d)) (hs : SealAt env.tel w.v.t.node v.issuer s d e) :
    InLog (w'.step env (.node (.tel (.passA lax isLocal)))).v.t.reg e.pre e.sn e := by
  have hv := fr.v
  obtain ⟨x, hx⟩ := hv
  have hreg : w'.v.t.reg = { w.v.t.reg with ancs := x } := by rw [hx]
  have hnode := fr.node
  refine Tel.accepted_next (t := w'.v.t) hnt hsa hi.v.tel (k := k) (v := v) (s := s) (d := d) ?_ ?_ ?_ hc ?_ ?_ ?_
  · rw [hreg]; exact next_ancs h.next x
  · rw [hreg, hnode]; exact ⟨h.reg.ilk, h.reg.pre, h.reg.stored, h.reg.sealed⟩
  · rw [hreg]; exact h.stored
  · rw [hreg]; exact h.waits
  · rw [hreg]; exact h.alone
  · rw [hnode]; exact hs

/-- **C159, partly.** A call for a credential event whose seal is in the last key event of the controller, which is no group, makes the event enter its log with the next pass over the waiting events.
Missing: when the seal is in an earlier key event (one more was logged between anchoring and calling) or in one that is still waiting for witnesses or a delegator, the source seal entered
is a wrong one for good, `c159_other_event`. -/
theorem c159_accepted_partial (hnk : NoColl U) (hnt : NoCollT V) (hnc : NoCollC W) (hsa : SelfAddressing V) {w : World} (h : Reached env U V W w) {a : Ask} {e v : TEvt} {kv : Kel.Kever}
    {lax isLocal : Bool} (hw : Waits env w a.registry e v lax isLocal) (hp : w.regs a.registry = some v.issuer) (hg : w.habs v.issuer ≠ some true)
    (hk : w.v.t.node.kevers v.issuer = some kv) (ha : a.pre = e.pre ∧ a.said = e.said) (hs : SealAt env.tel w.v.t.node v.issuer kv.sn kv.serder.said e) :
    InLog ((w.step env (.ask a)).step env (.node (.tel (.passA lax isLocal)))).v.t.reg e.pre e.sn e := by
  have hi := (h.inv hnk hnt hnc).step hnk hnt hnc (i := .ask a) trivial
  refine accepted_of hnt hsa hi (frame_applyAll _ _) hw (s := kv.sn) (d := kv.serder.said) ?_ hs
  show (w.applyAll (ask w a).1).v.t.reg.ancs e.pre e.said = _
  unfold ask
  rw [hp]
  dsimp only
  rw [if_neg hg, hk]
  dsimp only
  show (anchorMsg w.v.t.reg a.pre a.said (kv.sn, kv.serder.said)).ancs e.pre e.said = _
  unfold anchorMsg
  rw [ha.1, ha.2, hw.unsealed]
  simp [upd2]

/-- Source seals after writes that enter none for `(p, d)` other than `c`. -/
theorem ancs_writes {w : World} {p : Id} {d : Dig} {c : Couple} {ws : List Wr} (hx : ∀ x ∈ ws, ∀ c', x = .ancPut p d c' → c' = c)
    (h : w.v.t.reg.ancs p d = none ∨ w.v.t.reg.ancs p d = some c) : (w.applyAll ws).v.t.reg.ancs p d = none ∨ (w.applyAll ws).v.t.reg.ancs p d = some c :=
  writes_keep (P := fun w => w.v.t.reg.ancs p d = none ∨ w.v.t.reg.ancs p d = some c) (L := fun x => ∀ c', x = .ancPut p d c' → c' = c) (fun w x h hx => by
    cases x with
    | ancPut q e c' =>
      show (anchorMsg w.v.t.reg q e c').ancs p d = none ∨ (anchorMsg w.v.t.reg q e c').ancs p d = some c
      unfold anchorMsg
      split
      · simp only [upd2]
        split
        · rename_i hh
          obtain ⟨rfl, rfl⟩ := hh
          exact .inr (by rw [hx c' rfl])
        · exact h
      · exact h
    | ctelPut j d => simp only [World.apply]; split <;> exact h
    | ccrdPut j d => simp only [World.apply]; split <;> exact h
    | _ => exact h) ws hx h

theorem ancs_keep {w : World} {p : Id} {d : Dig} {c : Couple} (h : w.v.t.reg.ancs p d = some c) (ws : List Wr) : (w.applyAll ws).v.t.reg.ancs p d = some c :=
  writes_keep (P := fun w => w.v.t.reg.ancs p d = some c) (L := fun _ => True) (fun w x h _ => by
    cases x with
    | ancPut q e c' => exact anchorMsg_mono _ _ _ _ h
    | ctelPut j d => simp only [World.apply]; split <;> exact h
    | ccrdPut j d => simp only [World.apply]; split <;> exact h
    | _ => exact h) ws (fun _ _ => trivial) h

theorem witness_ancs {w : World} {x : Slot × Val} {p : Id} {d : Dig} {c' : Couple} : Wr.ancPut p d c' ∉ (witness w x).1 := by
  rcases witness_writes w x with he | he <;> rw [he] <;> simp

theorem disseminate_ancs {w : World} {x : Slot × Val} {p : Id} {d : Dig} {c' : Couple} : Wr.ancPut p d c' ∉ (disseminate w x).1 := by
  unfold disseminate
  split <;> simp

/-- **C159, groups.** An event of a group's registry enters its log once the group has completed the key event given with the call and the seal is in it, after one pass of the Registrar that
raises nothing and one over the waiting events, if no call gave another key event for it. -/
theorem c159_group (hnk : NoColl U) (hnt : NoCollT V) (hnc : NoCollC W) (hsa : SelfAddressing V) {w : World} (h : Reached env U V W w) {e v : TEvt} {k : Id} {s : Slot} {n : Num} {d : Dig}
    {lax isLocal : Bool} (hw : Waits env w k e v lax isLocal) (hk : s.1 = e.pre) (hm : ((s, e.said), (v.issuer, n, d)) ∈ w.tmse)
    (ho : ∀ x ∈ w.tmse, x.1.1.1 = e.pre → x.1.2 = e.said → x.2 = (v.issuer, n, d)) (hg : w.cgms v.issuer n = some d)
    (he : (registrar w).2 = none) (hs : SealAt env.tel w.v.t.node v.issuer n.num d e) :
    InLog ((w.step env .registrar).step env (.node (.tel (.passA lax isLocal)))).v.t.reg e.pre e.sn e := by
  have hi := (h.inv hnk hnt hnc).step hnk hnt hnc (i := .registrar) trivial
  refine accepted_of hnt hsa hi (frame_applyAll _ _) hw (s := n.num) (d := d) ?_ hs
  show (w.applyAll (registrar w).1).v.t.reg.ancs e.pre e.said = _
  obtain ⟨w1, w2, e1, n1, e2, n2, n3, e3⟩ := registrar_parts he
  rw [e3]
  have f1 : Frame w w1 := by rw [e1]; exact frame_applyAll _ _
  have a1 : w1.v.t.reg.ancs e.pre e.said = none ∨ w1.v.t.reg.ancs e.pre e.said = some (n.num, d) := by
    rw [e1]
    exact pass_whole (P := fun w => w.v.t.reg.ancs e.pre e.said = none ∨ w.v.t.reg.ancs e.pre e.said = some (n.num, d)) _
      (fun w' _ h' x _ => ancs_writes (fun y hy c' hc => absurd hy (by rw [hc]; exact witness_ancs)) h') (.inl hw.unsealed)
  have t1 : w1.tmse = w.tmse := by
    rw [e1]
    exact pass_whole (P := fun w' => w'.tmse = w.tmse) _ (fun w' _ h' x _ => by rcases witness_writes w' x with hh | hh <;> rw [hh] <;> exact h') rfl
  have a2 : w2.v.t.reg.ancs e.pre e.said = some (n.num, d) := by
    have : (w2.v.t.reg.ancs e.pre e.said = none ∨ w2.v.t.reg.ancs e.pre e.said = some (n.num, d)) ∧ w2.v.t.reg.ancs e.pre e.said ≠ none := by
      constructor
      · rw [e2]
        refine pass_whole (P := fun w => w.v.t.reg.ancs e.pre e.said = none ∨ w.v.t.reg.ancs e.pre e.said = some (n.num, d)) _ (fun w' fr h' x hx => ancs_writes (fun y hy c' hc => ?_) h') a1
        unfold multisig at hy
        split at hy
        · simp at hy; rw [hy] at hc; cases hc
        · simp at hy
        · rw [hc] at hy
          simp at hy
          rw [t1] at hx
          have := ho x hx hy.1.symm hy.2.1.symm
          rw [hy.2.2, this]
      · rw [e2]
        refine pass_reach (Q := fun w => w.v.t.reg.ancs e.pre e.said ≠ none) _ n2 (fun w' _ h' x _ hn => ?_) (.inr ⟨_, by rw [t1]; exact hm, fun w' fr _ => ?_⟩)
        · obtain ⟨c, hc⟩ := Option.ne_none_iff_exists'.1 h'
          rw [ancs_keep hc] at hn; cases hn
        · have hcc : completed (w'.cgms v.issuer n) (some d) = .ok true := by
            rw [fr.cgms, f1.cgms, hg]
            simp [completed]
          unfold multisig
          dsimp only
          rw [hcc]
          show (anchorMsg w'.v.t.reg s.1 e.said (n.num, d)).ancs e.pre e.said ≠ none
          rw [hk]
          unfold anchorMsg
          split
          · simp [upd2]
          · rename_i hh; rw [hh]; simp
    rcases this.1 with hn | hn
    · exact absurd hn this.2
    · exact hn
  exact ancs_keep a2 _

end Verif.Iss
