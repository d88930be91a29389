import Verif.Replay.Spec
import Verif.Kel.Frame

/-! # Helper lemmas about replay -/

namespace Verif.Replay

open Verif.Kel
open Verif.Thold (Thold)

/-- The node holds nothing about the identifier. -/
structure Ignorant (m : Node) (p : Id) : Prop where
  kever : m.kevers p = none
  state : m.db.states p = none
  kels : ∀ s, m.db.kels p s = []
  fels : m.db.fels p = []
  evts : ∀ d, m.db.evts p d = none
  wits : ∀ d, m.db.wits p d = []

/-! ## More signatures -/

theorem satisfy_mono {t : Thold} {len : Nat} (hc : Covers t len) {vs ws : List Sig} (f : Sig → Nat) (hnd : vs.Nodup)
    (hsub : ∀ s, s ∈ vs → s ∈ ws) (hlt : ∀ s, s ∈ ws → f s < len) (h : Thold.satisfy t (vs.map f) = true) :
    Thold.satisfy t (ws.map f) = true := by
  cases t with
  | num m =>
    simp only [Thold.satisfy, Verif.Thold.satisfyNum, decide_eq_true_eq, List.length_map] at h ⊢
    have : vs.length ≤ ws.length := hnd.length_le_of_subset hsub
    exact ⟨h.1, by omega⟩
  | wtd cs =>
    obtain ⟨hn, hl⟩ := hc cs rfl
    rw [Verif.Thold.c11_weighted] at h ⊢
    rw [Verif.Thold.size_wtd] at hl
    refine ⟨?_, ?_, Verif.Thold.satisfied_mono cs hn _ _ ?_ h.2.2⟩
    · intro he
      obtain ⟨i, hi⟩ := List.exists_mem_of_ne_nil _ h.1
      obtain ⟨s, hs, _⟩ := List.mem_map.1 hi
      have := List.mem_map_of_mem (f := f) (hsub s hs)
      rw [he] at this; exact absurd this (by simp)
    · intro j hj
      obtain ⟨s, hs, rfl⟩ := List.mem_map.1 hj
      have := hlt s hs
      omega
    · intro i
      simp only [decide_eq_true_eq]
      intro hi
      obtain ⟨s, hs, rfl⟩ := List.mem_map.1 hi
      exact List.mem_map_of_mem (hsub s hs)

theorem enough_of {env : Env} {keys : List Id} {kt : Thold} {e : Event} {vs ss : List Sig} (hc : Covers kt keys.length)
    (hnd : vs.Nodup) (hv : ∀ s, s ∈ vs → SignedBy env keys e s) (hsub : ∀ s, s ∈ vs → s ∈ ss)
    (h : Thold.satisfy kt (vs.map Sig.index) = true) : Enough env keys kt e ss := by
  intro ws hg
  refine satisfy_mono hc Sig.index hnd (fun s hs => (hg.iff s).2 ⟨hsub s hs, hv s hs⟩) ?_ h
  intro s hs
  obtain ⟨_, key, hk, _⟩ := (hg.iff s).1 hs
  exact (List.getElem?_eq_some_iff.1 hk).1

theorem enoughNext_of {env : Env} {ndigs : List Dig} {nt : Thold} {keys : List Id} {e : Event} {vs ss : List Sig}
    (hc : Covers nt ndigs.length)
    (hnd : vs.Nodup) (hv : ∀ s, s ∈ vs → SignedBy env keys e s) (hsub : ∀ s, s ∈ vs → s ∈ ss)
    (h : Thold.satisfy nt (exposeds env ndigs keys vs) = true) : EnoughNext env ndigs nt keys e ss := by
  intro ws ys hg hy1 hy2
  obtain ⟨xs, hx1, hx2, hx3⟩ := exposeds_eq env ndigs keys vs
  rw [hx3] at h
  refine satisfy_mono hc _ (hnd.sublist hx1) ?_ ?_ h
  · intro s hs
    have hs1 := hx1.subset hs
    exact (hy2 s ((hg.iff s).2 ⟨hsub s hs1, hv s hs1⟩)).2 ((hx2 s hs1).1 hs)
  · intro s hs
    obtain ⟨o, ho, key, d, _, hd, _⟩ := (hy2 s (hy1.subset hs)).1 hs
    rw [ho]
    exact (List.getElem?_eq_some_iff.1 hd).1

theorem toadFits_of {t : Nat} {w : List Id} (h : toadOk t w = true) : ToadFits t w := by
  unfold toadOk at h
  split at h
  · rename_i hw; exact ⟨fun _ => by simpa using h, fun hn => absurd hw hn⟩
  · rename_i hw
    simp only [Bool.and_eq_true, decide_eq_true_eq] at h
    exact ⟨fun hn => absurd hn hw, fun _ => h⟩

theorem val_okKey {env : Env} {n : Node} {k : Kever} {e : Event} {ss ws : List Sig} {keys : List Id} {kt : Thold}
    {toad : Nat} {wits : List Id} {couple : Option Couple} {eager isLocal : Bool} {v : Verified} {db : Db}
    (h : n.valSigsWigsDel env k e ss ws keys kt toad wits couple eager isLocal = (db, .ok v)) :
    ∀ w, w ∈ wits → env.okKey w = true := by
  have herr : ∀ {db' : Db} {x : Exn}, (db', (Except.error x : Except Exn Verified)) = (db, .ok v) → False := by
    intro db' x h; injection h with _ h; exact absurd h (by simp)
  unfold Node.valSigsWigsDel at h
  split at h
  · exact (herr h).elim
  · split at h
    · exact (herr h).elim
    · split at h
      · exact (herr h).elim
      · split at h
        · exact (herr h).elim
        · rename_i hw
          simpa using hw

/-! ## Acceptance, from the receiving side -/

theorem recv_inc {env : Env} {m : Node} {e : Event} {ss ws : List Sig} {c : Option Couple} {eager isLocal : Bool} {k : Kever}
    {v : Verified} (hp : env.okPre e.pre = true) (hk : m.kevers e.pre = none) (hi : e.ilk = .icp ∨ e.ilk = .dip)
    (hs : ss ≠ []) (hinc : incept env e = .ok k)
    (hv : m.valSigsWigsDel env k e ss ws e.keys e.kt e.toad e.wits c eager isLocal = (m.db, .ok v)) :
    AccN e { k with fn := (m.db.fels e.pre).length } v e.wits m (m.processEvent env e ss ws c eager isLocal).1 := by
  unfold Node.processEvent
  rw [if_neg (by simp [hp]), hk]
  simp only
  rw [if_pos hi]
  unfold Node.inception
  rw [if_neg hs]
  simp only [hinc, hv]
  exact ⟨acc_log m k _ e v e.wits v.couple isLocal, rfl, rfl, rfl, rfl⟩

theorem recv_rot {env : Env} {m : Node} {e : Event} {ss ws : List Sig} {c : Option Couple} {eager isLocal : Bool} {k : Kever}
    {v : Verified} {w cu ad : List Id} (hp : env.okPre e.pre = true) (hk : m.kevers e.pre = some k)
    (hi : e.ilk = .rot ∨ e.ilk = .drt) (hseq : InSeq k e) (htr : k.transferable env = true) (hpre : e.pre = k.pre)
    (hdel : k.delpre = none) (hle : e.sn ≤ k.sn + 1) (hrot : rotate env m.db k e = .ok (w, cu, ad))
    (hv : m.valSigsWigsDel env k e ss ws e.keys e.kt e.toad w c eager isLocal = (m.db, .ok v)) :
    AccN e (k.rotated e (m.db.fels e.pre).length w cu ad) v w m (m.processEvent env e ss ws c eager isLocal).1 := by
  unfold InSeq at hseq
  unfold Node.processEvent
  rw [if_neg (by simp [hp]), hk]
  simp only
  rw [if_neg (by rcases hi with hi | hi <;> rw [hi] <;> simp), if_neg (by omega), if_pos hseq]
  unfold Node.update
  rw [if_neg (by simp [htr]), if_neg (by simp [hpre])]
  have : AccN e (k.rotated e (m.db.fels e.pre).length w cu ad) v w m (m.updateRot env k e ss ws c eager isLocal).1 := by
    unfold Node.updateRot
    rw [if_neg (by simp [hdel])]
    simp only [hrot, hv]
    exact ⟨acc_log m k _ e v w v.couple isLocal, rfl, rfl, rfl, rfl⟩
  rcases hi with hi | hi <;> simp only [hi] <;> exact this

theorem recv_ixn {env : Env} {m : Node} {e : Event} {ss ws : List Sig} {c : Option Couple} {eager isLocal : Bool} {k : Kever}
    {v : Verified} (hp : env.okPre e.pre = true) (hk : m.kevers e.pre = some k)
    (hi : e.ilk = .ixn) (hseq : e.sn = k.sn + 1) (htr : k.transferable env = true) (hpre : e.pre = k.pre)
    (heo : k.estOnly = false) (hprior : k.serder.said = e.prior)
    (hv : m.valSigsWigsDel env k e ss ws k.keys k.kt k.toad k.wits none eager isLocal = (m.db, .ok v)) :
    AccN e (k.interacted e (m.db.fels e.pre).length) v [] m (m.processEvent env e ss ws c eager isLocal).1 := by
  unfold Node.processEvent
  rw [if_neg (by simp [hp]), hk]
  simp only
  rw [if_neg (by simp [hi]), if_neg (by omega), if_pos (.inl hseq)]
  unfold Node.update
  rw [if_neg (by simp [htr]), if_neg (by simp [hpre])]
  simp only [hi]
  unfold Node.updateIxn
  rw [if_neg (by simp [heo]), if_neg (by simp [hseq]), if_neg (by simp [hprior])]
  simp only [hv]
  exact ⟨acc_log m k _ e v [] none true, rfl, rfl, rfl, rfl⟩

theorem okPre_of_acc {env : Env} {n : Node} {e : Event} {ss ws : List Sig} {c : Option Couple} {eager isLocal : Bool}
    {k1 : Kever} {v : Verified} {w : List Id} (g : AccN e k1 v w n (n.processEvent env e ss ws c eager isLocal).1) :
    env.okPre e.pre = true := by
  apply Decidable.byContradiction
  intro hp
  have h := g.db.fels
  unfold Node.processEvent at h
  rw [if_pos (by simpa using hp)] at h
  have := congrFun h e.pre
  simp [upd] at this

/-! ## Witnesses of a key state -/

/-- Witnesses are stored with accepted events only, and the key state's are those stored with its establishment event. -/
structure WitInv (n : Node) : Prop where
  none : ∀ p d, d ∉ n.db.fels p → n.db.wits p d = []
  cur : ∀ p k, n.kevers p = some k → (n.db.fels p).Nodup → n.db.wits p k.lastD = k.wits

theorem witInv_start (p g : List Id) (m : Id → Option Id) : WitInv (Node.start p g m) := by
  constructor <;> simp [Node.start, Db.empty]

theorem WitInv.micro {env : Env} {U : Event → Prop} (hnc : NoColl U) {a b : Node} (h : WitInv a) (hi : Inv U a)
    (hK : KeyInv a) (g : Micro env U a b) : WitInv b := by
  cases g with
  | core g =>
    constructor
    · intro p d hd; rw [g.fels] at hd; rw [g.wits]; exact h.none p d hd
    · intro p k hk hn; rw [g.fels] at hn; rw [g.kevers] at hk; rw [g.wits]; exact h.cur p k hk hn
  | event e ss ws c eager isLocal he =>
    rcases processEvent_cases env a e ss ws c eager isLocal hi.evt.ok with g | ⟨_, k1, v, w, hk1, g, hacc⟩
    · constructor
      · intro p d hd; rw [g.db.fels] at hd; rw [g.db.wits]; exact h.none p d hd
      · intro p k hk hn; rw [g.db.fels] at hn; rw [g.kevers] at hk; rw [g.db.wits]; exact h.cur p k hk hn
    · have hKn : KeyOk (a.processEvent env e ss ws c eager isLocal).1.db e.pre k1 :=
        KeyOk.acc' hnc hi he hk1 (fun k hk => hK _ k hk) g hacc
      generalize (a.processEvent env e ss ws c eager isLocal).1 = b at *
      constructor
      · intro p d hd
        rw [g.db.fels] at hd
        rw [g.db.wits]
        by_cases hp : p = e.pre
        · subst hp
          simp only [upd, if_true, List.mem_append, List.mem_singleton, not_or] at hd
          rw [upd2_ne _ _ _ _ _ _ (by rintro ⟨_, h2⟩; exact hd.2 h2)]
          exact h.none _ _ hd.1
        · rw [upd2_ne _ _ _ _ _ _ (by rintro ⟨h1, _⟩; exact hp h1)]
          simp only [upd, if_neg hp] at hd
          exact h.none _ _ hd
      · intro p k hk hn
        rw [g.db.wits]
        by_cases hp : p = e.pre
        · subst hp
          rw [g.kevers] at hk
          simp only [upd, if_true] at hk
          injection hk with hk; subst hk
          rw [g.db.fels] at hn
          simp only [upd, if_true] at hn
          rw [List.nodup_append] at hn
          have hnot : e.said ∉ a.db.fels e.pre := fun hm => hn.2.2 _ hm _ (by simp) rfl
          have hnew : ∀ w : List Id, w.Nodup → upd2 a.db.wits e.pre e.said (ioPut (a.db.wits e.pre e.said) w) e.pre e.said = w := by
            intro w hw
            simp only [upd2, and_self, if_true]
            rw [h.none _ _ hnot]
            exact oset_of_nodup w hw
          rcases hacc with ⟨hacc, hw⟩ | ⟨k, hacc⟩ | ⟨k, hacc, hw⟩
          · obtain ⟨k, hinc, _, _, hk1⟩ := hacc.inc
            obtain ⟨_, _, _, _, _, hkeq⟩ := incept_eq env e k hinc
            have e1 : k1.lastD = e.said := by rw [hk1, hkeq]
            have e2 : k1.wits = e.wits := by rw [hk1, hkeq]
            have := hKn.wits
            rw [e1, e2, hw]
            rw [e2] at this
            exact hnew _ this
          · obtain ⟨cu, ad, _, _, _, hk1⟩ := hacc.rot
            have e1 : k1.lastD = e.said := by rw [hk1]; rfl
            have e2 : k1.wits = w := by rw [hk1]; rfl
            have := hKn.wits
            rw [e1, e2]
            rw [e2] at this
            exact hnew _ this
          · obtain ⟨_, _, hk1⟩ := hacc.val
            have e1 : k1.lastD = k.lastD := by rw [hk1]; rfl
            have e2 : k1.wits = k.wits := by rw [hk1]; rfl
            rw [e1, e2, hw]
            have := h.cur _ _ hacc.known hn.1
            rw [← this]
            show upd2 a.db.wits e.pre e.said (a.db.wits e.pre e.said) e.pre k.lastD = _
            rw [upd2_same]
        · rw [upd2_ne _ _ _ _ _ _ (by rintro ⟨h1, _⟩; exact hp h1)]
          rw [g.kevers] at hk
          rw [g.db.fels] at hn
          simp only [upd, if_neg hp] at hk hn
          exact h.cur _ _ hk hn

end Verif.Replay
