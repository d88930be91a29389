import Verif.Tel.Model

/-! # What processing one transaction event can do: helper lemmas -/

namespace Verif.Tel

open Verif.Kel (Id Dig Sig Couple Event Node Inp upd upd2 ioPut oset escAdd)

/-- Stores only gained entries, the event store at most `e`. -/
structure Grow (e : TEvt) (r r' : Reger) : Prop where
  own : r'.registries = r.registries
  tmono : ∀ p d x, r.tvts p d = some x → r'.tvts p d = some x
  tonly : ∀ p d x, r'.tvts p d = some x → r.tvts p d = some x ∨ (p = e.pre ∧ d = e.said ∧ x = e)
  amono : ∀ p d c, r.ancs p d = some c → r'.ancs p d = some c

/-- Logs and states are as before. -/
structure Ext (e : TEvt) (r r' : Reger) : Prop extends Grow e r r' where
  tels : r'.tels = r.tels
  tevers : r'.tevers = r.tevers
  states : r'.states = r.states

/-- `e` was entered in its log. -/
structure Logged (e : TEvt) (r r' : Reger) : Prop extends Grow e r r' where
  tels : r'.tels = upd r.tels e.pre (telPut (r.tels e.pre) e.sn e.said)
  stored : ∃ x, r'.tvts e.pre e.said = some x
  anchor : ∃ c, r'.ancs e.pre e.said = some c

theorem Ext.rfl' {e : TEvt} {r : Reger} : Ext e r r := ⟨⟨rfl, fun _ _ _ h => h, fun _ _ _ h => .inl h, fun _ _ _ h => h⟩, rfl, rfl, rfl⟩

theorem Grow.trans {e : TEvt} {a b c : Reger} (h : Grow e a b) (g : Grow e b c) : Grow e a c :=
  ⟨g.own.trans h.own, fun _ _ _ hx => g.tmono _ _ _ (h.tmono _ _ _ hx),
   fun p d x hx => (g.tonly p d x hx).elim (fun hx => h.tonly p d x hx) .inr, fun _ _ _ hx => g.amono _ _ _ (h.amono _ _ _ hx)⟩

theorem Ext.trans {e : TEvt} {a b c : Reger} (h : Ext e a b) (g : Ext e b c) : Ext e a c :=
  ⟨h.toGrow.trans g.toGrow, g.tels.trans h.tels, g.tevers.trans h.tevers, g.states.trans h.states⟩

/-- Changes outside the stores. -/
theorem Ext.of_eq {e : TEvt} {a b : Reger} (h1 : b.registries = a.registries) (h2 : b.tvts = a.tvts) (h3 : b.ancs = a.ancs) (h4 : b.tels = a.tels)
    (h5 : b.tevers = a.tevers) (h6 : b.states = a.states) : Ext e a b :=
  ⟨⟨h1, by rw [h2]; exact fun _ _ _ h => h, by rw [h2]; exact fun _ _ _ h => .inl h, by rw [h3]; exact fun _ _ _ h => h⟩, h4, h5, h6⟩

theorem ext_putTvt (e : TEvt) (r : Reger) : Ext e r (r.putTvt e) := by
  unfold Reger.putTvt
  split
  · rename_i h
    refine ⟨⟨rfl, ?_, ?_, fun _ _ _ h => h⟩, rfl, rfl, rfl⟩
    · intro p d x hx
      simp only [upd2]
      split
      · rename_i hp; rw [hp.1, hp.2, h] at hx; exact absurd hx (by simp)
      · exact hx
    · intro p d x hx
      simp only [upd2] at hx
      split at hx
      · rename_i hp; exact .inr ⟨hp.1, hp.2, (Option.some.inj hx).symm⟩
      · exact .inl hx
  · exact .rfl'

theorem putTvt_stored (e : TEvt) (r : Reger) : ∃ x, (r.putTvt e).tvts e.pre e.said = some x := by
  unfold Reger.putTvt
  split
  · exact ⟨e, by simp [upd2]⟩
  · rename_i x hx; exact ⟨x, hx⟩

theorem ext_putAnc (e : TEvt) (r : Reger) (c : Couple) : Ext e r (r.putAnc e c) := by
  unfold Reger.putAnc
  split
  · rename_i h
    refine ⟨⟨rfl, fun _ _ _ h => h, fun _ _ _ h => .inl h, ?_⟩, rfl, rfl, rfl⟩
    intro p d x hx
    simp only [upd2]
    split
    · rename_i hp; rw [hp.1, hp.2, h] at hx; exact absurd hx (by simp)
    · exact hx
  · exact .rfl'

theorem putAnc_stored (e : TEvt) (r : Reger) (c : Couple) : ∃ x, (r.putAnc e c).ancs e.pre e.said = some x := by
  unfold Reger.putAnc
  split
  · exact ⟨c, by simp [upd2]⟩
  · rename_i x hx; exact ⟨x, hx⟩

theorem ext_pinTibs (e : TEvt) (r : Reger) (bs : List Sig) : Ext e r (r.pinTibs e bs) := by
  unfold Reger.pinTibs
  split
  · exact .rfl'
  · exact .of_eq rfl rfl rfl rfl rfl rfl

theorem ext_pinBaks (e : TEvt) (r : Reger) (bs : List Id) : Ext e r (r.pinBaks e bs) := by
  unfold Reger.pinBaks
  split
  · exact .rfl'
  · exact .of_eq rfl rfl rfl rfl rfl rfl

theorem ext_pre (e : TEvt) (r : Reger) (c : Couple) (bs : List Sig) (baks : List Id) :
    Ext e r ((((r.putAnc e c).pinTibs e bs).pinBaks e baks).putTvt e) :=
  (((ext_putAnc e r c).trans (ext_pinTibs _ _ _)).trans (ext_pinBaks _ _ _)).trans (ext_putTvt _ _)

theorem logged (e : TEvt) (r : Reger) (c : Couple) (bs : List Sig) (baks : List Id) : Logged e r (r.logEvent e c bs baks) := by
  have h := ext_pre e r c bs baks
  unfold Reger.logEvent
  refine ⟨⟨h.own, h.tmono, h.tonly, h.amono⟩, ?_, putTvt_stored _ _, ?_⟩
  · show upd _ _ _ = _
    rw [h.tels]
  · obtain ⟨x, hx⟩ := putAnc_stored e r c
    exact ⟨x, ((ext_pinTibs e _ bs).trans ((ext_pinBaks e _ baks).trans (ext_putTvt e _))).amono _ _ _ hx⟩

theorem logEvent_rest (e : TEvt) (r : Reger) (c : Couple) (bs : List Sig) (baks : List Id) :
    (r.logEvent e c bs baks).tevers = r.tevers ∧ (r.logEvent e c bs baks).states = r.states :=
  ⟨(ext_pre e r c bs baks).tevers, (ext_pre e r c bs baks).states⟩

theorem ext_escrowPW (e : TEvt) (r : Reger) (c : Couple) (bs : List Sig) : Ext e r (r.escrowPW e c bs) :=
  (((ext_putAnc e r c).trans (ext_pinTibs _ _ _)).trans (ext_putTvt _ _)).trans (.of_eq rfl rfl rfl rfl rfl rfl)

theorem ext_escrowAL (e : TEvt) (r : Reger) (c : Option Couple) (bs : List Sig) (baks : List Id) : Ext e r (r.escrowAL e c bs baks) := by
  unfold Reger.escrowAL
  cases c with
  | none => exact (((ext_pinTibs e r bs).trans (ext_pinBaks _ _ _)).trans (ext_putTvt _ _)).trans (.of_eq rfl rfl rfl rfl rfl rfl)
  | some c => exact (ext_pre e r c bs baks).trans (.of_eq rfl rfl rfl rfl rfl rfl)

theorem ext_escrowOO (e : TEvt) (r : Reger) (c : Option Couple) : Ext e r (r.escrowOO e c).1 := by
  unfold Reger.escrowOO
  cases c with
  | none => exact ext_putTvt e r
  | some c => exact ((ext_putTvt e r).trans (ext_putAnc _ _ c)).trans (.of_eq rfl rfl rfl rfl rfl rfl)

theorem escrowOO_err (e : TEvt) (r : Reger) (c : Option Couple) : (r.escrowOO e c).2 ≠ .ok () := by
  unfold Reger.escrowOO
  cases c <;> simp

/-- What a successful check of anchor and backers established. -/
structure Checked (env : TEnv) (n : Node) (iss regk : Id) (isLocal : Bool) (e : TEvt) (c : Option Couple) (bigers : List Sig) (toad : Nat)
    (baks : List Id) (c' : Couple) (bs : List Sig) : Prop where
  couple : c = some c'
  anchor : verifyAnchor env n iss e c = .ok true
  sigs : bs = verifyBigs env e bigers baks
  count : baks ≠ [] → isLocal = false → regk ∉ baks → toad ≤ bs.length
  keys : baks.all env.kel.okKey = true

theorem valAnchorBigs_cases (env : TEnv) (n : Node) (r : Reger) (iss regk : Id) (isLocal : Bool) (e : TEvt) (c : Option Couple)
    (bigers : List Sig) (toad : Nat) (baks : List Id) :
    (∃ r' x, valAnchorBigs env n r iss regk isLocal e c bigers toad baks = (r', .error x) ∧ Ext e r r') ∨
    (∃ c' bs, valAnchorBigs env n r iss regk isLocal e c bigers toad baks = (r, .ok (c', bs)) ∧
      Checked env n iss regk isLocal e c bigers toad baks c' bs) := by
  unfold valAnchorBigs
  by_cases hk : baks.all env.kel.okKey = true
  · rw [if_neg (by simp [hk])]
    dsimp only
    split
    · exact .inl ⟨_, _, rfl, .rfl'⟩
    · rename_i c' hv
      split
      · rename_i hb
        split
        · exact .inl ⟨_, _, rfl, .rfl'⟩
        · split
          · exact .inl ⟨_, _, rfl, ext_escrowPW _ _ _ _⟩
          · rename_i h1
            exact .inr ⟨_, _, rfl, rfl, hv, rfl, fun _ _ _ => Nat.le_of_not_lt h1, hk⟩
      · rename_i hb
        exact .inr ⟨_, _, rfl, rfl, hv, rfl, fun h1 h2 h3 => absurd ⟨h1, h2, h3⟩ hb, hk⟩
    · exact .inl ⟨_, _, rfl, ext_escrowAL _ _ _ _ _⟩
  · rw [if_pos (by simpa using hk)]
    exact .inl ⟨_, _, rfl, .rfl'⟩

/-- The registry after an accepted registry inception. -/
def newTever (isLocal : Bool) (e : TEvt) : Tever :=
  { pre := e.issuer, regk := e.pre, sn := e.sn, serder := e, ilk := .vcp, toad := e.toad, baks := e.baks, noBackers := e.noBackers,
    isLocal := isLocal }

/-- The registry after an accepted registry rotation. -/
def rotTever (t : Tever) (e : TEvt) (baks : List Id) : Tever := { t with sn := e.sn, serder := e, ilk := .vrt, toad := e.toad, baks := baks }

/-- What an accepted event satisfied; `r` is the state after looking up the registry. -/
inductive Acc (env : TEnv) (n : Node) (r : Reger) (isLocal : Bool) (e : TEvt) (c : Option Couple) (bigers : List Sig) :
    Option Tever → Reger → Prop
  | vcp (c' : Couple) (bs : List Sig) (r' : Reger) (hi : e.ilk = .vcp) (hd : (oset e.baks).length = e.baks.length)
      (ht : toadOk e.toad e.baks = true) (hc : Checked env n e.issuer e.pre isLocal e c bigers e.toad e.baks c' bs) (hl : Logged e r r')
      (hm : r'.tevers = upd r.tevers e.pre (some (newTever isLocal e)))
      (hs : r'.states = upd r.states e.pre (some (newTever isLocal e).state)) : Acc env n r isLocal e c bigers none r'
  | vrt (t : Tever) (baks : List Id) (c' : Couple) (bs : List Sig) (r' : Reger) (hi : e.ilk = .vrt) (hn : t.noBackers = false)
      (hr : t.rotate e = .ok baks) (hc : Checked env n t.pre t.regk t.isLocal e c bigers e.toad baks c' bs) (hl : Logged e r r')
      (hm : r'.tevers = upd r.tevers t.regk (some (rotTever t e baks))) (hs : r'.states = r.states) : Acc env n r isLocal e c bigers (some t) r'
  | simple (t : Tever) (c' : Couple) (r' : Reger) (hi : e.ilk = .iss ∨ e.ilk = .rev) (hn : t.noBackers = true)
      (hcc : c = some c') (hc : verifyAnchor env n t.pre e c = .ok true) (hsn : e.sn = (r.tels e.pre).length)
      (hp : e.ilk = .rev → ∃ d x, telGet (r.tels e.pre) (e.sn - 1) = some d ∧ r.tvts e.pre d = some x ∧ x.said = e.prior) (hl : Logged e r r')
      (hm : r'.tevers = r.tevers) (hs : r'.states = r.states) : Acc env n r isLocal e c bigers (some t) r'
  | backed (t : Tever) (toad : Nat) (baks : List Id) (c' : Couple) (bs : List Sig) (r' : Reger) (hi : e.ilk = .bis ∨ e.ilk = .brv)
      (hn : t.noBackers = false) (hb : r.backerState t e = .ok (toad, baks)) (hc : Checked env n t.pre t.regk t.isLocal e c bigers toad baks c' bs)
      (hsn : e.sn = (r.tels e.pre).length)
      (hp : e.ilk = .brv → ∃ d x, telGet (r.tels e.pre) (e.sn - 1) = some d ∧ r.tvts e.pre d = some x ∧ x.said = e.prior) (hl : Logged e r r')
      (hm : r'.tevers = r.tevers) (hs : r'.states = r.states) : Acc env n r isLocal e c bigers (some t) r'

theorem incept_cases (env : TEnv) (n : Node) (r : Reger) (isLocal : Bool) (e : TEvt) (c : Option Couple) (bigers : List Sig)
    (hi : e.ilk = .vcp) :
    ((r.incept env n isLocal e c bigers).2 ≠ .ok () ∧ Ext e r (r.incept env n isLocal e c bigers).1) ∨
    ((r.incept env n isLocal e c bigers).2 = .ok () ∧ Acc env n r isLocal e c bigers none (r.incept env n isLocal e c bigers).1) := by
  unfold Reger.incept
  split
  · exact .inl ⟨by simp, .rfl'⟩
  · rename_i h1
    split
    · exact .inl ⟨by simp, .rfl'⟩
    · rename_i h2
      rcases valAnchorBigs_cases env n r e.issuer e.pre isLocal e c bigers e.toad e.baks with ⟨r', x, h, hx⟩ | ⟨c', bs, h, hc⟩
      · rw [h]; exact .inl ⟨by simp, hx⟩
      · rw [h]
        have hlog := logged e r c' bs e.baks
        have hrest := logEvent_rest e r c' bs e.baks
        refine .inr ⟨rfl, .vcp c' bs _ hi (by simpa using h1) (by simpa using h2) hc ?_ ?_ ?_⟩
        · exact ⟨⟨hlog.own, hlog.tmono, hlog.tonly, hlog.amono⟩, hlog.tels, hlog.stored, hlog.anchor⟩
        · show upd (r.logEvent e c' bs e.baks).tevers _ _ = _
          rw [hrest.1]; rfl
        · show upd (r.logEvent e c' bs e.baks).states _ _ = _
          rw [hrest.2]; rfl

/-- Outcome of a step that needs a registry `t`. -/
def Out (env : TEnv) (n : Node) (r : Reger) (isLocal : Bool) (e : TEvt) (c : Option Couple) (bigers : List Sig) (t : Option Tever)
    (o : TOut Unit) : Prop :=
  (o.2 ≠ .ok () ∧ Ext e r o.1) ∨ (o.2 = .ok () ∧ Acc env n r isLocal e c bigers t o.1)

theorem out_err {env : TEnv} {n : Node} {r : Reger} {isLocal : Bool} {e : TEvt} {c : Option Couple} {bigers : List Sig} {t : Option Tever}
    {x : TExn} : Out env n r isLocal e c bigers t (r, .error x) := .inl ⟨by simp, .rfl'⟩

theorem simple_cases (env : TEnv) (n : Node) (r : Reger) (isLocal : Bool) (t : Tever) (e : TEvt) (c : Option Couple) (bigers : List Sig)
    (hi : e.ilk = .iss ∨ e.ilk = .rev) (hn : t.noBackers = true) (hsn : e.sn = (r.tels e.pre).length)
    (hp : e.ilk = .rev → ∃ d x, telGet (r.tels e.pre) (e.sn - 1) = some d ∧ r.tvts e.pre d = some x ∧ x.said = e.prior) :
    Out env n r isLocal e c bigers (some t) (r.simple env n t e c) := by
  unfold Reger.simple
  split
  · exact out_err
  · rename_i c' hv
    exact .inr ⟨rfl, .simple t c' _ hi hn rfl hv hsn hp (logged _ _ _ _ _) (logEvent_rest _ _ _ _ _).1 (logEvent_rest _ _ _ _ _).2⟩
  · exact .inl ⟨by simp, ext_escrowAL _ _ _ _ _⟩

theorem backed_cases (env : TEnv) (n : Node) (r : Reger) (isLocal : Bool) (t : Tever) (e : TEvt) (c : Option Couple) (bigers : List Sig)
    (hi : e.ilk = .bis ∨ e.ilk = .brv) (hn : t.noBackers = false) (hsn : e.sn = (r.tels e.pre).length)
    (hp : e.ilk = .brv → ∃ d x, telGet (r.tels e.pre) (e.sn - 1) = some d ∧ r.tvts e.pre d = some x ∧ x.said = e.prior) :
    Out env n r isLocal e c bigers (some t) (r.backed env n t e c bigers) := by
  unfold Reger.backed
  split
  · exact out_err
  · rename_i toad baks hb
    rcases valAnchorBigs_cases env n r t.pre t.regk t.isLocal e c bigers toad baks with ⟨r', x, h, hx⟩ | ⟨c', bs, h, hc⟩
    · rw [h]; exact .inl ⟨by simp, hx⟩
    · rw [h]
      exact .inr ⟨rfl, .backed t toad baks c' bs _ hi hn hb hc hsn hp (logged _ _ _ _ _) (logEvent_rest _ _ _ _ _).1 (logEvent_rest _ _ _ _ _).2⟩

theorem update_cases (env : TEnv) (n : Node) (r : Reger) (isLocal : Bool) (t : Tever) (e : TEvt) (c : Option Couple) (bigers : List Sig)
    (hsn : e.sn = r.nextSn t e) : Out env n r isLocal e c bigers (some t) (r.update env n t e c bigers) := by
  have len : e.ilk ≠ .vrt → e.sn = (r.tels e.pre).length := by
    intro h; rw [hsn]; unfold Reger.nextSn; rw [if_neg h]
  have iss : ∀ (hi : e.ilk = .iss ∨ e.ilk = .bis), Out env n r isLocal e c bigers (some t) (r.issue env n t e c bigers) := by
    intro hi
    unfold Reger.issue
    rcases hi with hi | hi
    · rw [hi]
      dsimp only
      split
      · exact out_err
      · rename_i h1
        split
        · exact out_err
        · exact simple_cases env n r isLocal t e c bigers (.inl hi) (by simpa using h1) (len (by simp [hi])) (fun h => by rw [hi] at h; cases h)
    · rw [hi]
      dsimp only
      split
      · exact out_err
      · rename_i h1
        exact backed_cases env n r isLocal t e c bigers (.inl hi) (by simpa using h1) (len (by simp [hi])) (fun h => by rw [hi] at h; cases h)
  have rev : ∀ (hi : e.ilk = .rev ∨ e.ilk = .brv), Out env n r isLocal e c bigers (some t) (r.revoke env n t e c bigers) := by
    intro hi
    unfold Reger.revoke
    split
    · exact out_err
    · rename_i d hd
      split
      · exact out_err
      · rename_i x hx
        split
        · exact out_err
        · rename_i hs
          have hs : x.said = e.prior := by simpa using hs
          rcases hi with hi | hi
          · rw [hi]
            dsimp only
            split
            · exact out_err
            · rename_i h1
              exact simple_cases env n r isLocal t e c bigers (.inr hi) (by simpa using h1) (len (by simp [hi])) (fun _ => ⟨d, x, hd, hx, hs⟩)
          · rw [hi]
            dsimp only
            split
            · exact out_err
            · rename_i h1
              exact backed_cases env n r isLocal t e c bigers (.inr hi) (by simpa using h1) (len (by simp [hi])) (fun _ => ⟨d, x, hd, hx, hs⟩)
  unfold Reger.update
  split
  · rename_i hi
    split
    · exact out_err
    · rename_i hn
      split
      · exact out_err
      · rename_i baks hr
        rcases valAnchorBigs_cases env n r t.pre t.regk t.isLocal e c bigers e.toad baks with ⟨r', x, h, hx⟩ | ⟨c', bs, h, hc⟩
        · rw [h]; exact .inl ⟨by simp, hx⟩
        · rw [h]
          have hlog := logged e r c' bs baks
          have hrest := logEvent_rest e r c' bs baks
          refine .inr ⟨rfl, .vrt t baks c' bs _ hi (by simpa using hn) hr hc ?_ rfl hrest.2⟩
          exact ⟨⟨hlog.own, hlog.tmono, hlog.tonly, hlog.amono⟩, hlog.tels, hlog.stored, hlog.anchor⟩
  · rename_i hi; exact iss (.inl hi)
  · rename_i hi; exact iss (.inr hi)
  · rename_i hi; exact rev (.inl hi)
  · rename_i hi; exact rev (.inr hi)
  · exact out_err

/-- An event with the right kind of number for a registry that may be written, seen from the state after the look-up. -/
structure Admitted (env : TEnv) (r : Reger) (lax isLocal : Bool) (e : TEvt) (k : Id) : Prop where
  pre : env.kel.okPre e.pre = true
  regk : e.regk = some k
  num : e.ilk.inceptive = true ↔ e.sn = 0
  source : r.sourceBad lax isLocal k = false

/-- Processing an event either leaves all logs and states alone, apart from a registry read into memory, or accepts it. -/
theorem processEvent_cases (env : TEnv) (n : Node) (r : Reger) (lax isLocal : Bool) (e : TEvt) (c : Option Couple) (bigers : List Sig) :
    (r.processEvent env n lax isLocal e c bigers).1 = r ∧ (r.processEvent env n lax isLocal e c bigers).2 ≠ .ok () ∨
    ∃ k, Admitted env r lax isLocal e k ∧
      Out env n (r.fetch k).1 isLocal e c bigers (r.fetch k).2 (r.processEvent env n lax isLocal e c bigers) := by
  unfold Reger.processEvent
  by_cases h1 : env.kel.okPre e.pre = true
  · rw [if_neg (by simp [h1])]
    split
    · exact .inl ⟨rfl, by simp⟩
    · rename_i k hk
      split
      · exact .inl ⟨rfl, by simp⟩
      · rename_i h2
        split
        · exact .inl ⟨rfl, by simp⟩
        · rename_i h3
          refine .inr ⟨k, ⟨h1, hk, ?_, by simpa using h3⟩, ?_⟩
          · unfold TEvt.badNum at h2
            by_cases h4 : e.ilk.inceptive = true
            · simpa [h4] using h2
            · simpa [h4] using h2
          · have hf : r.fetch k = ((r.fetch k).1, (r.fetch k).2) := rfl
            rw [hf]
            cases hk2 : (r.fetch k).2 with
            | none =>
              dsimp only
              split
              · rename_i hi; exact incept_cases env n _ isLocal e c bigers hi
              · exact .inl ⟨escrowOO_err _ _ _, ext_escrowOO _ _ _⟩
            | some t =>
              dsimp only
              split
              · exact out_err
              · split
                · exact .inl ⟨escrowOO_err _ _ _, ext_escrowOO _ _ _⟩
                · split
                  · rename_i h; exact update_cases env n _ isLocal t e c bigers h
                  · exact out_err
  · rw [if_pos (by simpa using h1)]
    exact .inl ⟨rfl, by simp⟩

end Verif.Tel
