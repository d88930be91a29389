import Verif.Reg.PropsMade

/-! # Rotations of registries, registries with backers (C226), registries whose keys are elsewhere (C227) -/

namespace Verif.Reg

open Verif.Kel (Id Dig Couple Event Node upd upd2 oset ioPut cutsOk NoColl)
open Verif.Tel

variable {env : TEnv} {U : Event → Prop} {V : TEvt → Prop}

theorem toadFor_ok {toad : Option Int} {l : List Id} {n : Nat} (h : Hab.toadFor toad l = .ok n) : toadOk n l = true := by
  unfold Hab.toadFor at h
  unfold toadOk
  cases toad <;> grind

/-- What a rotation that is made looks like. -/
structure Follows (t : Tever) (k : Id) (d : Dig) (cuts adds : List Id) (e : TEvt) : Prop where
  ilk : e.ilk = .vrt
  pre : e.pre = k
  said : e.said = d
  sn : e.sn = t.serder.sn + 1
  prior : e.prior = t.serder.said
  cuts : e.cuts = cuts
  adds : e.adds = adds

theorem buildVrt_ok {t : Tever} {k : Id} {d : Dig} {toad : Option Int} {cuts adds : List Id} {e : TEvt} (hk : t.regk = k) (hsn : t.serder.sn = t.sn)
    (h : buildVrt k t.serder.said (t.serder.sn + 1) t.baks d toad cuts adds = .ok e) :
    Follows t k d cuts adds e ∧ t.rotate e = .ok (ioPut ((oset t.baks).filter (fun w => !decide (w ∈ cuts))) adds) ∧
    Hab.toadFor toad (ioPut ((oset t.baks).filter (fun w => !decide (w ∈ cuts))) adds) = .ok e.toad := by
  unfold buildVrt at h
  rw [if_neg (by omega)] at h
  by_cases h1 : (oset t.baks).length ≠ t.baks.length
  · rw [if_pos h1] at h; cases h
  rw [if_neg h1] at h
  by_cases h2 : (oset cuts).length ≠ cuts.length
  · rw [if_pos h2] at h; cases h
  rw [if_neg h2] at h
  by_cases h3 : (!cutsOk t.baks cuts) = true
  · rw [if_pos h3] at h; cases h
  rw [if_neg h3] at h
  by_cases h4 : (oset adds).length ≠ adds.length
  · rw [if_pos h4] at h; cases h
  rw [if_neg h4] at h
  by_cases h5 : (cuts.any fun c => decide (c ∈ adds)) = true
  · rw [if_pos h5] at h; cases h
  rw [if_neg h5] at h
  by_cases h6 : (t.baks.any fun c => decide (c ∈ adds)) = true
  · rw [if_pos h6] at h; cases h
  rw [if_neg h6] at h
  dsimp only at h
  split at h
  · cases h
  · rename_i h7
    split at h
    · cases h
    · rename_i n hn
      cases h
      refine ⟨⟨rfl, rfl, rfl, rfl, rfl, rfl, rfl⟩, ?_, hn⟩
      unfold Tever.rotate
      dsimp only
      rw [if_neg (by simp [hk]), if_neg (by simp [hsn]), if_neg (by simp), if_neg h2, if_neg h3, if_neg h4, if_neg h5, if_neg h6, if_neg h7,
        if_neg (by simp [toadFor_ok hn])]

theorem process_update {n : Node} {r : Reger} {k : Id} {t : Tever} (ht : (r.fetch k).2 = some t) {e : TEvt} (hp : env.kel.okPre e.pre = true)
    (hk : e.regk = some k) (hb : e.badNum = false) (hv : e.ilk ≠ .vcp) (hn : e.sn = (r.fetch k).1.nextSn t e) (c : Option Couple) (bs : List Kel.Sig) :
    r.processEvent env n true true e c bs = (r.fetch k).1.update env n t e c bs := by
  unfold Reger.processEvent
  have hf : r.fetch k = ((r.fetch k).1, some t) := by rw [← ht]
  rw [if_neg (by simp [hp]), hk]
  dsimp only
  rw [if_neg (by simp [hb]), if_neg (by simp [Reger.sourceBad]), hf]
  dsimp only
  rw [if_neg hv, if_neg (by omega), if_pos hn]

theorem update_vrt {n : Node} {r : Reger} {t : Tever} (hb : t.noBackers = false) {e : TEvt} (hi : e.ilk = .vrt) {baks : List Id} (hr : t.rotate e = .ok baks)
    (c : Option Couple) (bs : List Kel.Sig) :
    r.update env n t e c bs = match valAnchorBigs env n r t.pre t.regk t.isLocal e c bs e.toad baks with
      | (r, .error x) => (r, .error x)
      | (r, .ok (c, bs)) => ({ (r.logEvent e c bs baks) with
          tevers := upd r.tevers t.regk (some { t with sn := e.sn, serder := e, ilk := .vrt, toad := e.toad, baks := baks }) }, .ok ()) := by
  unfold Reger.update
  rw [hi]
  dsimp only
  rw [if_neg (by simp [hb]), hr]
  rfl

/-- **C226, rotating.** A registry with backers that is asked to rotate either raises before anything is made, or makes the event that follows the last one known, with the backers
cut and added as asked and a threshold within their number, hands it back, and the event waits for its seal: what is made is never refused for what it says. No log changes until it is
sealed. -/
theorem c226_rotated (hnc : NoColl U) (hnt : NoCollT V) {w : World} (hw : Reached env U V w) {k : Id} {t : Tever} (ht : (w.t.reg.fetch k).2 = some t)
    (hb : t.noBackers = false) (hp : env.kel.okPre k = true) {d : Dig} (toad : Option Int) (cuts adds : List Id)
    (hkeys : ∀ x, (x ∈ t.baks ∨ x ∈ adds) → env.kel.okKey x = true)
    (hv : ∀ e, build w.t.reg false k d (.rotate toad cuts adds) = .ok e → V e) :
    w.ask env false k d (.rotate toad cuts adds) = (w, .error .value) ∨
    ∃ e, (w.ask env false k d (.rotate toad cuts adds)).2 = .ok e ∧ Follows t k d cuts adds e ∧ Waits w (w.ask env false k d (.rotate toad cuts adds)).1 e ∧
      t.rotate e = .ok (ioPut ((oset t.baks).filter (fun w => !decide (w ∈ cuts))) adds) := by
  have hok := hw.ok hnc hnt
  have hif := TInv.fetch hok k
  have hte := hif.tev k t (fetch_some ht)
  cases hbd : build w.t.reg false k d (.rotate toad cuts adds) with
  | error x =>
    refine .inl ?_
    have : x = .value := by
      simp only [build, ht, hb] at hbd
      unfold buildVrt at hbd
      dsimp only at hbd
      repeat' split at hbd
      all_goals first | (cases hbd; rfl) | cases hbd
    subst this
    unfold World.ask
    rw [hbd]
  | ok e =>
    refine .inr ⟨e, ?_⟩
    have hve := hv e hbd
    have hbd' : buildVrt k t.serder.said (t.serder.sn + 1) t.baks d toad cuts adds = .ok e := by
      simpa [build, ht, hb] using hbd
    obtain ⟨hf, hr, _⟩ := buildVrt_ok hte.regk hte.sn hbd'
    generalize hnew : ioPut ((oset t.baks).filter (fun w => !decide (w ∈ cuts))) adds = new at hr
    have hall : new.all env.kel.okKey = true := by
      rw [List.all_eq_true]
      intro x hx
      rw [← hnew] at hx
      refine hkeys x ?_
      rcases (Kel.mem_ioPut _ _ _).1 hx with h | h
      · exact .inl ((Kel.mem_oset _ _).1 (List.mem_filter.1 h).1)
      · exact .inr h
    have hpe := process_update (env := env) (n := w.t.node) ht (e := e) (by rw [hf.pre]; exact hp) (by simp [TEvt.regk, hf.ilk, hf.pre])
      (by simp [TEvt.badNum, hf.ilk, TIlk.inceptive, hf.sn]) (by simp [hf.ilk])
      (by simp [Reger.nextSn, hf.ilk, hf.sn, hte.sn]) none []
    rw [update_vrt hb hf.ilk hr] at hpe
    have hva : valAnchorBigs env w.t.node (w.t.reg.fetch k).1 t.pre t.regk t.isLocal e none [] e.toad new =
        ((w.t.reg.fetch k).1.escrowAL e none (verifyBigs env e [] new) new, .error .missingAnchor) := by
      simp [valAnchorBigs, hall, verifyAnchor]
    rw [hva] at hpe
    dsimp only at hpe
    obtain ⟨g1, g2, g3, g4, g5⟩ := escrowAL_none hnt hif hve (verifyBigs env e [] new) new
    have hT : (w.t.reg.fetch k).1.tels = w.t.reg.tels ∧ (w.t.reg.fetch k).1.ancs = w.t.reg.ancs ∧ (w.t.reg.fetch k).1.taes = w.t.reg.taes := by
      rw [fetch_rest]; exact ⟨rfl, rfl, rfl⟩
    have hask : w.ask env false k d (.rotate toad cuts adds) =
        ({ w with t := { w.t with reg := (w.t.reg.fetch k).1.escrowAL e none (verifyBigs env e [] new) new } }, .ok e) := by
      unfold World.ask
      rw [hbd]
      dsimp only
      unfold World.process
      rw [hpe]
    rw [hask]
    refine ⟨rfl, hf, ⟨g1, ?_, g3, g4.trans hT.1, g5.trans hT.2.1, rfl⟩, hr⟩
    rw [hT.2.2] at g2
    exact g2

/-- **C226, taking effect, partly.** While the registry has been in memory since it was made here, a rotation it has made is accepted once sealed, without any signature of a backer: it is
entered after the last event of the registry, and the registry has the new backers and threshold. Missing: after a restart the registry is as if made elsewhere, and the backers' signatures
are needed (`Demo.c226_backers_after_restart`), and its rotations are forgotten (`Demo.c226_number_again`). -/
theorem c226_accepted_partial (hnc : NoColl U) (hnt : NoCollT V) {w : World} (hw : Reached env U V w) {k : Id} {t : Tever} (ht : (w.t.reg.fetch k).2 = some t)
    (hb : t.noBackers = false) (hloc : t.isLocal = true) (hp : env.kel.okPre k = true) {d : Dig} (toad : Option Int) (cuts adds : List Id)
    (hkeys : ∀ x, (x ∈ t.baks ∨ x ∈ adds) → env.kel.okKey x = true) {e : TEvt} (hbd : build w.t.reg false k d (.rotate toad cuts adds) = .ok e) {s : Nat} {g : Dig}
    (hs : SealAt env w.t.node t.pre s g e) :
    let o := w.t.reg.processEvent env w.t.node true true e (some (s, g)) []
    o.2 = .ok () ∧ o.1.tels k = telPut (w.t.reg.tels k) (t.sn + 1) d ∧
    ∃ t', o.1.tevers k = some t' ∧ t'.serder = e ∧ t'.sn = t.sn + 1 ∧ t'.toad = e.toad ∧
      t'.baks = ioPut ((oset t.baks).filter (fun w => !decide (w ∈ cuts))) adds := by
  have hok := hw.ok hnc hnt
  have hif := TInv.fetch hok k
  have hte := hif.tev k t (fetch_some ht)
  have hbd' : buildVrt k t.serder.said (t.serder.sn + 1) t.baks d toad cuts adds = .ok e := by
    simpa [build, ht, hb] using hbd
  obtain ⟨hf, hr, _⟩ := buildVrt_ok hte.regk hte.sn hbd'
  generalize hnew : ioPut ((oset t.baks).filter (fun w => !decide (w ∈ cuts))) adds = new at hr
  have hall : new.all env.kel.okKey = true := by
    rw [List.all_eq_true]
    intro x hx
    rw [← hnew] at hx
    refine hkeys x ?_
    rcases (Kel.mem_ioPut _ _ _).1 hx with h | h
    · exact .inl ((Kel.mem_oset _ _).1 (List.mem_filter.1 h).1)
    · exact .inr h
  have hpe := process_update (env := env) (n := w.t.node) ht (e := e) (by rw [hf.pre]; exact hp) (by simp [TEvt.regk, hf.ilk, hf.pre])
    (by simp [TEvt.badNum, hf.ilk, TIlk.inceptive, hf.sn]) (by simp [hf.ilk])
    (by simp [Reger.nextSn, hf.ilk, hf.sn, hte.sn]) (some (s, g)) []
  rw [update_vrt hb hf.ilk hr] at hpe
  have hva : valAnchorBigs env w.t.node (w.t.reg.fetch k).1 t.pre t.regk t.isLocal e (some (s, g)) [] e.toad new =
      ((w.t.reg.fetch k).1, .ok ((s, g), verifyBigs env e [] new)) := by
    simp [valAnchorBigs, hall, verifyAnchor_at hs, hloc]
  rw [hva] at hpe
  dsimp only at hpe ⊢
  rw [hpe]
  refine ⟨rfl, ?_, ?_⟩
  · show ((w.t.reg.fetch k).1.logEvent e (s, g) (verifyBigs env e [] new) new).tels k = _
    rw [(logged e _ (s, g) _ _).tels]
    have : (w.t.reg.fetch k).1.tels = w.t.reg.tels := by rw [fetch_rest]
    rw [this, hf.pre, hf.sn, hf.said, hte.sn]
    simp [upd]
  · refine ⟨_, by rw [hte.regk]; simp [upd]; rfl, rfl, ?_, rfl, rfl⟩
    show e.sn = t.sn + 1
    rw [hf.sn, hte.sn]

/-- **C226, issuing with backers.** A registry with backers that is asked to issue a credential that has no events makes its first event, which refers to the last event known of the
registry, hands it back, and the event waits for its seal. -/
theorem c226_issued (hnc : NoColl U) (hnt : NoCollT V) {w : World} (hw : Reached env U V w) (signify : Bool) {k : Id} {t : Tever} (ht : (w.t.reg.fetch k).2 = some t)
    (hb : t.noBackers = false) {vci : Id} {d : Dig} (hp : env.kel.okPre vci = true) (hl : w.t.reg.tels vci = [])
    (hkeys : ∀ x ∈ w.t.reg.baks k t.serder.said, env.kel.okKey x = true)
    (hv : V { blank with ilk := .bis, pre := vci, said := d, issuer := k, raI := k, raD := t.serder.said }) :
    ∃ e, (w.ask env signify k d (.issue vci)).2 = .ok e ∧ Waits w (w.ask env signify k d (.issue vci)).1 e ∧
      e.ilk = .bis ∧ e.pre = vci ∧ e.sn = 0 ∧ e.said = d ∧ e.raI = k ∧ e.raD = t.serder.said := by
  have hok := hw.ok hnc hnt
  have hif := TInv.fetch hok k
  have hte := hif.tev k t (fetch_some ht)
  refine ⟨{ blank with ilk := .bis, pre := vci, said := d, issuer := k, raI := k, raD := t.serder.said }, ?_⟩
  generalize he : ({ blank with ilk := .bis, pre := vci, said := d, issuer := k, raI := k, raD := t.serder.said } : TEvt) = e at hv
  have hbd : build w.t.reg signify k d (.issue vci) = .ok e := by
    simp [build, ht, buildIss, hb, he]
  have hTl : (w.t.reg.fetch k).1.tels = w.t.reg.tels := by rw [fetch_rest]
  have hTb : (w.t.reg.fetch k).1.baks = w.t.reg.baks := by rw [fetch_rest]
  have f : e.ilk = .bis ∧ e.pre = vci ∧ e.sn = 0 ∧ e.said = d ∧ e.raI = k ∧ e.raD = t.serder.said := by
    rw [← he]; exact ⟨rfl, rfl, rfl, rfl, rfl, rfl⟩
  obtain ⟨f1, f2, f3, f4, f5, f6⟩ := f
  have hpe := process_update (env := env) (n := w.t.node) ht (e := e) (by rw [f2]; exact hp) (by simp [TEvt.regk, f1, f5])
    (by simp [TEvt.badNum, f1, TIlk.inceptive, f3]) (by simp [f1]) (by simp [Reger.nextSn, f1, f3, hTl, f2, hl]) none []
  have hst : (w.t.reg.fetch k).1.backerState t e = .ok (t.serder.toad, w.t.reg.baks k t.serder.said) := by
    unfold Reger.backerState
    rw [if_neg (by rw [f5, hte.regk]; simp), f5, f6, hte.stored, hTb]
    dsimp only
    rw [hte.ilk]
    rcases hte.kind with h | ⟨h, _⟩ <;> rw [h]
  have hva : ∀ td, valAnchorBigs env w.t.node (w.t.reg.fetch k).1 t.pre t.regk t.isLocal e none [] td (w.t.reg.baks k t.serder.said) =
      ((w.t.reg.fetch k).1.escrowAL e none (verifyBigs env e [] (w.t.reg.baks k t.serder.said)) (w.t.reg.baks k t.serder.said), .error .missingAnchor) := by
    intro td
    simp only [valAnchorBigs, verifyAnchor]
    rw [if_neg (by simpa using hkeys)]
  have hup : (w.t.reg.fetch k).1.update env w.t.node t e none [] =
      ((w.t.reg.fetch k).1.escrowAL e none (verifyBigs env e [] (w.t.reg.baks k t.serder.said)) (w.t.reg.baks k t.serder.said), .error .missingAnchor) := by
    unfold Reger.update
    rw [f1]
    dsimp only
    unfold Reger.issue
    rw [f1]
    dsimp only
    rw [if_neg (by simp [hb])]
    unfold Reger.backed
    rw [hst]
    dsimp only
    rw [hva]
  rw [hup] at hpe
  obtain ⟨g1, g2, g3, g4, g5⟩ := escrowAL_none hnt hif hv (verifyBigs env e [] (w.t.reg.baks k t.serder.said)) (w.t.reg.baks k t.serder.said)
  have hT : (w.t.reg.fetch k).1.ancs = w.t.reg.ancs ∧ (w.t.reg.fetch k).1.taes = w.t.reg.taes := by
    rw [fetch_rest]; exact ⟨rfl, rfl⟩
  have hask : w.ask env signify k d (.issue vci) =
      ({ w with t := { w.t with reg := (w.t.reg.fetch k).1.escrowAL e none (verifyBigs env e [] (w.t.reg.baks k t.serder.said)) (w.t.reg.baks k t.serder.said) } }, .ok e) := by
    unfold World.ask
    rw [hbd]
    dsimp only
    unfold World.process
    rw [hpe]
  rw [hask]
  refine ⟨rfl, ⟨g1, ?_, g3, g4.trans hTl, g5.trans hT.1, rfl⟩, f1, f2, f3, f4, f5, f6⟩
  rw [hT.2] at g2
  exact g2

/-- C226: a registry is made only with backers each of which is named once, none if it is to have none, and a threshold that they can meet, which is not 0 unless there are none. -/
theorem c226_incepted (w : World) (name : Nat) (pre : Id) (d : Dig) (nb : Bool) (toad : Option Int) (baks : List Id)
    (h : (w.makeNew env name pre d nb toad baks).2 = .ok ()) :
    (nb = true → baks = []) ∧ (oset baks).length = baks.length ∧ ∀ n : Int, toad = some n → 0 ≤ n ∧ n ≤ baks.length ∧ (n = 0 → baks = []) := by
  rcases makeNew_cases env w name pre d nb toad baks with ⟨x, hx⟩ | ⟨e, he, _⟩
  · rw [hx] at h
    cases h
  · unfold buildVcp at he
    split at he
    · cases he
    rename_i h1
    split at he
    · cases he
    rename_i h2
    refine ⟨fun hn => Decidable.byContradiction fun hb => h1 ⟨hn, hb⟩, by omega, ?_⟩
    intro n hn
    subst hn
    unfold Hab.toadFor at he
    dsimp only at he
    by_cases h3 : n < 0
    · rw [if_pos h3] at he
      cases he
    rw [if_neg h3] at he
    by_cases hb : baks = []
    · rw [if_pos hb] at he
      by_cases h0 : n = 0
      · subst h0
        exact ⟨by omega, by omega, fun _ => hb⟩
      · rw [if_neg h0] at he
        cases he
    · rw [if_neg hb] at he
      by_cases h4 : 1 ≤ n ∧ n ≤ baks.length
      · exact ⟨by omega, h4.2, fun h0 => by omega⟩
      · rw [if_neg h4] at he
        cases he

/-- **C226.** A registry without backers is not rotated: the call raises and nothing changes. -/
theorem c226_no_backers (w : World) {k : Id} {t : Tever} (ht : (w.t.reg.fetch k).2 = some t) (hb : t.noBackers = true) (d : Dig) (toad : Option Int) (cuts adds : List Id) :
    w.ask env false k d (.rotate toad cuts adds) = (w, .error .value) := by
  unfold World.ask
  simp [build, ht, hb]

/-! ## Registries whose keys are elsewhere -/

/-- **C227, issuing.** Issuing is the same as for a registry whose keys are here. -/
theorem c227_issue_partial (w : World) (k : Id) (d : Dig) (vci : Id) : w.ask env true k d (.issue vci) = w.ask env false k d (.issue vci) := rfl

/-- **C227, fails.** No rotation is ever taken, whatever it says: the call raises and nothing changes. -/
theorem c227_rotate_fails (w : World) (k : Id) (e : TEvt) : ∃ x, w.signifyRotate env k e = (w, .error x) := by
  rcases rotate_frame env w k e with h | h <;> exact ⟨_, h⟩

/-- **C227, fails.** No credential is ever revoked: the call raises and nothing changes. -/
theorem c227_revoke_fails (w : World) (k : Id) (d : Dig) (vci : Id) : ∃ x, w.ask env true k d (.revoke vci) = (w, .error x) := by
  have : ∃ x, build w.t.reg true k d (.revoke vci) = .error x := by
    simp only [build]
    split
    · exact ⟨_, rfl⟩
    · split
      · exact ⟨_, rfl⟩
      · rw [if_pos (by intro h; cases h)]
        exact ⟨_, rfl⟩
  obtain ⟨x, hx⟩ := this
  unfold World.ask
  rw [hx]
  exact ⟨x, rfl⟩

/-- **C227.** After a restart every registry is of the class whose keys are here. -/
theorem c227_restarted (w : World) (habs : List Id) {k : Id} {o : Obj} (h : (w.restart habs).1.regs k = some o) : o.signify = false := by
  unfold World.restart at h
  split at h
  · exact (loaded_mem h).2
  · cases h

end Verif.Reg
