import Verif.Ser.PropsCommit

/-! # C129: messages are read back from a stream -/

namespace Verif.Ser

open Verif.B64 Verif.Matter
open Verif.Mad hiding Kind verify makify Digested Collision
open Verif.Prs (Proto Kind Smellage asc chars versify deversify smell sniff)

theorem escText_append {t : List Char} (h : Bare t) (u : List Char) : escText (t ++ u) = t ++ escText u := by
  induction t with
  | nil => rfl
  | cons c t ih =>
    simp only [List.cons_append, escText]
    rw [h c (by simp), ih (fun d hd => h d (by simp [hd]))]
    rfl

theorem escText_pos (t : List Char) : 1 ≤ (escText t).length := by
  cases t with
  | nil => simp [escText]
  | cons c t =>
    simp only [escText, List.length_append]
    have : 1 ≤ (escText t).length := escText_pos t
    omega

/-- Every message type requires a field `d`. -/
theorem d_tables : (∀ p ∈ keri1, ['d'] ∈ p.2.labels ∧ ['d'] ∉ p.2.opts) ∧ (∀ p ∈ keri2, ['d'] ∈ p.2.labels ∧ ['d'] ∉ p.2.opts) ∧
    (∀ p ∈ acdc1, ['d'] ∈ p.2.labels ∧ ['d'] ∉ p.2.opts) ∧ (∀ p ∈ acdc2, ['d'] ∈ p.2.labels ∧ ['d'] ∉ p.2.opts) := by
  refine ⟨by decide +kernel, by decide +kernel, by decide +kernel, by decide +kernel⟩

/-- The first two fields of a message of its type. -/
theorem two_fields {proto : Proto} {pvrsn : Nat × Nat} {ilk : Option (List Char)} {fd : FieldDom} {sad : Flds} (h : domain proto pvrsn ilk = some fd)
    (hs : Shape fd (sad.map (·.1))) : ∃ v p r, sad = (['v'], v) :: p :: r := by
  unfold domain at h
  cases hd : domains proto pvrsn with
  | none => rw [hd] at h; simp at h
  | some doms =>
    rw [hd] at h
    have h' : domOf doms ilk = some fd := h
    have hw := wf_dom hd h'
    have hm := domOf_mem h'
    obtain ⟨w1, w2, w3, w4⟩ := d_tables
    have hdl : ['d'] ∈ fd.labels ∧ ['d'] ∉ fd.opts := by
      rcases domains_cases hd with ⟨_, _, rfl⟩ | ⟨_, _, rfl⟩ | ⟨_, _, rfl⟩ | ⟨_, _, rfl⟩
      · exact w1 _ hm
      · exact w2 _ hm
      · exact w3 _ hm
      · exact w4 _ hm
    obtain ⟨own, ext, hk, h1, h2, _⟩ := hs
    have hdk : ['d'] ∈ sad.map (·.1) := by rw [hk]; exact List.mem_append_left _ (h2 _ hdl.1 hdl.2)
    cases hl : fd.labels with
    | nil => rw [hl] at h1; have := hw.first; rw [hl] at this; simp at this
    | cons l ls =>
      have hf := hw.first
      rw [hl] at hf
      simp only [List.head?_cons, Option.some.injEq] at hf
      subst hf
      have hv : ['v'] ∈ own := h2 _ (by rw [hl]; simp) hw.vreq
      rw [hl] at h1
      have hno := hw.nodup
      rw [hl, List.nodup_cons] at hno
      have hown : ∃ r, own = ['v'] :: r := by
        cases h1 with
        | cons _ h => exact absurd (h.subset hv) hno.1
        | cons_cons _ h => exact ⟨_, rfl⟩
      obtain ⟨r, rfl⟩ := hown
      cases sad with
      | nil => simp at hk
      | cons q sad =>
        obtain ⟨l, v⟩ := q
        simp only [List.map_cons, List.cons_append, List.cons.injEq] at hk
        obtain ⟨rfl, hk⟩ := hk
        cases sad with
        | nil => simp at hdk
        | cons p r => exact ⟨v, p, r, rfl⟩

theorem json_smelled {sad : Flds} {t : List Char} {p : List Char × Val} {r : Flds} {m : Smellage} (hs : sad = (['v'], .text t) :: p :: r)
    (hv : deversify (asc t) = .ok m) (hf : Prs.Fits m.pvrsn m.size m.gvrsn) (hg : Prs.foundGenus m.pvrsn m.gvrsn = m.gvrsn) (rest : List Char) :
    smell (asc (json sad ++ rest)) = .ok m ∧ sniff (asc (json sad ++ rest)) = .ok .msg := by
  have hp := Prs.c84_parsed _ _ hv
  have hl := (Prs.c84_roundtrip _ _ _ _ _ _ hp hf []).1
  generalize hn : Prs.vsLen m.pvrsn.1 = n at hp hl
  have hvl := versify_plain hp
  have htake : (asc t).take n = asc (t.take n) := by unfold asc; rw [List.map_take]
  have hbare : Bare (t.take n) := by
    intro c hc
    have h1 := hvl c.toNat (by rw [htake]; unfold asc; exact List.mem_map.2 ⟨c, hc, rfl⟩)
    have h2 : c.toNat < 128 := by
      rcases h1 with h | h
      · exact Prs.isB64_lt h
      · omega
    have key : ∀ n < 128, (Prs.isB64 n = true ∨ n = 46) → esc (Char.ofNat n) = [Char.ofNat n] := by decide +kernel
    have := key c.toNat h2 h1
    rwa [Char.ofNat_toNat] at this
  have htd : t = t.take n ++ t.drop n := (List.take_append_drop n t).symm
  obtain ⟨pl, pv⟩ := p
  have hshape : json sad = ['{', '"', 'v', '"', ':', '"'] ++ t.take n ++ (escText (t.drop n) ++ jsonM false ((pl, pv) :: r)) := by
    rw [hs]
    simp only [json, jsonV, jsonM, jsonText, if_true, List.nil_append]
    conv => lhs; rw [htd, escText_append hbare]
    have e : escText ['v'] = ['v', '"'] := by decide +kernel
    rw [e]
    simp
  have hlen : 5 ≤ (jsonM false ((pl, pv) :: r)).length := by
    simp only [jsonM, jsonText, List.length_append, List.length_cons]
    have h1 := escText_pos pl
    have h2 : 1 ≤ (jsonM false r).length := by
      cases r with
      | nil => simp [jsonM]
      | cons q r => obtain ⟨a, b⟩ := q; simp [jsonM]
    simp
    omega
  have happ : asc (json sad ++ rest) = asc ['{', '"', 'v', '"', ':', '"'] ++ (asc t).take n ++ asc (escText (t.drop n) ++ jsonM false ((pl, pv) :: r) ++ rest) := by
    rw [hshape, htake]
    unfold asc
    simp
  constructor
  · rw [happ]
    have := Prs.c84_smelled _ _ _ _ _ _ hp hf (asc ['{', '"', 'v', '"', ':', '"']) (asc (escText (t.drop n) ++ jsonM false ((pl, pv) :: r) ++ rest))
      (by decide) (by decide) (by
        simp only [List.length_append]
        rw [hl, show (asc ['{', '"', 'v', '"', ':', '"']).length = 6 by decide]
        have : (asc (escText (t.drop n) ++ jsonM false ((pl, pv) :: r) ++ rest)).length =
          (escText (t.drop n)).length + (jsonM false ((pl, pv) :: r)).length + rest.length := by unfold asc; simp [Nat.add_assoc]
        rw [this]
        have := escText_pos (t.drop n)
        have h17 : 17 ≤ Prs.vsLen m.pvrsn.1 := by unfold Prs.vsLen; split <;> omega
        omega)
    rw [this, hg]
  · rw [happ]
    rfl

/-- **C129.** A message that is as it should be and passes the checks of its class is read back from a stream, with what follows it left. -/
theorem c129_read_back {lib : Lib} {cls : Cls} {Held : Flds → Prop} {s : Serder} (r : Right lib s) (hk : s.attrs.kind = .json) (hc : check lib cls s = .ok ())
    (R : Reader lib s.attrs Held) (hh : Held s.sad) (hf : Prs.Fits s.attrs.pvrsn s.size s.attrs.gvrsn) (hg : GenOk s.attrs) (rest : List Char) :
    fromRaw lib cls none (s.raw ++ rest) = .ok (s, rest) := by
  obtain ⟨v, hgv, hdv⟩ := r.version
  obtain ⟨ilk, fd, e1, e2, e3⟩ := r.shape
  obtain ⟨v', p, q, hs⟩ := two_fields e2 e3
  have hv' : v' = v := by
    rw [hs] at hgv
    simp only [getKey_cons, if_true, Option.some.injEq] at hgv
    exact hgv
  subst hv'
  have hd := r.dumped
  have hjd : s.raw = json s.sad := by
    unfold dumps at hd; rw [hk] at hd; simp only [Except.ok.injEq] at hd; exact hd.symm
  have hl := R.back _ _ s.size hh hd (fun h => by rw [hk] at h; exact absurd h (by simp))
  unfold deversifyVal at hdv
  split at hdv
  · next t =>
    obtain ⟨m1, m2⟩ := json_smelled hs hdv hf (by
      unfold Prs.foundGenus
      unfold GenOk at hg
      simp only
      split
      · next h2 => rw [if_pos h2] at hg; exact hg.symm
      · next h2 =>
        rw [if_neg h2] at hg
        obtain ⟨g, e⟩ := Option.isSome_iff_exists.1 hg
        rw [e]; rfl) rest
    rw [← hjd] at m1 m2
    unfold fromRaw inhaleWith inhale
    simp only [m2, m1]
    unfold inhaleAs
    simp only
    rw [if_neg (by rw [r.sized]; simp), r.sized]
    simp only [List.take_left, List.drop_left]
    rw [r.sized] at hl
    rw [hl]
    simp only
    rw [if_neg (by rw [hs]; simp)]
    simp only
    have : (⟨⟨s.attrs.proto, s.attrs.pvrsn, s.attrs.gvrsn, s.attrs.kind⟩, s.raw, s.sad, s.raw.length⟩ : Serder) = s := by
      rw [← r.sized]
    rw [this, hc]
  · exact absurd hdv (by simp)

/-- **C129.** So every message that is made is read back as it was made. -/
theorem c129_made_read_back {lib : Lib} (hw : DigestsOk lib) {cls : Cls} {o : Opts} {sad : Flds} {Held : Flds → Prop} {s : Serder} (hd : Dict sad)
    (ho : ∀ p ∈ o.saids, p.2 ∈ digDex) (h : made lib cls o sad = .ok s) (hk : s.attrs.kind = .json) (R : Reader lib s.attrs Held) (hh : Held s.sad)
    (hf : Prs.Fits s.attrs.pvrsn s.size s.attrs.gvrsn) (rest : List Char) : fromRaw lib cls none (s.raw ++ rest) = .ok (s, rest) := by
  have hc := accepted_checked (Accepted.made (lib := lib) (cls := cls) (Held := Held) o sad s hd ho h)
  have hm : makify lib cls o sad = .ok s := by
    unfold made at h
    split at h
    · exact absurd h (by simp)
    next s' hm =>
    split at h
    · exact absurd h (by simp)
    injection h with h; rw [← h]; exact hm
  obtain ⟨_, ⟨m⟩⟩ := makify_facts hm
  obtain ⟨vv, hvv⟩ := compute_versify m.hcomp
  obtain ⟨hg, _⟩ := genOk_of hvv m.hgen m.hgen2
  exact c129_read_back (c125_made_json hw hd ho hm hk hf).2.1 hk hc R hh hf hg rest

end Verif.Ser
