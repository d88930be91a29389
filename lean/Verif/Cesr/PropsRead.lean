import Verif.Cesr.MsgLemmas

/-! # C170, C172, C173: native messages are read back -/

namespace Verif.Cesr

open Verif.B64 Verif.Matter Verif.Mad
open Verif.Prs (Proto Smellage)
open Verif.Ser (Serder Attrs Lib versifyText)

/-- The attributes of native messages. -/
def attrsOf (pvrsn : Nat × Nat) : Attrs := ⟨.keri, pvrsn, some (2, 0), .cesr⟩

/-- The version string says the size. -/
def Versioned (pvrsn : Nat × Nat) (sad : Flds) (raw : List Char) : Prop := ∃ vs, versifyText (attrsOf pvrsn) raw.length = .ok vs ∧ getKey sad ['v'] = some vs

/-- What is known of a native serialization. -/
structure Parts (env : Env) (pv : Nat × Nat) (ilk : List Char) (raw : List Char) (rest : Flds) (vt tt ft : List Char) : Prop where
  outer : Ctr.encloseText .v2 ['-', 'F'] (vt ++ (tt ++ ft)) = .ok raw
  ver : verText pv = .ok vt
  type : qb64Of (mkTag ilk) = .ok tt
  fields : fieldsText env pv ilk rest = .ok ft
  known : ilk ∈ nativeIlks
  fixed : ∃ fd, fixedDom pv ilk = some fd ∧ fd.labels = ['v'] :: ['t'] :: rest.map (·.1)

theorem ilkOf_type {sad : Flds} {ilk : List Char} (h : getKey sad ['t'] = some (.text ilk)) : Ser.ilkOf sad = .ok (some ilk) := by
  simp only [Ser.ilkOf, h]

theorem native_parts {env : Env} {pv : Nat × Nat} {gv : Option (Nat × Nat)} {ilk : List Char} {sad : Flds} {raw : List Char}
    (ht : getKey sad ['t'] = some (.text ilk)) (hl : ∃ fd, Ser.domain .keri pv (some ilk) = some fd ∧ sad.map (·.1) = fd.labels)
    (h : native env pv gv sad = .ok raw) :
    ∃ v d ls vt tt ft, sad = (['v'], v) :: (['t'], .text ilk) :: (['d'], d) :: ls ∧ ['v'] ∉ ls.map (·.1) ∧ ['t'] ∉ ls.map (·.1) ∧
      Parts env pv ilk raw ((['d'], d) :: ls) vt tt ft ∧ gv = some (2, 0) := by
  obtain ⟨fd, hd, hlab⟩ := hl
  obtain ⟨ls, hfd, nv, nt⟩ := dom_split hd
  rw [hfd] at hlab
  match sad, hlab with
  | (l1, v1) :: (l2, v2) :: (l3, v3) :: r, hlab =>
    simp only [List.map_cons, List.cons.injEq] at hlab
    obtain ⟨rfl, rfl, rfl, rfl⟩ := hlab
    have hv2 : v2 = .text ilk := by
      simpa [getKey_cons] using ht
    subst hv2
    unfold native at h
    split at h
    · exact absurd h (by simp)
    next hg =>
    rw [ilkOf_type ht] at h
    simp only at h
    split at h
    · exact absurd h (by simp)
    next fd' hfix =>
    obtain ⟨hi, hd'⟩ := fixed_domain hfix
    rw [hd] at hd'
    injection hd' with hd'
    subst hd'
    split at h
    · exact absurd h (by simp)
    next body hb =>
    have kv : kindOf ['v'] = some .v := by decide +kernel
    have kt : kindOf ['t'] = some .t := by decide +kernel
    rw [fieldsText, kv] at hb
    simp only [fieldText] at hb
    split at hb
    · exact absurd hb (by simp)
    next vt hvt =>
    split at hb
    · exact absurd hb (by simp)
    next b2 hb2 =>
    injection hb with hb
    subst hb
    rw [fieldsText, kt] at hb2
    simp only [fieldText] at hb2
    split at hb2
    · exact absurd hb2 (by simp)
    next tt htt =>
    split at hb2
    · exact absurd hb2 (by simp)
    next ft hft =>
    injection hb2 with hb2
    subst hb2
    exact ⟨v1, v3, r, vt, tt, ft, rfl, nv, nt, ⟨h, hvt, htt, hft, hi, fd, hfix, by rw [hfd]; rfl⟩, by simpa using hg⟩

theorem loads_of {env : Env} {pv : Nat × Nat} {ilk raw : List Char} {rest : Flds} {vt tt ft : List Char} (p : Parts env pv ilk raw rest vt tt ft) {vs : Val}
    (hvs : versifyText (attrsOf pv) raw.length = .ok vs) (more : List Char) :
    loads env ⟨.keri, pv, .cesr, raw.length, some (2, 0)⟩ (raw ++ more) =
      match takeFields env vs ilk (rest.map (·.1)) ft with
      | .error e => .error e
      | .ok fs => .ok ((['v'], vs) :: (['t'], .text ilk) :: fs) := by
  obtain ⟨c, hd, g⟩ := group_any p.outer
  obtain ⟨fd, f1, f2⟩ := p.fixed
  obtain ⟨m, r, hcode, hsoft, _⟩ := type_reads (ilk_tag p.known) p.type
  have hct := g.take []
  rw [List.append_nil, List.append_nil] at hct
  have hv := (ver_reads p.ver (tt ++ ft)).1
  have ht := r.take ft
  have hF : ¬ (c.code ≠ ['-', 'F'] ∧ c.code ≠ ['-', '-', 'F']) := by
    rcases g.code with e | e <;> simp [e]
  have f2' : fd.alls.map (·.1) = ['v'] :: ['t'] :: rest.map (·.1) := f2
  have kv : kindOf ['v'] = some .v := by decide +kernel
  have kt : kindOf ['t'] = some .t := by decide +kernel
  unfold loads
  rw [if_neg (by simp)]
  simp only [List.take_left' rfl, hct]
  rw [if_neg hF, hv]
  simp only [ht, hcode, hsoft, f1]
  rw [if_neg (by simp)]
  have hvs' : versifyText ⟨.keri, pv, some (2, 0), .cesr⟩ raw.length = .ok vs := hvs
  simp only [hvs', f2', takeFields, kv, kt, takeField]
  cases takeFields env vs ilk (rest.map (·.1)) ft <;> rfl

/-- **C170.** A message whose fields are those of its type, with the values that the builders write and a version string that says its size, is read back from
its native serialization with the same values. -/
theorem c170_read_back_partial {env : Env} (hh : HexOk env) {pvrsn : Nat × Nat} {gvrsn : Option (Nat × Nat)} {ilk : List Char} {sad : Flds} {raw : List Char}
    (hm : MsgOk env pvrsn ilk sad) (h : native env pvrsn gvrsn sad = .ok raw) (hv : Versioned pvrsn sad raw) (rest : List Char) :
    loads env ⟨.keri, pvrsn, .cesr, raw.length, gvrsn⟩ (raw ++ rest) = .ok sad := by
  obtain ⟨v, d, ls, vt, tt, ft, hs, nv, nt, p, rfl⟩ := native_parts hm.type hm.labels h
  obtain ⟨vs, hvs, hgv⟩ := hv
  have hve : v = vs := by
    rw [hs] at hgv
    simpa [getKey_cons] using hgv
  subst hve
  rw [loads_of p hvs rest]
  have hb := fields_back hh v (fs := (['d'], d) :: ls) (fun q hq => hm.fields q (by rw [hs]; simp only [List.mem_cons] at hq ⊢; grind))
    (by simp [nv]) (by simp [nt]) p.fields []
  rw [List.append_nil] at hb
  rw [hb, hs]

/-- **C170.** So a message as it should be that passes the checks of its class is read from a stream, given what is known of it, and what follows is left. -/
theorem c170_from_raw_partial {env : Env} (hh : HexOk env) {lib : Lib} {cls : Ser.Cls} {s : Serder} {ilk : List Char} (r : Ser.Right lib s)
    (hc : Ser.check lib cls s = .ok ()) (hp : s.attrs.proto = .keri) (hk : s.attrs.kind = .cesr) (hd : ∀ pv gv sad, lib.cesr .keri pv gv sad = native env pv gv sad)
    (hl : ∀ sm x, sm.proto = .keri → sm.kind = .cesr → lib.loads sm x = loads env sm x) (hm : MsgOk env s.attrs.pvrsn ilk s.sad)
    (hv : Versioned s.attrs.pvrsn s.sad s.raw) (rest : List Char) :
    Ser.fromRaw lib cls (some ⟨s.attrs.proto, s.attrs.pvrsn, s.attrs.kind, s.size, s.attrs.gvrsn⟩) (s.raw ++ rest) = .ok (s, rest) := by
  obtain ⟨⟨proto, pvrsn, gvrsn, kind⟩, raw, sad, size⟩ := s
  simp only at hp hk
  subst hp hk
  have hdump := r.dumped
  have hsz := r.sized
  simp only [Ser.dumps, hd] at hdump hsz
  subst hsz
  have hb := c170_read_back_partial hh hm hdump hv []
  rw [List.append_nil] at hb
  have hkey : ['v'] ∈ sad.map (·.1) := by
    obtain ⟨v, hv, _⟩ := r.version
    exact List.mem_map.2 ⟨_, getKey_mem hv, rfl⟩
  have hl' := hl ⟨.keri, pvrsn, .cesr, raw.length, gvrsn⟩ raw rfl rfl
  simp only at hb
  unfold Ser.fromRaw Ser.inhaleWith Ser.inhaleAs
  simp only
  rw [if_neg (by simp)]
  simp only [List.take_left' rfl, List.drop_left' rfl, hl', hb]
  rw [if_neg (by simpa using hkey)]
  simp only [hc]

/-- **C170 fails of many seals.**  Of more seals of a kind in a row than 4095 quadlets, the group has a code that the reader does not know. -/
theorem c170_big_run {x : Char} {g t : List Char} (hx : x ∈ ['Q', 'R', 'S', 'T', 'U', 'V', 'W']) (hq : g.length % 4 = 0) (hl : 4 * 4095 < g.length)
    (h : counted x g = .ok t) (n : Nat) (rest : List Char) : sealGroups (n + 1) (t ++ rest) = .error .deserialize := by
  rw [counted_eq hq] at h
  obtain ⟨c, hd, gr⟩ := group_any h
  have hcount : c.count * 4 = g.length := gr.count
  have hcode : c.code = ['-', '-', x] := by
    rcases gr.code with e | e
    · obtain ⟨sz, r, hv, _⟩ := (Ctr.exfil_ok_iff .v2 _ _).1 (gr.peek [])
      have hss : ∀ y ∈ ['Q', 'R', 'S', 'T', 'U', 'V', 'W'], Ctr.sizes? .v2 ['-', y] = some ⟨2, 2, 4⟩ := by decide +kernel
      have h1 := hv.size
      rw [e, hss x hx] at h1
      injection h1 with h1
      have h2 := hv.count
      rw [← h1] at h2
      simp only at h2
      omega
    · exact e
  have hk : ∀ y ∈ ['Q', 'R', 'S', 'T', 'U', 'V', 'W'], (kindOfCode ['-', '-', y]).isNone = true := by decide +kernel
  have hk' : kindOfCode ['-', '-', x] = none := by simpa using hk x hx
  have htk := gr.take rest
  have hlen : t.length = hd.length + g.length := by rw [gr.eq, List.length_append]
  cases t with
  | nil => simp at hlen; omega
  | cons a t =>
    simp only [List.cons_append] at htk
    simp only [List.cons_append, sealGroups, htk, hcode, hk']

/-! ## C172 -/

theorem fieldsText_setField (env : Env) (pv : Nat × Nat) (ilk : List Char) (v w : Val) (sad : Flds) :
    fieldsText env pv ilk (setField sad ['v'] v) = fieldsText env pv ilk (setField sad ['v'] w) := by
  have kv : kindOf ['v'] = some .v := by decide +kernel
  induction sad with
  | nil => simp only [setField, fieldsText, kv, fieldText]
  | cons p r ih =>
    obtain ⟨l, x⟩ := p
    simp only [setField]
    split
    · next e =>
      subst e
      simp only [fieldsText, kv, fieldText]
    · simp only [fieldsText, ih]

/-- **C172.** The native serialization of a message does not depend on its version string. -/
theorem c172_unversioned (env : Env) (pvrsn : Nat × Nat) (gvrsn : Option (Nat × Nat)) : Ser.Unversioned (native env pvrsn gvrsn) := by
  intro sad v w
  have hi : Ser.ilkOf (setField sad ['v'] v) = Ser.ilkOf (setField sad ['v'] w) := by
    unfold Ser.ilkOf
    rw [Ser.getKey_setField, Ser.getKey_setField, if_neg (by decide), if_neg (by decide)]
  unfold native
  rw [hi]
  simp only [fieldsText_setField env pvrsn _ v w sad]

/-- **C172.** So what is asked of the serialization of a kind, for messages that are made and verified, holds of native messages. -/
theorem c172_kind_ok {env : Env} {lib : Lib} (hd : ∀ pv gv sad, lib.cesr .keri pv gv sad = native env pv gv sad) (a : Attrs) (hp : a.proto = .keri)
    (hk : a.kind = .cesr) : Ser.KindOk lib a := by
  unfold Ser.KindOk
  rw [if_pos hk]
  intro sad v w
  unfold Ser.dumps
  rw [hk, hp]
  simp only [hd]
  exact c172_unversioned env a.pvrsn a.gvrsn sad v w

end Verif.Cesr
