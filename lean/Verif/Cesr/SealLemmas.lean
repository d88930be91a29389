import Verif.Cesr.FieldLemmas

/-! # Seals read back -/

namespace Verif.Cesr

open Verif.B64 Verif.Matter Verif.Mad
open Verif.Thold (natText)

/-- What is known of the value of a field of a seal. -/
structure CastBack (env : Env) (c : Cast) (v : Val) (a : List Char) : Prop where
  text : castText env c v = .ok a
  take : ∀ rest, castTake c (a ++ rest) = .ok (v, rest)
  quads : a.length % 4 = 0
  pos : 0 < a.length
  size : ∀ t, v = .text t → a.length ≤ max t.length 24

theorem prim_text {codes : List (List Char)} {t : List Char} (h : Is codes t) : primText codes (.text t) = .ok t := by
  obtain ⟨m, h1, h2, h3⟩ := h
  simp only [primText, h1, if_pos h3, h2]

theorem dig_back {env : Env} {t : List Char} (h : Is digDex t) : CastBack env .dig (.text t) t := by
  obtain ⟨m, r, hq, hc, _⟩ := is_reads h
  refine ⟨prim_text h, fun rest => ?_, hq, r.pos, fun t' e => ?_⟩
  · simp only [castTake, r.take]
    rw [if_neg (by simpa using hc)]
    simp only [r.text]
  · injection e with e; subst e; omega

theorem pre_back {env : Env} {t : List Char} (h : Is Ser.preDex t) : CastBack env .pre (.text t) t := by
  obtain ⟨m, r, hq, hc, _⟩ := is_reads h
  refine ⟨prim_text h, fun rest => ?_, hq, r.pos, fun t' e => ?_⟩
  · simp only [castTake, r.take]
    rw [if_neg (by simpa using hc)]
    simp only [r.text]
  · injection e with e; subst e; omega

theorem ver_back {env : Env} {t : List Char} (h : Is [['Y'], ['0', 'O']] t) : CastBack env .ver (.text t) t := by
  obtain ⟨m, r, hq, hc, _⟩ := is_reads h
  have hpos := r.pos
  refine ⟨?_, fun rest => ?_, hq, r.pos, fun t' e => ?_⟩
  · have : Ser.truthy (.text t) = true := by
      cases t with
      | nil => simp at hpos
      | cons c t => rfl
    simp only [castText, this, if_true]
    exact prim_text h
  · simp only [castTake, r.take]
    rw [if_neg (fun h => h hc)]
    simp only [r.text]
  · injection e with e; subst e; omega

theorem numb_back {env : Env} (hh : HexOk env) {v : Val} (h : IsNum v) : ∃ a, CastBack env .num v a := by
  obtain ⟨m, t, n, hv, t1, r, hq, hc, hn, hs⟩ := num_back hh h
  refine ⟨t, t1, fun rest => ?_, hq, r.pos, fun t' e => by omega⟩
  simp only [castTake, r.take]
  rw [if_neg (by simpa using hc)]
  simp only [hn, hv]

/-- What is known of the fields of a seal. -/
structure CastsBack (env : Env) (ls : List (List Char)) (cs : List Cast) (vs : List Val) (q : List Char) : Prop where
  text : castTexts env cs vs = .ok q
  take : ∀ rest, sealTake ls cs (q ++ rest) = .ok (ls.zip vs, rest)
  quads : q.length % 4 = 0
  size : q.length ≤ width (.map (ls.zip vs))

theorem casts_nil (env : Env) : CastsBack env [] [] [] [] := ⟨rfl, fun _ => rfl, rfl, by simp⟩

theorem casts_cons {env : Env} {l : List Char} {ls : List (List Char)} {c : Cast} {cs : List Cast} {t : List Char} {vs : List Val} {a q : List Char}
    (h : CastBack env c (.text t) a) (hs : CastsBack env ls cs vs q) : CastsBack env (l :: ls) (c :: cs) (.text t :: vs) (a ++ q) := by
  refine ⟨?_, fun rest => ?_, ?_, ?_⟩
  · simp only [castTexts, h.text, hs.text]
  · simp only [sealTake, List.append_assoc, h.take, hs.take, List.zip_cons_cons]
  · have := h.quads; have := hs.quads
    rw [List.length_append]; omega
  · have h1 := h.size t rfl
    have h2 := hs.size
    simp only [width, List.zip_cons_cons, List.map_cons, List.sum_cons, List.length_append] at h2 ⊢
    omega

/-- What is known of a seal of the kind `x`. -/
structure SealBack (env : Env) (x : Char) (ls : List (List Char)) (cs : List Cast) (e : Val) (q : List Char) : Prop where
  code : kindOfCode ['-', x] = some (x, ls, cs)
  text : sealText env e = .ok (x, q)
  take : ∃ fs, e = .map fs ∧ ∀ rest, sealTake ls cs (q ++ rest) = .ok (fs, rest)
  quads : q.length % 4 = 0
  pos : 0 < q.length
  size : q.length ≤ width e

theorem seal_of {env : Env} {x : Char} {ls : List (List Char)} {cs : List Cast} {vs : List Val} {q : List Char} (hc : kindOfCode ['-', x] = some (x, ls, cs))
    (hm : kindOfMark ls = some (x, ls, cs)) (hl : ls.length = vs.length) (hp : 0 < q.length) (h : CastsBack env ls cs vs q) :
    SealBack env x ls cs (.map (ls.zip vs)) q := by
  refine ⟨hc, ?_, ⟨_, rfl, h.take⟩, h.quads, hp, h.size⟩
  have e1 : (ls.zip vs).map (·.1) = ls := by
    rw [List.map_fst_zip]; omega
  have e2 : (ls.zip vs).map (·.2) = vs := by
    rw [List.map_snd_zip]; omega
  simp only [sealText, e1, e2, hm, h.text]

theorem seal_back {env : Env} (hh : HexOk env) {x : Char} {e : Val} (h : SealIs x e) : ∃ ls cs q, SealBack env x ls cs e q := by
  have pos2 : ∀ a b : List Char, 0 < a.length → 0 < (a ++ b).length := by intro a b h; rw [List.length_append]; omega
  cases h with
  | digest d h1 =>
    have b1 := dig_back (env := env) h1
    exact ⟨_, _, _, seal_of (ls := [['d']]) (cs := [.dig]) (vs := [.text d]) (by decide +kernel) (by decide +kernel) rfl (pos2 _ _ b1.pos)
      (casts_cons b1 (casts_nil env))⟩
  | root d h1 =>
    have b1 := dig_back (env := env) h1
    exact ⟨_, _, _, seal_of (ls := [['r', 'd']]) (cs := [.dig]) (vs := [.text d]) (by decide +kernel) (by decide +kernel) rfl (pos2 _ _ b1.pos)
      (casts_cons b1 (casts_nil env))⟩
  | source s d h1 h2 =>
    obtain ⟨a, b1⟩ := numb_back hh h1
    obtain ⟨n, rfl, _⟩ := h1
    exact ⟨_, _, _, seal_of (ls := [['s'], ['d']]) (cs := [.num, .dig]) (vs := [_, .text d]) (by decide +kernel) (by decide +kernel) rfl (pos2 _ _ b1.pos)
      (casts_cons b1 (casts_cons (dig_back h2) (casts_nil env)))⟩
  | event i s d h1 h2 h3 =>
    obtain ⟨a, b1⟩ := numb_back hh h2
    obtain ⟨n, rfl, _⟩ := h2
    have b0 := pre_back (env := env) h1
    exact ⟨_, _, _, seal_of (ls := [['i'], ['s'], ['d']]) (cs := [.pre, .num, .dig]) (vs := [.text i, _, .text d]) (by decide +kernel) (by decide +kernel) rfl
      (pos2 _ _ b0.pos) (casts_cons b0 (casts_cons b1 (casts_cons (dig_back h3) (casts_nil env))))⟩
  | last i h1 =>
    have b1 := pre_back (env := env) h1
    exact ⟨_, _, _, seal_of (ls := [['i']]) (cs := [.pre]) (vs := [.text i]) (by decide +kernel) (by decide +kernel) rfl (pos2 _ _ b1.pos)
      (casts_cons b1 (casts_nil env))⟩
  | back i d h1 h2 =>
    have b1 := pre_back (env := env) h1
    exact ⟨_, _, _, seal_of (ls := [['b', 'i'], ['d']]) (cs := [.pre, .dig]) (vs := [.text i, .text d]) (by decide +kernel) (by decide +kernel) rfl
      (pos2 _ _ b1.pos) (casts_cons b1 (casts_cons (dig_back h2) (casts_nil env)))⟩
  | kind t d h1 h2 =>
    have b1 := ver_back (env := env) h1
    exact ⟨_, _, _, seal_of (ls := [['t'], ['d']]) (cs := [.ver, .dig]) (vs := [.text t, .text d]) (by decide +kernel) (by decide +kernel) rfl
      (pos2 _ _ b1.pos) (casts_cons b1 (casts_cons (dig_back h2) (casts_nil env)))⟩

/-! ## Groups of seals -/

/-- The text is read as a group of seals of the kind, all of them. -/
def GroupIs (ls : List (List Char)) (cs : List Cast) (g : List Char) (rs : List Val) : Prop := ∀ n, g.length < n → sealGroup ls cs n g = .ok rs

theorem group_cons {env : Env} {x : Char} {ls : List (List Char)} {cs : List Cast} {e : Val} {q g : List Char} {rs : List Val} (h : SealBack env x ls cs e q)
    (hg : GroupIs ls cs g rs) : GroupIs ls cs (q ++ g) (e :: rs) := by
  intro n hn
  obtain ⟨n, rfl⟩ : ∃ k, n = k + 1 := ⟨n - 1, by omega⟩
  obtain ⟨fs, rfl, ht⟩ := h.take
  have hp := h.pos
  rw [List.length_append] at hn
  have hk := hg n (by omega)
  have ht := ht g
  cases q with
  | nil => simp at hp
  | cons c q =>
    simp only [List.cons_append] at ht
    simp only [List.cons_append, sealGroup, ht, hk]

theorem group_nil (ls : List (List Char)) (cs : List Cast) : GroupIs ls cs [] [] := by
  intro n hn
  obtain ⟨n, rfl⟩ : ∃ k, n = k + 1 := ⟨n - 1, by omega⟩
  rfl

/-- Reading what is appended to it continues. -/
def GroupPre (ls : List (List Char)) (cs : List Cast) (g : List Char) (rs : List Val) : Prop :=
  ∀ t ws, GroupIs ls cs t ws → GroupIs ls cs (g ++ t) (rs ++ ws)

theorem group_snoc {env : Env} {x : Char} {ls : List (List Char)} {cs : List Cast} {e : Val} {q g : List Char} {rs : List Val} (h : SealBack env x ls cs e q)
    (hg : GroupPre ls cs g rs) : GroupPre ls cs (g ++ q) (rs ++ [e]) := by
  intro t ws ht
  rw [List.append_assoc, List.append_assoc]
  exact hg _ _ (group_cons h ht)

/-- The text is read as groups of seals. -/
def GroupsAre (g : List Char) (rs : List Val) : Prop := ∀ n, g.length < n → sealGroups n g = .ok rs

def GroupsPre (g : List Char) (rs : List Val) : Prop := ∀ t ws, GroupsAre t ws → GroupsAre (g ++ t) (rs ++ ws)

theorem counted_small {x : Char} {g t : List Char} (hq : g.length % 4 = 0) (hl : g.length ≤ 4 * 4095) (h : counted x g = .ok t) :
    ∃ c hd, Group x t g c hd ∧ c.code = ['-', x] := by
  rw [counted_eq hq] at h
  obtain ⟨c, hd, gr⟩ := group_any h
  refine ⟨c, hd, gr, ?_⟩
  unfold Ctr.encloseText at h
  rw [if_neg (by omega)] at h
  split at h
  · exact absurd h (by simp)
  next m hm =>
  split at h
  · exact absurd h (by simp)
  obtain ⟨tc, t1, t2, t3, t4⟩ := Ctr.c81_text .v2 _ _ m hm
  rw [t1] at h
  simp only at h
  injection h with h
  have hc : c = m := by
    have a := gr.peek g
    rw [← gr.eq, ← h, t2 g] at a
    injection a with a
    exact a.symm
  subst hc
  unfold Ctr.make at hm
  rw [if_neg (by simp)] at hm
  split at hm
  · exact absurd hm (by simp)
  next sz hs =>
  simp only at hm
  split at hm
  · exact absurd hm (by simp)
  rcases Ctr.promote_cases ['-', x] sz.ss ((g.length / 4 : Nat) : Int) (by simp) with hp | ⟨a, b, tl, _, _, _, hgt, _⟩
  · rw [hp] at hm
    simp only at hm
    split at hm
    · exact absurd hm (by simp)
    · injection hm with hm
      rw [← hm]
  · omega

theorem close_back {x : Char} {ls : List (List Char)} {cs : List Cast} {frame g f : List Char} {ds rs : List Val}
    (hk : kindOfCode ['-', x] = some (x, ls, cs)) (hf : GroupsPre frame ds) (hg : GroupPre ls cs g rs) (hq : g.length % 4 = 0) (hl : g.length ≤ 4 * 4095)
    (hfq : frame.length % 4 = 0) (h : closeGroup frame (some (x, g)) = .ok f) : GroupsPre f (ds ++ rs) ∧ f.length % 4 = 0 := by
  unfold closeGroup at h
  simp only at h
  split at h
  · exact absurd h (by simp)
  next t ht =>
  injection h with h
  subst h
  obtain ⟨c, hd, gr, hcode⟩ := counted_small hq hl ht
  have hgi : GroupIs ls cs g rs := by
    have := hg [] [] (group_nil ls cs)
    simpa using this
  refine ⟨?_, by have := gr.quads; rw [List.length_append, gr.eq, List.length_append]; omega⟩
  intro u ws hu
  rw [List.append_assoc, List.append_assoc]
  apply hf
  intro n hn
  obtain ⟨n, rfl⟩ : ∃ k, n = k + 1 := ⟨n - 1, by omega⟩
  have hcount : c.count * 4 = g.length := gr.count
  have hlong := gr.long
  have hlen : t.length = hd.length + g.length := by rw [gr.eq, List.length_append]
  rw [List.length_append] at hn
  have hu' := hu n (by omega)
  have htk := gr.take u
  have hgl := hgi ((g ++ u).length + 1) (by rw [List.length_append]; omega)
  cases t with
  | nil => simp at hlen; omega
  | cons a t =>
    simp only [List.cons_append] at htk
    simp only [List.cons_append, sealGroups, htk, hcode, hk, hcount, List.take_left' rfl, List.drop_left' rfl, hgl, hu']

theorem seals_back {env : Env} (hh : HexOk env) (es : List Val) : ∀ (ds run : List Val) (frame out : List Char) (g : Option (Char × List Char)),
    SealsOk (ds ++ run ++ es) → GroupsPre frame ds → frame.length % 4 = 0 →
    (g = none ∧ run = [] ∨ ∃ x gf ls cs, g = some (x, gf) ∧ kindOfCode ['-', x] = some (x, ls, cs) ∧ (∀ e ∈ run, SealIs x e) ∧ GroupPre ls cs gf run ∧
      gf.length % 4 = 0 ∧ gf.length ≤ (run.map width).sum) →
    sealsText env es frame g = .ok out → GroupsPre out (ds ++ run ++ es) ∧ out.length % 4 = 0 := by
  induction es with
  | nil =>
    intro ds run frame out g hok hf hfq hg h
    rw [List.append_nil] at hok ⊢
    unfold sealsText at h
    rcases hg with ⟨rfl, rfl⟩ | ⟨x, gf, ls, cs, rfl, hk, hx, hp, hq, hl⟩
    · injection h with h
      subst h
      rw [List.append_nil]
      exact ⟨hf, hfq⟩
    · have hb := hok.2 ds run [] x (by simp) hx
      exact close_back hk hf hp hq (by omega) hfq h
  | cons e es ih =>
    intro ds run frame out g hok hf hfq hg h
    obtain ⟨x, hx⟩ := hok.1 e (by simp)
    obtain ⟨ls, cs, q, sb⟩ := seal_back hh hx
    unfold sealsText at h
    rw [sb.text] at h
    simp only at h
    have e1 : ds ++ run ++ e :: es = ds ++ (run ++ [e]) ++ es := by simp
    rcases hg with ⟨rfl, rfl⟩ | ⟨y, gf, ls', cs', rfl, hk, hy, hp, hq, hl⟩
    · simp only at h
      rw [e1] at hok ⊢
      refine ih ds _ frame out _ hok hf hfq (.inr ⟨x, q, ls, cs, rfl, sb.code, ?_, ?_, sb.quads, ?_⟩) h
      · intro e' he'
        simp only [List.nil_append, List.mem_singleton] at he'
        rw [he']
        exact hx
      · intro t ws ht
        exact group_cons sb ht
      · simpa using sb.size
    · simp only at h
      split at h
      · next hxy =>
        subst hxy
        rw [sb.code] at hk
        injection hk with hk
        injection hk with _ hk
        injection hk with k1 k2
        subst k1 k2
        rw [e1] at hok ⊢
        refine ih ds _ frame out _ hok hf hfq (.inr ⟨x, gf ++ q, ls, cs, rfl, sb.code, ?_, group_snoc sb hp, ?_, ?_⟩) h
        · intro e' he'
          rcases List.mem_append.1 he' with h' | h'
          · exact hy e' h'
          · rw [List.mem_singleton.1 h']
            exact hx
        · have := sb.quads
          rw [List.length_append]; omega
        · have := sb.size
          simp only [List.map_append, List.sum_append, List.map_cons, List.map_nil, List.sum_cons, List.sum_nil, List.length_append]
          omega
      · split at h
        · exact absurd h (by simp)
        next f hcl =>
        have hb := hok.2 ds run (e :: es) y rfl hy
        obtain ⟨c1, c2⟩ := close_back hk hf hp hq (by omega) hfq hcl
        have e2 : ds ++ run ++ e :: es = (ds ++ run) ++ [e] ++ es := by simp
        rw [e2] at hok ⊢
        refine ih (ds ++ run) [e] f out _ hok c1 c2 (.inr ⟨x, q, ls, cs, rfl, sb.code, ?_, ?_, sb.quads, ?_⟩) h
        · intro e' he'
          rw [List.mem_singleton.1 he']
          exact hx
        · intro t ws ht
          exact group_cons sb ht
        · simpa using sb.size

theorem seals_read {env : Env} (hh : HexOk env) {es : List Val} {out : List Char} (hok : SealsOk es) (h : sealsText env es [] none = .ok out) :
    out.length % 4 = 0 ∧ sealGroups (out.length + 1) out = .ok es := by
  obtain ⟨h1, h2⟩ := seals_back hh es [] [] [] out none (by simpa using hok) (fun t ws ht => by simpa using ht) rfl (.inl ⟨rfl, rfl⟩) h
  refine ⟨h2, ?_⟩
  have := h1 [] [] (by
    intro n hn
    obtain ⟨n, rfl⟩ : ∃ k, n = k + 1 := ⟨n - 1, by omega⟩
    rfl)
  simpa using this (out.length + 1) (by simp)

end Verif.Cesr
