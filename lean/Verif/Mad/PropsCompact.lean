import Verif.Mad.CompactCommit

/-!
# Theorems about compaction of nested maps with SAIDs (C119-C121)
-/

namespace Verif.Mad

open Verif.B64 Verif.Matter

theorem compacted_rolled {w : World} {kind : Kind} {saids : Saids} {mad : Flds} (hw : HashOk w) (hs : Dict saids) (t : Tidy (.map mad)) (hp : Primary saids mad)
    (r : Flds) : compacted w kind saids mad = .ok r ↔ rolledTop w kind saids mad = .ok r := by
  have h := (loop_rolled (kind := kind) hw hs (mapsF mad + 1) mad [] t hp rfl (by omega)).1 r
  rw [← h]
  unfold compacted
  constructor
  · intro h
    split at h
    · exact absurd h (by simp)
    next r' L e =>
    injection h with h
    exact ⟨L, by rw [e, h]⟩
  · rintro ⟨L, e⟩
    rw [e]

/-- C119: compaction ends, within one round more than there are maps, and what it leaves is the most compact form, whatever it was given as long as no label
has a dot and a map with SAIDs has the first one. -/
theorem c119_compacts_partial (w : World) (kind : Kind) (saids : Saids) (mad : Flds) (hw : HashOk w) (hs : Dict saids) (t : Tidy (.map mad)) (hp : Primary saids mad) :
    (∀ n, mapsF mad < n → compactLoop w kind saids n mad [] = compactLoop w kind saids (mapsF mad + 1) mad []) ∧
    (∀ r, compacted w kind saids mad = .ok r ↔ rolledTop w kind saids mad = .ok r) := by
  refine ⟨?_, compacted_rolled hw hs t hp⟩
  intro n hn
  have h := (loop_rolled (kind := kind) hw hs (mapsF mad + 1) mad [] t hp rfl (by omega)).2 (n - (mapsF mad + 1))
  rwa [show mapsF mad + 1 + (n - (mapsF mad + 1)) = n by omega] at h

/-- C119: what is left of a map with SAIDs verifies, and has no map with SAIDs in it, at any depth. -/
theorem c119_compact_verifies_partial (w : World) (kind : Kind) (saids : Saids) (mad r : Flds) (hw : HashOk w) (hs : Dict saids) (t : Tidy (.map mad)) (hp : Primary saids mad)
    (h : compacted w kind saids mad = .ok r) :
    (anySaid saids mad = true → verify w kind true saids r = .ok ()) ∧ r.map (·.1) = mad.map (·.1) ∧
    (∀ l v b, (l, v) ∈ r → Block v b → anySaid saids b = false) := by
  rw [compacted_rolled hw hs t hp] at h
  have t' := t
  rw [Tidy] at t'
  refine ⟨fun ha => (rolledTop_said hw hs t'.1 hp ha h).1, ?_, ?_⟩
  · exact rolledTop_keys hw hs t'.1 h
  · intro l v b hv hb
    exact rolledTop_flat hw hs t'.1 t'.2 h l v hv b hb

/-- C120: whatever of the maps with SAIDs is hidden behind their SAIDs, and whatever is stated as their SAIDs, the compact form is the same. -/
theorem c120_disclosures_partial (w : World) (kind : Kind) (saids : Saids) (mad mad' r : Flds) (hw : HashOk w) (hs : Dict saids) (t : Tidy (.map mad))
    (hp : Primary saids mad) (hv : VariantF w kind saids mad mad') :
    compacted w kind saids mad = .ok r ↔ compacted w kind saids mad' = .ok r := by
  have t' := variant_tidy hs hw (.map hv) t
  rw [compacted_rolled hw hs t hp, compacted_rolled hw hs t' (primary_keys (variantF_keys hv) hp)]
  exact variant_top hs hw hv t r

/-- C120: a map in the form that is hidden is replaced by its SAID, which is the SAID of its own compact form. -/
theorem c120_hidden_partial (w : World) (kind : Kind) (saids : Saids) (fs : Flds) (x : Val) (hw : HashOk w) (hs : Dict saids) (t : Tidy (.map fs))
    (hp : Primary saids fs) (ha : anySaid saids fs = true) (h : rolledV w kind saids (.map fs) = .ok x) :
    ∃ r p s, compacted w kind saids fs = .ok r ∧ saids = p :: s ∧ (p.1, x) ∈ r := by
  obtain ⟨r, h1, h2⟩ := rolledV_said ha h
  have t' := t
  rw [Tidy] at t'
  obtain ⟨_, ⟨p, s, v, e, hv, hx⟩, _⟩ := rolledTop_said hw hs t'.1 hp ha h1
  exact ⟨r, p, s, (compacted_rolled hw hs t hp r).2 h1, e, by rw [h2, hx]; exact hv⟩

theorem agree_top {w : World} {kind : Kind} {saids : Saids} {P : Flds → Prop} {mad1 mad2 r1 r2 : Flds} (hw : HashOk w) (hs : Dict saids)
    (hcom : Commits w kind saids P) (t1 : Tidy (.map mad1)) (t2 : Tidy (.map mad2))
    (p1 : ∀ b, Block (.map mad1) b → Primary saids b) (p2 : ∀ b, Block (.map mad2) b → Primary saids b)
    (q1 : ∀ b r, Block (.map mad1) b → rolledTop w kind saids b = .ok r → P r) (q2 : ∀ b r, Block (.map mad2) b → rolledTop w kind saids b = .ok r → P r)
    (h1 : compacted w kind saids mad1 = .ok r1) (h2 : compacted w kind saids mad2 = .ok r2)
    {l d : List Char} {v : Val} (hl : (l, d) ∈ saids) (e1 : (l, v) ∈ r1) (e2 : (l, v) ∈ r2) :
    AgreeF w kind saids mad1 mad2 ∨ CollisionIn w kind saids (.map mad1) (.map mad2) := by
  have k1 := (c119_compact_verifies_partial w kind saids mad1 r1 hw hs t1 (p1 _ (.self _)) h1).2.1
  have k2 := (c119_compact_verifies_partial w kind saids mad2 r2 hw hs t2 (p2 _ (.self _)) h2).2.1
  rw [compacted_rolled hw hs t1 (p1 _ (.self _))] at h1
  rw [compacted_rolled hw hs t2 (p2 _ (.self _))] at h2
  have t1' := t1
  have t2' := t2
  rw [Tidy] at t1' t2'
  have a1 : anySaid saids mad1 = true := by rw [← anySaid_keys k1]; exact anySaid_of_mem hl e1
  have a2 : anySaid saids mad2 = true := by rw [← anySaid_keys k2]; exact anySaid_of_mem hl e2
  obtain ⟨v1, _, f1, f2, f3⟩ := rolledTop_said hw hs t1'.1 (p1 _ (.self _)) a1 h1
  obtain ⟨v2, _, g1, g2, g3⟩ := rolledTop_said hw hs t2'.1 (p2 _ (.self _)) a2 h2
  rcases hcom r1 r2 l d v (q1 _ _ (.self _) h1) (q2 _ _ (.self _) h2) v1 v2 hl e1 e2 with h | h
  · rw [f3, g3] at h
    rcases agreeF hw hs hcom mad1 mad2 f1 g1 t1'.2 t2'.2
      (fun p hp b hb => p1 b (.inner hp hb)) (fun p hp b hb => p2 b (.inner hp hb))
      (fun p hp b r hb => q1 b r (.inner hp hb)) (fun p hp b r hb => q2 b r (.inner hp hb)) f2 g2 h with h | ⟨p, hp, q, hq, b1, b2, r1, r2, c1, c2, c3⟩
    · exact .inl h
    · exact .inr ⟨b1, b2, r1, r2, .inner hp c1, .inner hq c2, c3⟩
  · exact .inr ⟨mad1, mad2, r1, r2, .self _, .self _, h1, h2, h⟩

/-- C121: two disclosures whose compact forms have the same SAID agree in all that both show, or a map in the one and a map in the other collide. -/
theorem c121_agree_partial (env : Env) (w : World) (saids : Saids) (mad1 mad2 r1 r2 : Flds) (hw : HashOk w) (hs : Dict saids) (ha : Ascii env)
    (t1 : Tidy (.map mad1)) (t2 : Tidy (.map mad2)) (g1 : Good env (.map mad1)) (g2 : Good env (.map mad2))
    (p1 : ∀ b, Block (.map mad1) b → Primary saids b) (p2 : ∀ b, Block (.map mad2) b → Primary saids b)
    (h1 : compacted w .cesr saids mad1 = .ok r1) (h2 : compacted w .cesr saids mad2 = .ok r2)
    (l d : List Char) (v : Val) (hl : (l, d) ∈ saids) (e1 : (l, v) ∈ r1) (e2 : (l, v) ∈ r2) :
    AgreeF w .cesr saids mad1 mad2 ∨ CollisionIn w .cesr saids (.map mad1) (.map mad2) :=
  agree_top (P := fun r => Good env (.map r)) hw hs
    (fun a b l d v x y z u hl e1 e2 => c118_commits_partial env w true saids a b hw hs x y z u l d v hl e1 e2)
    t1 t2 p1 p2 (fun _ _ hb hr => rolledTop_good ha hw hs (block_good hb g1) hr) (fun _ _ hb hr => rolledTop_good ha hw hs (block_good hb g2) hr)
    h1 h2 hl e1 e2

/-- C121 for the other kinds, when different maps are never serialized alike. -/
theorem c121_agree_other_partial (w : World) (saids : Saids) (mad1 mad2 r1 r2 : Flds) (hw : HashOk w) (hs : Dict saids)
    (hd : ∀ a b s, w.dumps a = .ok s → w.dumps b = .ok s → a = b) (t1 : Tidy (.map mad1)) (t2 : Tidy (.map mad2))
    (p1 : ∀ b, Block (.map mad1) b → Primary saids b) (p2 : ∀ b, Block (.map mad2) b → Primary saids b)
    (h1 : compacted w .other saids mad1 = .ok r1) (h2 : compacted w .other saids mad2 = .ok r2)
    (l d : List Char) (v : Val) (hl : (l, d) ∈ saids) (e1 : (l, v) ∈ r1) (e2 : (l, v) ∈ r2) :
    AgreeF w .other saids mad1 mad2 ∨ CollisionIn w .other saids (.map mad1) (.map mad2) :=
  agree_top (P := fun r => Dict r) hw hs
    (fun a b l d v x y z u hl e1 e2 => c118_commits_other w true saids a b hw hs hd x y z u l d v hl e1 e2)
    t1 t2 p1 p2 (fun _ _ hb hr => rolledTop_dict hw hs (block_tidy hb t1) hr) (fun _ _ hb hr => rolledTop_dict hw hs (block_tidy hb t2) hr)
    h1 h2 hl e1 e2

end Verif.Mad
