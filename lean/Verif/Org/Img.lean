import Verif.Org.Props2

/-! # C193: images -/

namespace Verif.Org

open Verif.Db Verif.Krm Verif.Sub

def decVal (b : Bytes) : Nat := b.foldl (fun n x => n * 10 + (x - 48)) 0

theorem decVal_dec (n : Nat) : decVal (dec n) = n := by
  induction n using Nat.strongRecOn with
  | ind n ih =>
    rw [dec]
    split
    · simp [decVal]
    · have := ih (n / 10) (by omega)
      unfold decVal at this ⊢
      rw [List.foldl_append, this]
      simp only [List.foldl_cons, List.foldl_nil]
      omega

theorem dec_inj {m n : Nat} (h : dec m = dec n) : m = n := by rw [← decVal_dec m, h, decVal_dec]

theorem dec_head (n : Nat) : ∃ d r, dec n = d :: r ∧ d ≤ 57 := by
  induction n using Nat.strongRecOn with
  | ind n ih =>
    rw [dec]
    split
    · exact ⟨48 + n, [], rfl, by omega⟩
    · obtain ⟨d, r, h1, h2⟩ := ih (n / 10) (by omega)
      exact ⟨d, r ++ [48 + n % 10], by rw [h1]; rfl, h2⟩

theorem dec_ne_type (n : Nat) : dec n ≠ ctype ∧ dec n ≠ clength := by
  obtain ⟨d, r, h, hd⟩ := dec_head n
  rw [h]
  constructor <;>
  · intro he
    injection he with he _
    omega

theorem imgKey_inj {pre x y : Bytes} (h : imgKey pre x = imgKey pre y) : x = y := by
  have := List.append_cancel_left h
  injection this

theorem imgKey_ne (pre x : Bytes) : imgKey pre x ≠ [] := by unfold imgKey; simp

theorem getVal_key (t : Tbl) (pre x : Bytes) : getVal t (imgKey pre x) = t.get (imgKey pre x) := by
  unfold getVal; rw [if_neg (imgKey_ne pre x)]

theorem setVal_key (t : Tbl) (pre x v : Bytes) : (setVal t (imgKey pre x) v).1 = t.insert (imgKey pre x) v := by
  unfold setVal; rw [if_neg (imgKey_ne pre x)]; simp [Tbl.put]

theorem putChunks_ok (pre : Text) : ∀ (cs : List Bytes) (i : Nat) (t : Tbl), Sorted t → (∀ c, c ∈ cs → c ≠ []) →
    Sorted (putChunks pre i cs t).1 ∧ (putChunks pre i cs t).2 = (cs.map List.length).sum ∧
    (∀ j c, cs[j]? = some c → (putChunks pre i cs t).1.get (imgKey pre (dec (i + j))) = some c) ∧
    ∀ k, (∀ j, j < cs.length → k ≠ imgKey pre (dec (i + j))) → (putChunks pre i cs t).1.get k = t.get k
  | [], i, t, hs, _ => ⟨hs, rfl, fun j c h => by simp at h, fun _ _ => rfl⟩
  | c :: cs, i, t, hs, hne => by
    have hs' := (sorted_insert hs (imgKey pre (dec i)) c).1
    obtain ⟨h1, h2, h3, h4⟩ := putChunks_ok pre cs (i + 1) _ hs' (fun x hx => hne x (by simp [hx]))
    unfold putChunks
    rw [if_neg (hne c (by simp)), setVal_key]
    dsimp only
    refine ⟨h1, by rw [h2]; simp [Nat.add_comm], ?_, ?_⟩
    · intro j x hj
      cases j with
      | zero =>
        simp only [List.getElem?_cons_zero, Option.some.injEq] at hj
        subst hj
        show (putChunks pre (i + 1) cs _).1.get (imgKey pre (dec i)) = some c
        rw [h4, get_insert hs, if_pos rfl]
        intro j _ he
        have := dec_inj (imgKey_inj he)
        omega
      | succ j =>
        simp only [List.getElem?_cons_succ] at hj
        have := h3 j x hj
        rw [show i + (j + 1) = i + 1 + j by omega]
        exact this
    · intro k hk
      rw [h4, get_insert hs, if_neg]
      · have := hk 0 (by simp)
        rwa [Nat.add_zero] at this
      · intro j hj
        have := hk (j + 1) (by simp; omega)
        rw [show i + (j + 1) = i + 1 + j by omega] at this
        exact this

theorem getImg_ok (t : Tbl) (pre : Text) : ∀ (cs : List Bytes) (i fuel : Nat), (∀ c, c ∈ cs → c ≠ []) →
    (∀ j c, cs[j]? = some c → t.get (imgKey pre (dec (i + j))) = some c) → t.get (imgKey pre (dec (i + cs.length))) = none →
    cs.length < fuel → getImg t pre i fuel = cs
  | [], i, fuel + 1, _, _, hn, _ => by
    unfold getImg
    rw [getVal_key]
    rw [List.length_nil, Nat.add_zero] at hn
    rw [hn]
  | c :: cs, i, fuel + 1, hne, hc, hn, hf => by
    have h0 := hc 0 c rfl
    rw [Nat.add_zero] at h0
    unfold getImg
    rw [getVal_key, h0]
    dsimp only
    rw [if_neg (hne c (by simp)), getImg_ok t pre cs (i + 1) fuel (fun x hx => hne x (by simp [hx])) ?_ ?_ (by simp at hf; omega)]
    · intro j x hj
      have := hc (j + 1) x (by simpa using hj)
      rw [show i + (j + 1) = i + 1 + j by omega] at this
      exact this
    · rw [List.length_cons] at hn
      rw [show i + 1 + cs.length = i + (cs.length + 1) by omega]
      exact hn

theorem getImg_congr {t t' : Tbl} {q : Text} (h : ∀ x, getVal t' (imgKey q x) = getVal t (imgKey q x)) :
    ∀ fuel i, getImg t' q i fuel = getImg t q i fuel
  | 0, _ => rfl
  | fuel + 1, i => by
    unfold getImg
    rw [h]
    cases getVal t (imgKey q (dec i)) with
    | none => rfl
    | some c => dsimp only; rw [getImg_congr h fuel]

theorem ofBig_four (n : Nat) (h : n < 2 ^ 32) : ofBig [n / 2 ^ 24, n / 2 ^ 16 % 256, n / 2 ^ 8 % 256, n % 256] = n := by
  simp only [ofBig, List.foldl_cons, List.foldl_nil]
  omega

/-- **C193 (partial).** Whatever is in the database, an image that is set is got, in its chunks, with its type and length, and the images of identifiers
that do not continue this one are as before. Missing: images of four gigabytes (`c193_large`), identifiers that continue this one (`c193_continued`). -/
theorem c193_image_partial {t : Tbl} (hs : Sorted t) (pre typ : Text) (hpre : NoDot pre) (cs : List Bytes) (hne : ∀ c, c ∈ cs → c ≠ [])
    (hsize : (cs.map List.length).sum < 2 ^ 32) :
    (setImg t pre typ cs).2 = none ∧ Sorted (setImg t pre typ cs).1 ∧ (∀ fuel, cs.length < fuel → getImg (setImg t pre typ cs).1 pre 0 fuel = cs) ∧
    getImgData (setImg t pre typ cs).1 pre = some (typ, (cs.map List.length).sum) ∧
    ∀ q, ¬ pre <+: q → (∀ i fuel, getImg (setImg t pre typ cs).1 q i fuel = getImg t q i fuel) ∧
      getImgData (setImg t pre typ cs).1 q = getImgData t q := by
  obtain ⟨r1, r2, _⟩ := c40_remove hs pre
  have hs1 := (sorted_insert r2 (imgKey pre ctype) typ).1
  obtain ⟨h1, h2, h3, h4⟩ := putChunks_ok pre cs 0 _ hs1 hne
  have hset : setImg t pre typ cs =
      ((putChunks pre 0 cs ((remTop t pre).1.insert (imgKey pre ctype) typ)).1.insert (imgKey pre clength)
        [(cs.map List.length).sum / 2 ^ 24, (cs.map List.length).sum / 2 ^ 16 % 256, (cs.map List.length).sum / 2 ^ 8 % 256, (cs.map List.length).sum % 256],
        none) := by
    unfold setImg
    dsimp only
    rw [setVal_key, setVal_key, h2, if_pos hsize]
  have hget := fun k => get_insert h1 (imgKey pre clength)
    [(cs.map List.length).sum / 2 ^ 24, (cs.map List.length).sum / 2 ^ 16 % 256, (cs.map List.length).sum / 2 ^ 8 % 256, (cs.map List.length).sum % 256] k
  have hnone : ∀ x, (remTop t pre).1.get (imgKey pre x) = none := by
    intro x
    rw [get_none]
    intro e he hk
    exact ((r1 e).1 he).2 (by rw [hk]; exact ⟨46 :: x, rfl⟩)
  have hdl : ∀ n, imgKey pre (dec n) ≠ imgKey pre clength := fun n h => (dec_ne_type n).2 (imgKey_inj h)
  have hdt : ∀ n, imgKey pre (dec n) ≠ imgKey pre ctype := fun n h => (dec_ne_type n).1 (imgKey_inj h)
  have htl : imgKey pre ctype ≠ imgKey pre clength := fun h => absurd (imgKey_inj h) (by decide)
  rw [hset]
  dsimp only
  refine ⟨rfl, (sorted_insert h1 _ _).1, ?_, ?_, ?_⟩
  · intro fuel hf
    refine getImg_ok _ pre cs 0 fuel hne ?_ ?_ hf
    · intro j c hj
      rw [hget, if_neg (hdl _)]
      exact h3 j c hj
    · rw [hget, if_neg (hdl _), h4, get_insert r2, if_neg (hdt _), hnone]
      intro j hj he
      have := dec_inj (imgKey_inj he)
      omega
  · unfold getImgData
    rw [getVal_key, getVal_key, hget, if_pos rfl, hget, if_neg htl, h4, get_insert r2, if_pos rfl]
    · dsimp only
      rw [ofBig_four _ hsize]
    · intro j _ he
      exact hdt _ he.symm
  · intro q hq
    have hno : ∀ x, ¬ pre <+: imgKey q x := by
      intro x hp
      have := (prefix_key (p := q) (f := x) hpre (fun h => absurd h hq)).1 hp
      subst this
      exact hq (List.prefix_refl _)
    have hne' : ∀ x y, imgKey q x ≠ imgKey pre y := by
      intro x y h
      exact hno x (by rw [h]; exact ⟨46 :: y, rfl⟩)
    have hcong : ∀ x, getVal ((putChunks pre 0 cs ((remTop t pre).1.insert (imgKey pre ctype) typ)).1.insert (imgKey pre clength)
        [(cs.map List.length).sum / 2 ^ 24, (cs.map List.length).sum / 2 ^ 16 % 256, (cs.map List.length).sum / 2 ^ 8 % 256, (cs.map List.length).sum % 256])
        (imgKey q x) = getVal t (imgKey q x) := by
      intro x
      rw [getVal_key, getVal_key, hget, if_neg (hne' x _), h4 _ (fun j _ => hne' x _), get_insert r2, if_neg (hne' x _)]
      apply Option.ext
      intro v
      rw [get_some r2, get_some hs, r1]
      exact ⟨fun h => h.1, fun h => ⟨h, hno x⟩⟩
    refine ⟨fun i fuel => getImg_congr hcong fuel i, ?_⟩
    unfold getImgData
    rw [hcong, hcong]

/-- **C193**: a larger one raises OverflowError, with the chunks written and no length. -/
theorem c193_large {t : Tbl} (hs : Sorted t) (pre typ : Text) (cs : List Bytes) (hne : ∀ c, c ∈ cs → c ≠ []) (hsize : 2 ^ 32 ≤ (cs.map List.length).sum) :
    (setImg t pre typ cs).2 = some .overflowError ∧ getImgData (setImg t pre typ cs).1 pre = none ∧
    ∀ fuel, cs.length < fuel → getImg (setImg t pre typ cs).1 pre 0 fuel = cs := by
  obtain ⟨r1, r2, _⟩ := c40_remove hs pre
  have hs1 := (sorted_insert r2 (imgKey pre ctype) typ).1
  obtain ⟨h1, h2, h3, h4⟩ := putChunks_ok pre cs 0 _ hs1 hne
  have hset : setImg t pre typ cs = ((putChunks pre 0 cs ((remTop t pre).1.insert (imgKey pre ctype) typ)).1, some .overflowError) := by
    unfold setImg
    dsimp only
    rw [setVal_key, h2, if_neg (by omega)]
  have hnone : ∀ x, (remTop t pre).1.get (imgKey pre x) = none := by
    intro x
    rw [get_none]
    intro e he hk
    exact ((r1 e).1 he).2 (by rw [hk]; exact ⟨46 :: x, rfl⟩)
  rw [hset]
  refine ⟨rfl, ?_, ?_⟩
  · unfold getImgData
    dsimp only
    rw [getVal_key, h4, get_insert r2, if_neg (fun h => absurd (imgKey_inj h) (by decide)), hnone]
    intro j _ he
    exact (dec_ne_type _).2 (imgKey_inj he).symm
  · intro fuel hf
    refine getImg_ok _ pre cs 0 fuel hne h3 ?_ hf
    rw [h4, get_insert r2, if_neg (fun h => (dec_ne_type _).1 (imgKey_inj h)), hnone]
    intro j hj he
    have := dec_inj (imgKey_inj he)
    omega

end Verif.Org
