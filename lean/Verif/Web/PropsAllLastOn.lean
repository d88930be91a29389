import Verif.Web.AllLastOn
import Verif.Web.PropsAllLast
import Verif.Db.PropsBack
/-! # C242 without a key -/

namespace Verif.Web

open Verif.Db (Bytes Entry Tbl suffix unsuffix SepOk WF Sorted onKey splitOnKey split2 maxON OnSetTbl iterLoop getOnAllIoSetItemIter)

/-- C242: without a key browsers yield or raise what is yielded or raised on disk, with every separator and whatever there is in the database. -/
theorem c242_all_same (sep : Nat) (t : Tbl) : lastFwdAll sep t = diskLastAll sep t := by
  unfold lastFwdAll diskLastAll
  rw [c243_same sep t [] (.inl rfl)]

/-- The numbered key and the value of an item. -/
def mk (sep : Nat) (p : Bytes × Nat × Bytes) : Bytes × Bytes := (onKey sep p.1 p.2.1, p.2.2)

theorem mk_inj {sep : Nat} (hs : SepOk sep) {p q : Bytes × Nat × Bytes} (h : mk sep p = mk sep q) : p = q := by
  obtain ⟨k, n, v⟩ := p
  obtain ⟨k', n', v'⟩ := q
  simp only [mk, Prod.mk.injEq] at h
  obtain ⟨rfl, rfl⟩ := Db.onKey_inj hs h.1
  rw [h.2]

theorem splitItems_mk {sep : Nat} (hs : SepOk sep) (l : List (Bytes × Nat × Bytes)) : splitItems sep (l.map (mk sep)) = .ok l := by
  induction l with
  | nil => rfl
  | cons p l ih =>
    obtain ⟨k, n, v⟩ := p
    rw [List.map_cons]
    simp only [mk] at ih ⊢
    unfold splitItems
    rw [Db.splitOnKey_onKey hs]
    dsimp only
    rw [ih]

theorem apart_on {sep : Nat} (hs : SepOk sep) {k k' : Bytes} (h : ¬ (k ++ [sep]) <+: k') (m n : Nat) (hm : m ≤ maxON) (hn : n ≤ maxON) : ¬ (onKey sep k m ++ [sep]) <+: onKey sep k' n := by
  intro hp
  have h1 : (k ++ sep :: []) <+: k' ++ sep :: Db.hex32 n := by
    refine List.IsPrefix.trans ?_ hp
    unfold onKey
    exact ⟨Db.hex32 m ++ [sep], by simp⟩
  rcases Db.prefix_split (by simp) (Db.sep_not_mem hs n) h1 with h2 | h2
  · subst h2
    have := hp.length_le
    have hl1 := Db.hex32_length (n := m) (by have := Db.maxON_lt; omega)
    have hl2 := Db.hex32_length (n := n) (by have := Db.maxON_lt; omega)
    unfold onKey at this
    simp [hl1, hl2] at this
  · exact h h2

theorem iterAll {sep : Nat} (hs : SepOk sep) (l : List Entry) (hl : ∀ e ∈ l, ∃ k n i, e.1 = suffix sep (onKey sep k n) i) :
    ∃ F, iterLoop sep [] l = .ok F ∧ pairs sep l = F.map (mk sep) := by
  induction l with
  | nil => exact ⟨[], rfl, rfl⟩
  | cons e l ih =>
    obtain ⟨x, v⟩ := e
    obtain ⟨k, n, i, hx⟩ := hl (x, v) (by simp)
    simp only at hx; subst hx
    obtain ⟨F, h1, h2⟩ := ih fun e he => hl e (by simp [he])
    refine ⟨(k, n, v) :: F, ?_, ?_⟩
    · unfold iterLoop
      rw [Db.split2_eq hs]
      dsimp only
      rw [if_neg (c := ([] : Bytes) ≠ [] ∧ k ≠ []) fun h => h.1 rfl, h1]
    · unfold pairs at h2 ⊢
      rw [List.filterMap_cons, Db.unsuffix_suffix hs]
      dsimp only
      rw [h2]
      rfl

theorem unmap {sep : Nat} (M : List (Bytes × Bytes)) (F : List (Bytes × Nat × Bytes)) (h : ∀ p ∈ M, p ∈ F.map (mk sep)) : ∃ N : List (Bytes × Nat × Bytes), M = N.map (mk sep) := by
  induction M with
  | nil => exact ⟨[], rfl⟩
  | cons p M ih =>
    obtain ⟨N, hN⟩ := ih fun q hq => h q (by simp [hq])
    obtain ⟨q, _, hq⟩ := List.mem_map.1 (h p (by simp))
    exact ⟨q :: N, by rw [List.map_cons, hq, hN]⟩

/-- **C242 without a key (partial).** One item is yielded for each key and number at which there is a set, the one that iterating all values yields last there. Missing: keys that are another one followed by the separator. -/
theorem c242_all_partial {sep : Nat} (hs : SepOk sep) {K : Bytes → Prop} {t : Tbl} (h : OnSetTbl sep K t) :
    ∃ F M, getOnAllIoSetItemIter sep t [] 0 = .ok F ∧ lastFwdAll sep t = .ok M ∧ (M.map fun p => (p.1, p.2.1)).Nodup ∧
      ∀ p, p ∈ M ↔ (F.filter (fun q => decide (q.1 = p.1 ∧ q.2.1 = p.2.1))).getLast? = some p := by
  obtain ⟨F, f1, f2⟩ := iterAll hs t fun e he => by
    obtain ⟨x, i, ⟨k, n, _, _, hx⟩, _, he⟩ := h.wf.keys e he
    exact ⟨k, n, i, by rw [he, hx]⟩
  obtain ⟨M0, m1, m2, m3⟩ := c243_last_partial hs (fun x x' ⟨k, n, hk, hn, hx⟩ ⟨k', n', hk', hn', hx'⟩ => by
    subst hx hx'
    exact apart_on hs (h.apart k k' hk hk') n n' hn hn') h.wf []
  rw [if_pos rfl, f2] at m3
  obtain ⟨M, rfl⟩ := unmap (sep := sep) M0 F fun p hp => (List.mem_filter.1 (List.mem_of_getLast? ((m3 p).1 hp))).1
  refine ⟨F, M, ?_, ?_, ?_, fun p => ?_⟩
  · unfold getOnAllIoSetItemIter
    rw [if_pos rfl]
    exact f1
  · unfold lastFwdAll
    rw [m1]
    exact splitItems_mk hs M
  · have : (M.map (mk sep)).map (·.1) = (M.map fun p => (p.1, p.2.1)).map fun q => onKey sep q.1 q.2 := by
      simp only [List.map_map]
      rfl
    rw [this] at m2
    exact (List.pairwise_map.1 m2).imp fun hne e => hne (by rw [e])
  · have hm := m3 (mk sep p)
    have hf : (F.map (mk sep)).filter (fun q => decide (q.1 = (mk sep p).1)) = (F.filter (fun q => decide (q.1 = p.1 ∧ q.2.1 = p.2.1))).map (mk sep) := by
      rw [List.filter_map]
      congr 1
      apply List.filter_congr
      intro q _
      exact decide_eq_decide.2 ⟨fun e => Db.onKey_inj hs e, fun e => by simp only [mk]; rw [e.1, e.2]⟩
    rw [hf, List.getLast?_map] at hm
    constructor
    · intro hp
      have := hm.1 (List.mem_map.2 ⟨p, hp, rfl⟩)
      rw [Option.map_eq_some_iff] at this
      obtain ⟨q, hq, hqp⟩ := this
      rw [hq, mk_inj hs hqp]
    · intro hp
      obtain ⟨q, hq, hqp⟩ := List.mem_map.1 (hm.2 (by rw [hp]; rfl))
      rw [← mk_inj hs hqp]
      exact hq

/-- The hypotheses are met, and something is yielded. -/
example : OnSetTbl 46 Db.Demo41.K Db.Demo41.t ∧ lastFwdAll 46 Db.Demo41.t = .ok [([65], 0, [2]), ([65], 3, [3]), ([66], 1, [9])] :=
  ⟨Db.Demo41.wf, by decide +kernel⟩

end Verif.Web
