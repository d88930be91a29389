import Verif.Ends.Model
import Verif.Krm.PropsPrune

/-! # Endpoints: what the databases hold after any replies -/

namespace Verif.Ends

open Verif.Krm

variable {Id Url : Type} [DecidableEq Id]

/-- What the last reply about a role says. -/
def lastRole (h : List (Rep Id Url)) (cid : Id) (r : Role) (eid : Id) : Option Bool :=
  h.reverse.findSome? (fun x => match x with
    | .role c q e b => if c = cid ∧ q = r ∧ e = eid then some b else none
    | .loc .. => none)

/-- What the last reply about a location says; inner `none` is the empty URL. -/
def lastLoc (h : List (Rep Id Url)) (eid : Id) (s : Scheme) : Option (Option Url) :=
  h.reverse.findSome? (fun x => match x with
    | .role .. => none
    | .loc e t u => if e = eid ∧ t = s then some u else none)

/-- The databases after replies listed latest first. -/
def back (w : Id → Option (List Id)) : List (Rep Id Url) → Db Id Url
  | [] => ⟨[], [], w⟩
  | x :: l => apply (back w l) x

theorem run_eq (w : Id → Option (List Id)) (h : List (Rep Id Url)) : run w h = back w h.reverse := by
  unfold run
  rw [List.foldl_eq_foldr_reverse]
  induction h.reverse with
  | nil => rfl
  | cons x l ih => rw [List.foldr_cons, ih, back]

theorem updateEnd_get (db : Db Id Url) (c : Id) (q : Role) (e : Id) (b : Bool) (k : Id × Role × Id) :
    Tab.get (updateEnd db c q e b).ends k =
      if (c, q, e) = k then some ⟨((Tab.get db.ends (c, q, e)).map (·.enabled)).getD false, b⟩ else Tab.get db.ends k := by
  unfold updateEnd
  cases hg : Tab.get db.ends (c, q, e) <;> simp [get_pin]

theorem updateEnd_locs (db : Db Id Url) (c : Id) (q : Role) (e : Id) (b : Bool) : (updateEnd db c q e b).locs = db.locs := by
  unfold updateEnd; split <;> rfl

theorem updateEnd_wits (db : Db Id Url) (c : Id) (q : Role) (e : Id) (b : Bool) : (updateEnd db c q e b).wits = db.wits := by
  unfold updateEnd; split <;> rfl

theorem run_wits (w : Id → Option (List Id)) (h : List (Rep Id Url)) : (run w h).wits = w := by
  rw [run_eq]
  induction h.reverse with
  | nil => rfl
  | cons x l ih =>
    rw [back]
    cases x with
    | role c q e b => exact (updateEnd_wits _ c q e b).trans ih
    | loc e t u => exact ih

theorem back_enabled (w : Id → Option (List Id)) (l : List (Rep Id Url)) (k : Id × Role × Id) (v : Ender)
    (hk : Tab.get (back w l).ends k = some v) : v.enabled = false := by
  induction l generalizing k v with
  | nil => simp [back, get_nil] at hk
  | cons y l ih =>
    rw [back] at hk
    cases y with
    | loc e t u => exact ih k v hk
    | role c q e b =>
      simp only [apply] at hk
      rw [updateEnd_get] at hk
      split at hk
      · cases hk
        cases hg : Tab.get (back w l).ends (c, q, e) with
        | none => rfl
        | some e0 => exact ih _ e0 hg
      · exact ih k v hk

theorem run_ends (w : Id → Option (List Id)) (h : List (Rep Id Url)) (cid : Id) (r : Role) (eid : Id) :
    Tab.get (run w h).ends (cid, r, eid) = (lastRole h cid r eid).map (fun b => ⟨false, b⟩) := by
  rw [run_eq, lastRole]
  induction h.reverse with
  | nil => rfl
  | cons x l ih =>
    rw [back, List.findSome?_cons]
    cases x with
    | loc e t u => exact ih
    | role c q e b =>
      simp only [apply]
      rw [updateEnd_get]
      by_cases hk : c = cid ∧ q = r ∧ e = eid
      · obtain ⟨rfl, rfl, rfl⟩ := hk
        have : ((Tab.get (back w l).ends (c, q, e)).map (·.enabled)).getD false = false := by
          cases hg : Tab.get (back w l).ends (c, q, e) with
          | none => rfl
          | some e0 => exact back_enabled w l _ _ hg
        simp [this]
      · have hne : (c, q, e) ≠ (cid, r, eid) := by
          intro h2; apply hk; simpa using h2
        rw [if_neg hk, if_neg hne]
        exact ih

theorem run_locs (w : Id → Option (List Id)) (h : List (Rep Id Url)) (eid : Id) (s : Scheme) :
    Tab.get (run w h).locs (eid, s) = lastLoc h eid s := by
  rw [run_eq, lastLoc]
  induction h.reverse with
  | nil => rfl
  | cons x l ih =>
    rw [back, List.findSome?_cons]
    cases x with
    | role c q e b =>
      simp only [apply]
      rw [updateEnd_locs]
      exact ih
    | loc e t u =>
      simp only [apply, updateLoc]
      rw [get_pin]
      by_cases hk : e = eid ∧ t = s
      · obtain ⟨rfl, rfl⟩ := hk
        simp
      · have hne : (e, t) ≠ (eid, s) := by
          intro h2; apply hk; simpa using h2
        rw [if_neg hne, if_neg hk]
        exact ih

theorem run_nodup (w : Id → Option (List Id)) (h : List (Rep Id Url)) :
    ((run w h).ends.map Prod.fst).Nodup ∧ ((run w h).locs.map Prod.fst).Nodup := by
  rw [run_eq]
  induction h.reverse with
  | nil => simp [back]
  | cons x l ih =>
    rw [back]
    cases x with
    | role c q e b =>
      simp only [apply]
      refine ⟨?_, by rw [updateEnd_locs]; exact ih.2⟩
      unfold updateEnd
      split
      · exact nodup_pin ih.1
      · exact nodup_pin ih.1
    | loc e t u => exact ⟨ih.1, nodup_pin ih.2⟩

theorem mem_iff_get {κ ν : Type} [DecidableEq κ] {t : Tab κ ν} (h : (t.map Prod.fst).Nodup) (k : κ) (v : ν) : (k, v) ∈ t ↔ Tab.get t k = some v := by
  constructor
  · intro hm
    induction t with
    | nil => simp at hm
    | cons e t ih =>
      rw [List.map_cons, List.nodup_cons] at h
      rw [get_cons]
      rcases List.mem_cons.1 hm with h2 | h2
      · rw [← h2]; simp
      · have : e.1 ≠ k := by
          intro h3
          apply h.1
          rw [h3]
          exact List.mem_map.2 ⟨_, h2, rfl⟩
        rw [if_neg this]
        exact ih h.2 h2
  · exact get_mem

theorem mem_ends (w : Id → Option (List Id)) (h : List (Rep Id Url)) (cid : Id) (r : Role) (eid : Id) (v : Ender) :
    ((cid, r, eid), v) ∈ (run w h).ends ↔ ∃ b, lastRole h cid r eid = some b ∧ v = ⟨false, b⟩ := by
  rw [mem_iff_get (run_nodup w h).1, run_ends]
  cases lastRole h cid r eid <;> simp [eq_comm]

theorem mem_urls (w : Id → Option (List Id)) (h : List (Rep Id Url)) (eid : Id) (q : Option Scheme) (s : Scheme) (u : Url) :
    (s, u) ∈ fetchUrls (run w h) eid q ↔ starts q s = true ∧ lastLoc h eid s = some (some u) := by
  unfold fetchUrls
  rw [List.mem_filterMap]
  constructor
  · rintro ⟨⟨⟨e, t⟩, o⟩, hm, hx⟩
    dsimp only at hx
    split at hx
    · rename_i hc
      rw [Bool.and_eq_true, decide_eq_true_eq] at hc
      obtain ⟨rfl, hc⟩ := hc
      rw [Option.map_eq_some_iff] at hx
      obtain ⟨u', rfl, hu⟩ := hx
      cases hu
      rw [mem_iff_get (run_nodup w h).2, run_locs] at hm
      exact ⟨hc, hm⟩
    · cases hx
  · rintro ⟨hc, hl⟩
    rw [← run_locs w, ← mem_iff_get (run_nodup w h).2] at hl
    exact ⟨_, hl, by simp [hc]⟩

end Verif.Ends
