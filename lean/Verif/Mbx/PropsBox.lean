import Verif.Mbx.Lemmas

/-! # C109: a mailbox keeps messages in the order of their arrival -/

namespace Verif.Mbx
open Verif.Db

theorem run_snoc (env : Env) (pre : Bytes) (topics : List Bytes) (s : Sys) (h : List Step) (x : Step) :
    run env pre topics s (h ++ [x]) = step env pre topics (run env pre topics s h) x := by
  unfold run; rw [List.foldl_append]; rfl

theorem keysOf_snoc {h : List Step} {x : Step} {k : Bytes} : k ∈ keysOf (h ++ [x]) ↔ k ∈ keysOf h ∨ k ∈ keysOf [x] := by
  unfold keysOf; rw [List.filterMap_append, List.mem_append]

theorem serve_box (env : Env) (pre : Bytes) (s : Sys) (c : Conn) : (serve env pre s c).box = s.box := by
  unfold serve; split <;> rfl

theorem take_box (s : Sys) (c : Conn) : (take s c).box = s.box := by
  unfold take; split
  · rfl
  · dsimp only; split <;> rfl

/-- The box after any history. -/
theorem run_box {env : Env} (hd : Digests env) {K : Bytes → Prop} (hK : Apart K) (pre : Bytes) (topics : List Bytes) (h : List Step)
    (hk : ∀ k ∈ keysOf h, K k) (hlen : h.length ≤ maxON) : BoxInv env K h (run env pre topics init h).box := by
  induction h using snoc_ind with
  | h0 => exact empty_inv hK
  | h1 h x ih =>
    simp only [List.length_append, List.length_singleton] at hlen
    have hi := ih (fun k hq => hk k (keysOf_snoc.2 (.inl hq))) (by omega)
    have hl : ∀ k, (arrived k h).length < maxON := fun k => by have := arrived_length k h; omega
    rw [run_snoc]
    cases x with
    | store k m => exact (store_inv hd hi (hk k (keysOf_snoc.2 (.inr (by simp [keysOf])))) (hl k) m).2
    | cut k m => exact cut_inv hi (hk k (keysOf_snoc.2 (.inr (by simp [keysOf])))) (hl k) m
    | connect =>
      have := other_inv hi (s := .connect) (fun _ => rfl) (fun _ => rfl)
      simp only [step]; split <;> exact this
    | serve =>
      have := other_inv hi (s := .serve) (fun _ => rfl) (fun _ => rfl)
      simp only [step]; split
      · exact this
      · rw [serve_box]; exact this
    | take =>
      have := other_inv hi (s := .take) (fun _ => rfl) (fun _ => rfl)
      simp only [step]; split
      · exact this
      · split
        · rw [take_box]; exact this
        · exact this
    | note =>
      have := other_inv hi (s := .note) (fun _ => rfl) (fun _ => rfl)
      simp only [step]; split <;> exact this
    | work =>
      have := other_inv hi (s := .work) (fun _ => rfl) (fun _ => rfl)
      simp only [step]; split <;> exact this
    | crash => exact other_inv hi (s := .crash) (fun _ => rfl) (fun _ => rfl)

/-- **C109 (storing), partial.** Whatever has happened before, storing a message succeeds.  Missing: mailbox keys one of which is another
followed by a dot, for which it can fail for good (`c109_jammed`). -/
theorem c109_stored_partial {env : Env} (hd : Digests env) {K : Bytes → Prop} (hK : Apart K) (pre : Bytes) (topics : List Bytes) (h : List Step)
    (hk : ∀ k ∈ keysOf h, K k) (hlen : h.length < maxON) {key : Bytes} (hkey : K key) (msg : Bytes) :
    (storeMsg env (run env pre topics init h).box key msg).2 = .ok true := by
  have := arrived_length key h
  exact (store_inv hd (run_box hd hK pre topics h hk (by omega)) hkey (by omega) msg).1

/-- **C109 (reading), partial.** After any history, reading a mailbox key from a number on yields exactly the messages that arrived for it
with that number or a greater one, in the order of their arrival and with their numbers, leaving out empty ones and those whose
storing was interrupted (unless the same message was stored again); a message that is not text makes all reading at or before it
fail.  Missing: mailbox keys one of which is another followed by a dot (`c109_hidden`). -/
theorem c109_read_partial {env : Env} (hd : Digests env) {K : Bytes → Prop} (hK : Apart K) (pre : Bytes) (topics : List Bytes) (h : List Step)
    (hk : ∀ k ∈ keysOf h, K k) (hlen : h.length ≤ maxON) {key : Bytes} (hkey : K key) {fn : Nat} (hf : fn ≤ maxON) :
    cloneTopicIter env (run env pre topics init h).box key fn = if (letters h key fn).all (fun p => env.text p.2) then
      .ok ((letters h key fn).filter (fun p => decide (p.2 ≠ []))) else .error .valueError :=
  clone_eq hd (run_box hd hK pre topics h hk hlen) hkey hf

theorem kept_all {h : List Step} (hc : ∀ k m, Step.cut k m ∉ h) {k m : Bytes} {b : Bool} (hm : (m, b) ∈ arrived k h) : kept m h = true := by
  rcases mem_arrived hm with ⟨_, h1⟩ | ⟨_, h1⟩
  · exact kept_of_store h1
  · exact absurd h1 (hc k m)

theorem letters_whole {h : List Step} (hc : ∀ k m, Step.cut k m ∉ h) (k : Bytes) :
    letters h k 0 = ((arrived k h).map (·.1)).zipIdx.map (fun p => (p.2, p.1)) := by
  unfold letters
  rw [List.filter_eq_self.2]
  · rw [List.zipIdx_map, List.map_map]; rfl
  · rintro ⟨⟨m, b⟩, n⟩ hp
    simp only [Nat.zero_le, decide_true, Bool.true_and]
    exact kept_all hc (List.fst_mem_of_mem_zipIdx hp)

/-- **C109 (whole), partial.** If the provider is never interrupted and messages are non-empty text, a mailbox key holds exactly the messages that
arrived for it, numbered 0, 1, 2, … in the order of their arrival. -/
theorem c109_whole_partial {env : Env} (hd : Digests env) {K : Bytes → Prop} (hK : Apart K) (pre : Bytes) (topics : List Bytes) (h : List Step)
    (hk : ∀ k ∈ keysOf h, K k) (hlen : h.length ≤ maxON) {key : Bytes} (hkey : K key) (hc : ∀ k m, Step.cut k m ∉ h)
    (hm : ∀ m, Step.store key m ∈ h → m ≠ [] ∧ env.text m = true) :
    cloneTopicIter env (run env pre topics init h).box key 0 = .ok (((arrived key h).map (·.1)).zipIdx.map (fun p => (p.2, p.1))) ∧
    getTopicMsgs env (run env pre topics init h).box key 0 = .ok ((arrived key h).map (·.1)) := by
  have hall : ∀ p ∈ letters h key 0, p.2 ≠ [] ∧ env.text p.2 = true := by
    rintro ⟨n, m⟩ hp
    obtain ⟨_, _, b, hb⟩ := mem_letters.1 hp
    rcases mem_arrived (List.mem_of_getElem? hb) with ⟨_, h1⟩ | ⟨_, h1⟩
    · exact hm m h1
    · exact absurd h1 (hc key m)
  have h1 := c109_read_partial hd hK pre topics h hk hlen hkey (fn := 0) (Nat.zero_le _)
  rw [if_pos (List.all_eq_true.2 (fun p hp => (hall p hp).2)), List.filter_eq_self.2 (fun p hp => by simp [(hall p hp).1]), letters_whole hc] at h1
  refine ⟨h1, ?_⟩
  unfold getTopicMsgs
  rw [h1]
  dsimp only
  rw [List.map_map]
  congr 1
  apply List.ext_getElem <;> simp

end Verif.Mbx
