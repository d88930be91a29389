import Verif.Conf.Model
/-!
# C237: configurations that are put are got

Specification: a register with the data put last, that answers only while it is open.
-/

namespace Verif.Conf

/-- What is written in the first format is read in the second: each reads its own, and Hjson reads JSON. -/
def Reads (a b : Fmt) : Prop := a = b ∨ (a = .json ∧ b = .hjson)

/-- What is known of the codecs: nothing is written as no bytes, and what is written is read. -/
structure Lawful {D : Type} (c : Codec D) : Prop where
  ne : ∀ m d b, c.dumps m d = some b → b ≠ []
  back : ∀ m m' d b, Reads m m' → c.dumps m d = some b → c.loads m' b = some d

/-- The register. -/
structure Reg (D : Type) where
  isOpen : Bool
  last : D

def Reg.step {D : Type} (r : Reg D) : Op D → Reg D × Out D
  | .put d _ => if r.isOpen then ({ r with last := d }, .ok) else (r, .raised .notOpen)
  | .get _ => if r.isOpen then (r, .data r.last) else (r, .raised .notOpen)
  | .close => ({ r with isOpen := false }, .ok)
  | .reopen => ({ r with isOpen := true }, .ok)

def Reg.answers {D : Type} : Reg D → List (Op D) → List (Out D)
  | _, [] => []
  | r, o :: os => (r.step o).2 :: Reg.answers (r.step o).1 os

/-- All that is put can be written, with the format it is put in read by all the formats it is got in. -/
structure Fits {D : Type} (c : Codec D) (e : Ext) (human : Bool) (os : List (Op D)) : Prop where
  known : e ≠ .other
  dumps : ∀ d h, Op.put d h ∈ os → ∀ m, e.fmt (h.getD human) = some m → (c.dumps m d).isSome
  reads : ∀ d h h', Op.put d h ∈ os → Op.get h' ∈ os → ∀ m m', e.fmt (h.getD human) = some m → e.fmt (h'.getD human) = some m' → Reads m m'

theorem fmt_known {e : Ext} (h : e ≠ .other) (b : Bool) : ∃ m, e.fmt b = some m := by
  cases e with
  | other => exact absurd rfl h
  | _ => exact ⟨_, rfl⟩

/-- What the file has to do with the register: it is empty, or the data were put in one of the calls. -/
structure Rel {D : Type} (c : Codec D) (e : Ext) (human : Bool) (os : List (Op D)) (f : File) (r : Reg D) : Prop where
  ext : f.ext = e
  hum : f.human = human
  isOpen : f.isOpen = r.isOpen
  bytes : (f.bytes = [] ∧ r.last = c.empty) ∨ ∃ h m, Op.put r.last h ∈ os ∧ e.fmt (h.getD human) = some m ∧ c.dumps m r.last = some f.bytes

theorem rel_step {D : Type} {c : Codec D} (hc : Lawful c) {e : Ext} {human : Bool} {all : List (Op D)} (hf : Fits c e human all) {f : File} {r : Reg D} (h : Rel c e human all f r) {o : Op D} (ho : o ∈ all) :
    (step c f o).2 = (r.step o).2 ∧ Rel c e human all (step c f o).1 (r.step o).1 := by
  cases o with
  | put d hu =>
    simp only [step, put, Reg.step]
    cases hop : r.isOpen with
    | false =>
      rw [if_pos (h.isOpen.trans hop)]
      exact ⟨rfl, h⟩
    | true =>
      rw [if_neg (by rw [h.isOpen, hop]; simp)]
      obtain ⟨m, hm⟩ := fmt_known hf.known (hu.getD human)
      have hd := hf.dumps d hu ho m hm
      obtain ⟨b, hb⟩ := Option.isSome_iff_exists.mp hd
      rw [h.ext, h.hum, hm]
      dsimp only
      rw [hb]
      exact ⟨rfl, rfl, rfl, h.isOpen.trans hop, .inr ⟨hu, m, ho, hm, hb⟩⟩
  | get hu =>
    simp only [step, get, Reg.step]
    cases hop : r.isOpen with
    | false =>
      rw [if_pos (h.isOpen.trans hop)]
      exact ⟨rfl, h⟩
    | true =>
      rw [if_neg (by rw [h.isOpen, hop]; simp)]
      rcases h.bytes with ⟨h1, h2⟩ | ⟨hp, m, h1, h2, h3⟩
      · rw [if_pos h1]
        exact ⟨by rw [h2]; rfl, h⟩
      · rw [if_neg (hc.ne _ _ _ h3)]
        obtain ⟨m', hm'⟩ := fmt_known hf.known (hu.getD human)
        rw [h.ext, h.hum, hm']
        dsimp only
        rw [hc.back m m' _ _ (hf.reads _ hp hu h1 ho m m' h2 hm') h3]
        exact ⟨rfl, h⟩
  | close => exact ⟨rfl, h.ext, h.hum, rfl, h.bytes⟩
  | reopen => exact ⟨rfl, h.ext, h.hum, rfl, h.bytes⟩

/-- **C237 (partial).** Starting with an empty file, under every sequence of putting, getting, closing and opening, what is got is what was put last, if all that is put can be written and is got in a format
that reads it, and nothing is interrupted. Missing: that a put that fails or is interrupted leaves the configuration before it, which is false (`c237_failed_put`, `c237_interrupted`). -/
theorem c237_last_partial {D : Type} {c : Codec D} (hc : Lawful c) (f : File) (hb : f.bytes = []) (os : List (Op D)) (hf : Fits c f.ext f.human os) :
    answers c f os = Reg.answers ⟨f.isOpen, c.empty⟩ os := by
  have hgen : ∀ (l : List (Op D)) (g : File) (r : Reg D), (∀ o ∈ l, o ∈ os) → Rel c f.ext f.human os g r → answers c g l = Reg.answers r l := by
    intro l
    induction l with
    | nil => intros; rfl
    | cons o l ih =>
      intro g r hl h
      obtain ⟨h1, h2⟩ := rel_step hc hf h (hl o (by simp))
      simp only [answers, Reg.answers]
      rw [h1, ih _ _ (fun o ho => hl o (by simp [ho])) h2]
  exact hgen os f _ (fun _ h => h) ⟨rfl, rfl, rfl, .inl ⟨hb, rfl⟩⟩

/-- **C237 fails of puts that raise.** If a put raises on a file that is open, the configuration before it is gone: every get after it gives an empty dict, whatever was in the file. -/
theorem c237_failed_put {D : Type} (c : Codec D) (f : File) (ho : f.isOpen = true) (d : D) (h h' : Option Bool) (e : Fail) (hr : (put c f d h).2 = .error e) :
    get c (put c f d h).1 h' = .ok c.empty := by
  have hno : ¬ f.isOpen = false := by rw [ho]; simp
  unfold put at hr ⊢
  rw [if_neg hno] at hr ⊢
  dsimp only at hr ⊢
  have hcut : get c { f with bytes := [] } h' = .ok c.empty := by
    unfold get
    rw [if_neg hno, if_pos rfl]
  cases hm : f.ext.fmt (h.getD f.human) with
  | none => exact hcut
  | some m =>
    rw [hm] at hr
    dsimp only at hr ⊢
    cases hd : c.dumps m d with
    | none => exact hcut
    | some b => rw [hd] at hr; cases hr

/-- On a file that is not open nothing is changed. -/
theorem c237_closed {D : Type} (c : Codec D) (f : File) (ho : f.isOpen = false) (d : D) (h : Option Bool) : put c f d h = (f, .error .notOpen) := by
  unfold put
  rw [if_pos ho]

/-- **C237 fails of puts that are interrupted.** Every put goes through a state in which the file is empty: interrupted there, neither the configuration before nor the new one is got. -/
theorem c237_interrupted {D : Type} (c : Codec D) (f : File) (ho : f.isOpen = true) (d : D) (h h' : Option Bool) :
    [] ∈ during c f d h ∧ get c { f with bytes := [] } h' = .ok c.empty := by
  have hno : ¬ f.isOpen = false := by rw [ho]; simp
  constructor
  · unfold during
    rw [if_neg hno]
    refine List.mem_cons_of_mem _ ?_
    split
    · simp
    · split
      · simp
      · exact List.mem_map.mpr ⟨0, by simp, by simp⟩
  · unfold get
    rw [if_neg hno, if_pos rfl]

/-- Uninterrupted, a put ends with the last of these states. -/
theorem c237_during_last {D : Type} (c : Codec D) (f : File) (d : D) (h : Option Bool) : (during c f d h).getLast? = some (put c f d h).1.bytes := by
  unfold during put
  by_cases ho : f.isOpen = false
  · rw [if_pos ho, if_pos ho]; rfl
  · rw [if_neg ho, if_neg ho]
    dsimp only
    cases f.ext.fmt (h.getD f.human) with
    | none => rfl
    | some m =>
      dsimp only
      cases c.dumps m d with
      | none => rfl
      | some b =>
        dsimp only
        rw [List.range_succ, List.map_append, List.map_cons, List.map_nil, ← List.cons_append, List.getLast?_append]
        simp

end Verif.Conf
