import Verif.Ser.PropsStream

/-! # Concrete messages, and a reader -/

namespace Verif.Ser.Demo

open Verif.B64 Verif.Matter
open Verif.Mad hiding Kind verify makify Digested Collision
open Verif.Prs (Proto Kind Smellage asc chars versify deversify smell sniff)

/-- Digests that depend on the length and the last characters. -/
def lib : Lib :=
  ⟨fun code ser => List.replicate (if code.length = 1 then 31 else 63) (ser.length % 256) ++ [(ser.foldl (fun n c => n * 7 + c.toNat) 0) % 256],
   fun _ => .error .typeError, fun _ => .error .typeError, fun _ _ _ _ => .error .typeError, fun _ _ => .error .typeError,
   fun v => match v with | .text t => decide (t = ['1']) | _ => false⟩

theorem lib_ok : DigestsOk lib := by
  intro code ser
  refine ⟨?_, ?_⟩
  · intro b hb
    simp only [Lib.world, lib, List.mem_append, List.mem_replicate, List.mem_singleton] at hb
    rcases hb with h | h
    · rw [h.2]; exact Nat.mod_lt _ (by omega)
    · rw [h]; exact Nat.mod_lt _ (by omega)
  · simp only [Lib.world, lib, List.length_append, List.length_replicate, List.length_singleton]
    split <;> rfl

/-- A transferable and a nontransferable key, and a digest. -/
def key : List Char := 'D' :: List.replicate 43 'A'
def weak : List Char := 'B' :: List.replicate 43 'A'
def dig : List Char := 'E' :: List.replicate 43 'A'

def o1 : Opts := { proto := some .keri, pvrsn := some (1, 0), kind := some .json, ilk := some icp }

/-- The fields of an inception with a self-addressing prefix. -/
def sad1 : Flds := [(['k', 't'], .text ['1']), (['k'], .list [.text key]), (['n', 't'], .text ['1']), (['n'], .list [.text dig])]

/-- The fields of an inception with a nontransferable prefix. -/
def sad2 : Flds := [(['i'], .text weak), (['k', 't'], .text ['1']), (['k'], .list [.text weak])]

def got (r : Except Err Serder) : Serder :=
  match r with
  | .ok s => s
  | .error _ => ⟨⟨.keri, (0, 0), none, .json⟩, [], [], 0⟩

def isOk {α : Type} (r : Except Err α) : Bool :=
  match r with
  | .ok _ => true
  | .error _ => false

theorem got_ok {r : Except Err Serder} (h : isOk r = true) : r = .ok (got r) := by
  cases r with
  | ok s => rfl
  | error e => simp [isOk] at h

def s1 : Serder := got (made lib .keri o1 sad1)
def s1' : Serder := got (made lib .keri { o1 with saids := [(['i'], ['F'])] } sad1)
def s2 : Serder := got (made lib .keri o1 sad2)

theorem made1 : made lib .keri o1 sad1 = .ok s1 := got_ok (by decide +kernel)
theorem made1' : made lib .keri { o1 with saids := [(['i'], ['F'])] } sad1 = .ok s1' := got_ok (by decide +kernel)
theorem made2 : made lib .keri o1 sad2 = .ok s2 := got_ok (by decide +kernel)

theorem dict1 : Dict sad1 ∧ Dict sad2 := ⟨by unfold Dict; decide, by unfold Dict; decide⟩

theorem makify_of_made {lib : Lib} {cls : Cls} {o : Opts} {sad : Flds} {s : Serder} (h : made lib cls o sad = .ok s) : makify lib cls o sad = .ok s := by
  unfold made at h
  split at h
  · exact absurd h (by simp)
  next s' hm =>
  split at h
  · exact absurd h (by simp)
  injection h with h; rw [← h]; exact hm

theorem fits1 : Prs.Fits s1.attrs.pvrsn s1.size s1.attrs.gvrsn ∧ Prs.Fits s1'.attrs.pvrsn s1'.size s1'.attrs.gvrsn ∧ Prs.Fits s2.attrs.pvrsn s2.size s2.attrs.gvrsn := by
  have e1 : s1.attrs.pvrsn = (1, 0) ∧ s1.size < 16 ^ 6 := by decide +kernel
  have e2 : s1'.attrs.pvrsn = (1, 0) ∧ s1'.size < 16 ^ 6 := by decide +kernel
  have e3 : s2.attrs.pvrsn = (1, 0) ∧ s2.size < 16 ^ 6 := by decide +kernel
  unfold Prs.Fits
  rw [e1.1, e2.1, e3.1]
  exact ⟨⟨by decide, e1.2⟩, ⟨by decide, e2.2⟩, ⟨by decide, e3.2⟩⟩

theorem json1 : s1.attrs.kind = .json ∧ s1'.attrs.kind = .json ∧ s2.attrs.kind = .json := by decide +kernel

/-- C125, C129: concrete messages with self-addressing and nontransferable prefixes meet the hypotheses. -/
theorem right1 : Right lib s1 ∧ Right lib s1' ∧ Right lib s2 :=
  ⟨(c125_made_json lib_ok dict1.1 (by decide) (makify_of_made made1) json1.1 fits1.1).2.1,
   (c125_made_json lib_ok dict1.1 (by decide) (makify_of_made made1') json1.2.1 fits1.2.1).2.1,
   (c125_made_json lib_ok dict1.2 (by decide) (makify_of_made made2) json1.2.2 fits1.2.2).2.1⟩

example : s1.raw.length = s1.size ∧ s1.size = 299 ∧ (s1.raw.take 30 = "{\"v\":\"KERI10JSON00012b_\",\"t\":\"".toList) ∧ saidLabels s1 = [['d'], ['i']] := by decide +kernel

/-- Whether two values are the same text. -/
def sameText (a b : Option Val) : Bool :=
  match a, b with
  | some (.text t), some (.text u) => decide (t = u)
  | _, _ => false

theorem sameText_iff {a b : Option Val} (h : sameText a b = true) : a = b := by
  unfold sameText at h
  split at h
  · simp only [decide_eq_true_eq] at h; rw [h]
  · exact absurd h (by simp)

theorem digested1 {x : List Char} (h : Digested lib s1 x) : x = json (dummied (saidLabels s1) s1.sad) := by
  unfold Digested dumps at h
  rw [json1.1] at h
  simp only [Except.ok.injEq] at h
  exact h.symm

theorem digested1' {x : List Char} (h : Digested lib s1' x) : x = json (dummied (saidLabels s1') s1'.sad) := by
  unfold Digested dumps at h
  rw [json1.2.1] at h
  simp only [Except.ok.injEq] at h
  exact h.symm

/-- C126, the limit: the SAID in `d` alone does not determine the message.  Two inceptions that `SerderKERI` accepts have the same SAID and different
prefixes, under different digest codes, though the digest functions have no collision there. -/
theorem c126_said_not_all : Accepted lib .keri (fun _ => True) s1 ∧ Accepted lib .keri (fun _ => True) s1' ∧ s1.attrs = s1'.attrs ∧
    getKey s1.sad ['d'] = getKey s1'.sad ['d'] ∧ getKey s1.sad ['i'] ≠ getKey s1'.sad ['i'] ∧ ¬ Collision lib s1 s1' := by
  refine ⟨.made _ _ _ dict1.1 (by decide) made1, .made _ _ _ dict1.1 (by decide) made1', by decide +kernel, sameText_iff (by decide +kernel), ?_, ?_⟩
  · intro h
    have : sameText (getKey s1.sad ['i']) (getKey s1'.sad ['i']) = true := by
      rw [h]; decide +kernel
    exact absurd this (by decide +kernel)
  · rintro ⟨code, x1, x2, h1, h2, hne, _⟩
    apply hne
    rw [digested1 h1, digested1' h2]
    decide +kernel

/-- C128: the prefix of the second message is its only key. -/
example : sameText (getKey s2.sad ['i']) (some (.text weak)) = true ∧ (codeAt (getKey s2.sad ['i'])).map (·.1) = some ['B'] ∧ isOk (made lib .keri o1 sad2) = true ∧
    isOk (made lib .keri o1 [(['i'], .text weak), (['k', 't'], .text ['1']), (['k'], .list [.text key])]) = false ∧
    isOk (made lib .keri o1 [(['i'], .text weak), (['k', 't'], .text ['2']), (['k'], .list [.text weak])]) = false ∧
    isOk (made lib .keri o1 [(['i'], .text weak), (['k', 't'], .text ['1']), (['k'], .list [.text weak]), (['n'], .list [.text dig])]) = false := by
  decide +kernel

/-- C126: the first and a different message have different SAIDs here. -/
example : sameText (getKey s1.sad ['d']) (getKey s2.sad ['d']) = false := by decide +kernel

/-- C127: a message with a field missing or one too many is refused. -/
example : isOk (check lib .base s1) = true ∧ isOk (check lib .base { s1 with sad := s1.sad.drop 1 }) = false ∧
    isOk (check lib .base { s1 with sad := s1.sad ++ [(['x'], .null)] }) = false ∧ isOk (check lib .base { s1 with size := 3 }) = false := by decide +kernel

/-! ## A reader of JSON -/

/-- The dicts whose numbers are ones that JSON prints. -/
def HeldJson (m : Flds) : Prop := Dict m ∧ NumsM m

open Classical in
/-- The reader that finds what has been written. -/
noncomputable def reading (x : List Char) : Except Err Flds :=
  if h : ∃ m, HeldJson m ∧ json m = x then .ok (choose h) else .error .valueError

noncomputable def libR : Lib := { lib with loads := fun _ x => reading x }

theorem numsM_set : ∀ (m : Flds) (l t : List Char), NumsM m → NumsM (setField m l (.text t)) := by
  intro m
  induction m with
  | nil => intro l t _; simp [setField, NumsM, Nums]
  | cons p r ih =>
    obtain ⟨k, v⟩ := p
    intro l t h
    simp only [NumsM] at h
    simp only [setField]
    split
    · simp only [NumsM]; exact ⟨by simp [Nums], h.2⟩
    · simp only [NumsM]; exact ⟨h.1, ih _ _ h.2⟩

/-- What is asked of a reader is met by one for JSON. -/
theorem reader_json (a : Attrs) (ha : a.kind = .json) : Reader libR a HeldJson := by
  have hr : ∀ x m, reading x = .ok m → HeldJson m ∧ json m = x := by
    intro x m h
    unfold reading at h
    split at h
    · next hx => injection h with h; rw [← h]; exact Classical.choose_spec hx
    · exact absurd h (by simp)
  refine ⟨fun m h => h.1, fun m l t h hl _ => ⟨dict_setField h.1 _ _, numsM_set _ _ _ h.2⟩, ?_, ?_⟩
  · intro m x n h hd _
    unfold dumps at hd
    rw [ha] at hd
    simp only [Except.ok.injEq] at hd
    have hx : ∃ m, HeldJson m ∧ json m = x := ⟨m, h, hd⟩
    show reading x = .ok m
    unfold reading
    rw [dif_pos hx]
    congr 1
    have := Classical.choose_spec hx
    exact json_inj this.1.2 h.2 (this.2.trans hd.symm)
  · intro x m n h
    exact (hr x m h).1

theorem libR_ok : DigestsOk libR := lib_ok

theorem putDigests_libR (ser : List Char) : ∀ (s : Saids) (sad : Flds), putDigests libR ser s sad = putDigests lib ser s sad := by
  intro s
  induction s with
  | nil => intro sad; rfl
  | cons p r ih =>
    obtain ⟨l, c⟩ := p
    intro sad
    simp only [putDigests, ih, show libR.world = lib.world from rfl]

theorem dumps_libR (a : Attrs) (sad : Flds) : dumps libR a sad = dumps lib a sad := rfl

theorem compute_libR (a : Attrs) (sad : Flds) (s : Saids) : compute libR a sad s = compute lib a sad s := by
  simp only [compute, sizify, dumps_libR, putDigests_libR]

theorem prefixOk_libR (sad : Flds) (ilk : Option (List Char)) : prefixOk libR sad ilk = prefixOk lib sad ilk := by
  have : ∀ pre, basicOk libR sad pre = basicOk lib sad pre := fun _ => rfl
  simp only [prefixOk, this]

theorem verify_libR (cls : Option Proto) (s : Serder) : verify libR cls s = verify lib cls s := by
  simp only [verify, compute_libR]

theorem check_libR (cls : Cls) (s : Serder) : check libR cls s = check lib cls s := by
  have : verifyKeri libR s = verifyKeri lib s := by simp only [verifyKeri, verify_libR, prefixOk_libR]
  cases cls <;> simp only [check, verify_libR, this]

theorem made1R : made libR .keri o1 sad1 = .ok s1 := by
  have e : made libR .keri o1 sad1 = made lib .keri o1 sad1 := by
    simp only [made, makify, compute_libR, check_libR]
  rw [e]; exact made1

/-- C129: the first message is read back from a stream. -/
example (rest : List Char) : fromRaw libR .keri none (s1.raw ++ rest) = .ok (s1, rest) := by
  refine c129_made_read_back (Held := HeldJson) libR_ok dict1.1 (by decide) made1R json1.1 (reader_json _ json1.1) ⟨right1.1.dict, ?_⟩ fits1.1 rest
  have : ∀ m : Flds, m.all (fun p => match p.2 with | .text _ => true | .list vs => vs.all (fun v => match v with | .text _ => true | _ => false) | _ => false) = true → NumsM m := by
    intro m
    induction m with
    | nil => intro _; simp [NumsM]
    | cons p r ih =>
      obtain ⟨k, v⟩ := p
      intro h
      simp only [List.all_cons, Bool.and_eq_true] at h
      simp only [NumsM]
      refine ⟨?_, ih h.2⟩
      have h1 := h.1
      split at h1
      · simp [Nums]
      · next vs =>
        simp only [Nums]
        clear h ih
        induction vs with
        | nil => simp [NumsL]
        | cons v vs ih =>
          simp only [List.all_cons, Bool.and_eq_true] at h1
          simp only [NumsL]
          refine ⟨?_, ih h1.2⟩
          have h2 := h1.1
          split at h2
          · simp [Nums]
          · exact absurd h2 (by simp)
      · exact absurd h1 (by simp)
  exact this _ (by decide +kernel)

end Verif.Ser.Demo
