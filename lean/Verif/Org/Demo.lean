import Verif.Org.Img

/-! # C188–C193: cases and witnesses -/

namespace Verif.Org

open Verif.Db Verif.Krm Verif.Sub

/-- Identifiers `A`, `B` and `AB`, which continues `A`; field names `n` and `n.m`; values. -/
def idA : Text := [65]
def idB : Text := [66]
def idAB : Text := [65, 66]
def fn : Text := [110]
def fm : Text := [109]
def fnm : Text := [110, 46, 109]
def v1 : Text := [49]
def v2 : Text := [50]

def AB (p : Text) : Prop := p = idA ∨ p = idB

theorem ab_ok : PresOk AB := by
  refine ⟨?_, ?_, ?_⟩
  · rintro p (rfl | rfl) <;> decide
  · rintro p (rfl | rfl) <;> (unfold NoDot; decide)
  · rintro p q (rfl | rfl) (rfl | rfl) h
    · rfl
    · exact absurd (h.eq_of_length (by rfl)) (by decide)
    · exact absurd (h.eq_of_length (by rfl)) (by decide)
    · rfl

/-- A case of C188, C189, C190: two contacts are made, changed and one of them unset a field. -/
def ops : List Op :=
  [.update idA [(fn, .text v1)], .update idB [(fn, .text v1), (fm, .text v2)], .set idA fm (.text v1), .unset idB fm, .replace idA [(fn, .text v1)]]

theorem dataOk_text {d : Dict} (h : ∀ e ∈ d, NoDot e.1 ∧ ∃ b, e.2 = .text b) (hn : (d.map (·.1)).Nodup) : DataOk d :=
  ⟨fun e he => (h e he).2, fun e he => (h e he).1, hn⟩

example : ∀ o, o ∈ ops → AB o.pre ∧ o.ok := by
  intro o ho
  simp only [ops, List.mem_cons, List.not_mem_nil, or_false] at ho
  rcases ho with rfl | rfl | rfl | rfl | rfl
  · exact ⟨Or.inl rfl, dataOk_text (by simp [NoDot, fn, v1]) (by decide), by decide⟩
  · exact ⟨Or.inr rfl, dataOk_text (by simp [NoDot, fn, fm, v1]) (by decide), by decide⟩
  · exact ⟨Or.inl rfl, by unfold NoDot; decide, by decide, v1, rfl⟩
  · exact ⟨Or.inr rfl, by unfold NoDot; decide, by decide⟩
  · exact ⟨Or.inl rfl, dataOk_text (by simp [NoDot, fn, v1]) (by decide), by decide⟩

example : get (calls {} ops).1 idA = .ok (some [(fn, .text v1), (idKey, .text idA)]) ∧
    list (calls {} ops).1 = .ok [[(idKey, .text idA), (fn, .text v1)], [(idKey, .text idB), (fn, .text v1)]] ∧
    values (calls {} ops).1 fn = .ok [v1] ∧ (calls {} ops).2 = [none, none, none, none, none] := by decide +kernel

/-- **C188 fails** for values that are not text: the call raises, the data is changed, the fields after it are not in the index. -/
theorem c188_other :
    let x := call {} (.update idA [(fm, .other 1), (fn, .text v1)])
    x.2 = some .typeError ∧ get x.1 idA = .ok (some [(fm, .other 1), (fn, .text v1), (idKey, .text idA)]) ∧ list x.1 = .ok [] := by decide +kernel

/-- A contact that was updated twice keeps the identifier as a field of its data, one that was updated once does not. -/
theorem c188_id :
    let w := (calls {} [.update idA [(fn, .text v1)], .update idA [(fn, .text v2)]]).1
    getField w idA idKey = .ok (some (.text idA)) ∧ getField (calls {} [.update idA [(fn, .text v1)]]).1 idA idKey = .ok none := by decide +kernel

/-- **C189 fails** for a field whose name has the separator: nothing can be listed or found any more, of any contact. -/
theorem c189_dot :
    let w := (calls {} [.update idB [(fn, .text v1)], .update idA [(fnm, .text v1)]]).1
    list w = .error .valueError ∧ findExact w fn v1 = .error .valueError ∧ values w fn = .error .valueError ∧
    get w idB = .ok (some [(fn, .text v1), (idKey, .text idB)]) := by decide +kernel

/-- **C189 fails** for a field `id`: the contact is listed as another one, `get` says which it is. -/
theorem c189_id :
    let w := (calls {} [.update idA [(idKey, .text idB), (fn, .text v1)]]).1
    list w = .ok [[(idKey, .text idB), (fn, .text v1)]] ∧ get w idA = .ok (some [(idKey, .text idA), (fn, .text v1)]) ∧ get w idB = .ok none := by
  decide +kernel

/-- A contact without fields is got, and not listed. -/
theorem c189_empty : get (calls {} [.update idA []]).1 idA = .ok (some [(idKey, .text idA)]) ∧ list (calls {} [.update idA []]).1 = .ok [] := by decide +kernel

/-- **C189 fails** for identifiers of which one continues the other: removing the one removes the fields of the other from the list. -/
theorem c189_continued :
    let w := (calls {} [.update idA [(fn, .text v1)], .update idAB [(fn, .text v2)], .rem idA]).1
    get w idAB = .ok (some [(fn, .text v2), (idKey, .text idAB)]) ∧ list w = .ok [] := by decide +kernel

/-- **C191 fails** for which contact: the data of two contacts are swapped with their signatures, and each is got as the other. -/
theorem c191_swapped :
    let w := (calls {} [.update idA [(fn, .text v1)], .update idB [(fn, .text v2)]]).1
    let w' : World := { w with cigs := [(idA, some [(fn, .text v2)]), (idB, some [(fn, .text v1)])], data := [(idA, [(fn, .text v2)]), (idB, [(fn, .text v1)])] }
    Legal ({}, []) [.call (.update idA [(fn, .text v1)]), .call (.update idB [(fn, .text v2)]), .tamper w'] ∧
    get w' idA = .ok (some [(fn, .text v2), (idKey, .text idA)]) ∧ get w' idB = .ok (some [(fn, .text v1), (idKey, .text idB)]) := by
  refine ⟨⟨trivial, trivial, ?_, trivial⟩, by decide +kernel, by decide +kernel⟩
  intro p d hm
  simp only [List.mem_cons, Prod.mk.injEq, Option.some.injEq, List.not_mem_nil, or_false] at hm
  have hs : (evolve (evolve ({}, []) (.call (.update idA [(fn, .text v1)]))) (.call (.update idB [(fn, .text v2)]))).2 =
      [[(fn, .text v1)], [(fn, .text v2)]] := by decide +kernel
  show d ∈ (evolve (evolve ({}, []) (.call (.update idA [(fn, .text v1)]))) (.call (.update idB [(fn, .text v2)]))).2
  rw [hs]
  rcases hm with ⟨_, rfl⟩ | ⟨_, rfl⟩ <;> decide

/-- **C191 fails** for what is listed and for the values of a field: they are read from the index, which is not signed. -/
theorem c191_unsigned :
    let w := (calls {} [.update idA [(fn, .text v1)]]).1
    let w' : World := { w with fields := [(join 46 [idA, fn], v2)] }
    get w' idA = .ok (some [(fn, .text v1), (idKey, .text idA)]) ∧ list w' = .ok [[(idKey, .text idA), (fn, .text v2)]] ∧ values w' fn = .ok [v2] ∧
    findExact w' fn v2 = .ok [some [(fn, .text v1), (idKey, .text idA)]] := by decide +kernel

/-- An alteration that `get` detects. -/
example :
    let w := (calls {} [.update idA [(fn, .text v1)]]).1
    get { w with data := [(idA, [(fn, .text v2)])] } idA = .error .validation := by decide +kernel

/-- **C192 fails**: cut between signature and data, an update leaves a contact that raises, in `get` and in every call that changes it but `replace`
and `rem`. -/
theorem c192_torn :
    let w := crash (calls {} [.update idA [(fn, .text v1)]]).1 (.update idA [(fn, .text v2)]) 1
    get w idA = .error .validation ∧ (call w (.update idA [(fn, .text v1)])).2 = some .validation ∧ (call w (.set idA fn (.text v1))).2 = some .validation ∧
    get (call w (.replace idA [(fn, .text v2)])).1 idA = .ok (some [(fn, .text v2), (idKey, .text idA)]) := by decide +kernel

/-- Cut after the signature is removed, `get` raises AttributeError; cut after the data is removed, `set` loses the contact. -/
theorem c192_lost :
    let w := (calls {} [.update idA [(fn, .text v1)]]).1
    get (crash w (.rem idA) 1) idA = .error .attributeError ∧ get (crash w (.set idA fm (.text v2)) 3) idA = .ok none := by decide +kernel

/-- Cut before the fields are written, what is listed is not what is got. -/
theorem c192_index :
    let w := crash (calls {} [.update idA [(fn, .text v1)]]).1 (.update idA [(fn, .text v2)]) 2
    get w idA = .ok (some [(fn, .text v2), (idKey, .text idA)]) ∧ list w = .ok [[(idKey, .text idA), (fn, .text v1)]] := by decide +kernel

/-- A case of C193: eleven chunks, more than are in the order of the keys. -/
example : getImg (setImg [] idA [1] (List.replicate 11 [7, 8])).1 idA 0 20 = List.replicate 11 [7, 8] ∧
    getImgData (setImg [] idA [1] (List.replicate 11 [7, 8])).1 idA = some ([1], 22) := by decide +kernel

/-- **C193 fails** for identifiers that continue the one whose image is set: they lose theirs. -/
theorem c193_continued :
    let t := (setImg [] idAB [1] [[7]]).1
    getImg t idAB 0 9 = [[7]] ∧ getImg (setImg t idA [1] [[8]]).1 idAB 0 9 = [] := by decide +kernel

end Verif.Org
