import Verif.Prs.PropsStream
import Verif.Codec.PropsIndexer

/-!
# Examples for the stream properties
-/

namespace Verif.Prs.DemoStream

open Verif.Matter (Mat)
open Verif.Idr (Ixr)
open Verif.Ctr (Ver Counter)
open Verif.B64

/-- Bodies are kept as they are; nothing is made of no bytes. -/
def L : Loader Bytes := ⟨fun _ b => if b = [] then .error .valueError else .ok b, fun _ b => .ok b⟩

def body1 : Bytes := asc "{\"v\":\"KERI10JSON00002b_\",\"t\":\"icp\",\"d\":\"x\"}".toList
def body2 : Bytes := asc "{\"v\":\"KERICAACAAJSONAAAt.\",\"t\":\"icp\",\"d\":\"x\"}".toList

def sig0 : Ixr := ⟨['A'], 0, some 0, List.replicate 64 7⟩
def sig3 : Ixr := ⟨['A'], 3, some 3, List.replicate 64 9⟩
def key0 : Mat := ⟨['B'], [], List.replicate 32 5⟩
def dig0 : Mat := ⟨['E'], [], List.replicate 32 6⟩
def num0 : Mat := ⟨['M'], [], [1, 2]⟩
def cig0 : Mat := ⟨['0', 'B'], [], List.replicate 64 8⟩
def date0 : Mat := ⟨"1AAG".toList, [], List.replicate 24 3⟩

theorem good_sig0 : GoodSig sig0 := by
  obtain ⟨sz, h, _⟩ := Verif.Idr.make_valid (code := ['A']) (index := 0) (ondex := none) (raw := List.replicate 64 7) (m := sig0) (by decide +kernel) (by decide +kernel)
  exact ⟨sz, _, h⟩

theorem good_sig3 : GoodSig sig3 := by
  obtain ⟨sz, h, _⟩ := Verif.Idr.make_valid (code := ['A']) (index := 3) (ondex := none) (raw := List.replicate 64 9) (m := sig3) (by decide +kernel) (by decide +kernel)
  exact ⟨sz, _, h⟩

theorem good_made {code : List Char} {raw : List Nat} {m : Mat} (hl : AllLt 256 raw) (h : Verif.Matter.make code [] raw none = .ok m) : GoodMat m :=
  Verif.Matter.make_valid hl h

theorem good_key0 : GoodMat key0 := good_made (code := ['B']) (raw := List.replicate 32 5) (by decide +kernel) (by decide +kernel)
theorem good_dig0 : GoodMat dig0 := good_made (code := ['E']) (raw := List.replicate 32 6) (by decide +kernel) (by decide +kernel)
theorem good_num0 : GoodMat num0 := good_made (code := ['M']) (raw := [1, 2]) (by decide +kernel) (by decide +kernel)
theorem good_cig0 : GoodMat cig0 := good_made (code := ['0', 'B']) (raw := List.replicate 64 8) (by decide +kernel) (by decide +kernel)
theorem good_date0 : GoodMat date0 := good_made (code := "1AAG".toList) (raw := List.replicate 24 3) (by decide +kernel) (by decide +kernel)

theorem good_body1 (v : Ver) : GoodBody L v body1 body1 :=
  ⟨by decide +kernel, by decide +kernel, by decide +kernel, ⟨.keri, (1, 0), .json, 43, none⟩, by decide +kernel, by decide +kernel, by cases v <;> decide +kernel, rfl⟩

theorem good_body2 : GoodBody L .v2 body2 body2 :=
  ⟨by decide +kernel, by decide +kernel, by decide +kernel, ⟨.keri, (2, 0), .json, 45, some (2, 0)⟩, by decide +kernel, by decide +kernel, by decide +kernel, rfl⟩

def quad0 : Quad := ⟨dig0, num0, dig0, [sig0, sig3]⟩
def bond0 : Bond := ⟨.sealEvent, [dig0, num0, dig0]⟩
def bond1 : Bond := ⟨.sealSource, [num0, dig0]⟩
def bond2 : Bond := ⟨.firstSeen, [num0, date0]⟩

/-- A message of version 1 with one of each kind of attachment, and one of version 2 with another nested in it. -/
def args1 : Args := { raw := body1, svrsn := .v1, gvrsn := .v1, sigers := [sig0, sig3], tsgs := [quad0], lsgs := [(dig0, [sig3])], wigers := [(sig0, some key0)],
                      cigars := [(key0, cig0)], rsgs := [quad0], bonds := [bond0, bond1, bond0, bond2] }
def inner2 : Args := { raw := body2, sigers := [sig3], bonds := [bond1], nested := true }
def nest2 : Bytes := (messagize inner2).toOption.getD []
def args2 : Args := { raw := body2, sigers := [sig0, sig3], tsgs := [quad0], bonds := [bond0, bond1, bond0, bond2], nests := [nest2, nest2], genusify := true }

def bytes1 : Bytes := (messagize args1).toOption.getD []
def bytes2 : Bytes := (messagize args2).toOption.getD []

theorem made1 : messagize args1 = .ok bytes1 := by decide +kernel
theorem madeN : messagize inner2 = .ok nest2 := by decide +kernel
theorem made2 : messagize args2 = .ok bytes2 := by decide +kernel

theorem short0 : ShortSigs false [sig0, sig3] := by
  intro b hb
  have h0 : (cat (writeSig false) [sig0, sig3]).toOption.map List.length = some 176 := by decide +kernel
  rw [hb] at h0
  simp [Except.toOption] at h0
  simp [unit, h0]

theorem fit_quad0 (v : Ver) : FitQuad v quad0 :=
  ⟨⟨good_dig0, by decide +kernel⟩, ⟨good_num0, by decide +kernel⟩, ⟨good_dig0, by decide +kernel⟩,
    ⟨by intro s hs; simp [quad0] at hs; rcases hs with rfl | rfl; exact good_sig0; exact good_sig3, fun _ => short0⟩⟩

theorem fit_bonds : ∀ b ∈ [bond0, bond1, bond0, bond2], b.clan.slot ≠ none ∧ GoodPrims b.clan.klas b.mats := by
  have g1 : GoodPrim .prefixer dig0 := ⟨good_dig0, by decide +kernel⟩
  have g2 : GoodPrim .number num0 := ⟨good_num0, by decide +kernel⟩
  have g3 : GoodPrim .diger dig0 := ⟨good_dig0, by decide +kernel⟩
  have g4 : GoodPrim .dater date0 := ⟨good_date0, by decide +kernel⟩
  intro b hb
  simp at hb
  rcases hb with rfl | rfl | rfl | rfl
  · exact ⟨by decide, .cons g1 (.cons g2 (.cons g3 .nil))⟩
  · exact ⟨by decide, .cons g2 (.cons g3 .nil)⟩
  · exact ⟨by decide, .cons g1 (.cons g2 (.cons g3 .nil))⟩
  · exact ⟨by decide, .cons g2 (.cons g4 .nil)⟩

theorem sigs0 : ∀ s ∈ [sig0, sig3], GoodSig s := by
  intro s hs; simp at hs; rcases hs with rfl | rfl; exact good_sig0; exact good_sig3

theorem fit1 : Fit args1 where
  sigers := sigs0
  tsgs := by intro q hq; simp [args1] at hq; subst hq; exact fit_quad0 _
  lsgs := by
    intro q hq; simp [args1] at hq; subst hq
    exact ⟨⟨good_dig0, by decide +kernel⟩, by intro s hs; simp at hs; subst hs; exact good_sig3, fun h => absurd h (by decide)⟩
  wigers := by intro q hq; simp [args1] at hq; subst hq; exact good_sig0
  cigars := by intro q hq; simp [args1] at hq; subst hq; exact ⟨⟨good_key0, by decide +kernel⟩, good_cig0⟩
  rsgs := by intro q hq; simp [args1] at hq; subst hq; exact fit_quad0 _
  bonds := fit_bonds

theorem fitN : Fit inner2 where
  sigers := by intro s hs; simp [inner2] at hs; subst hs; exact good_sig3
  tsgs := by intro q hq; simp [inner2] at hq
  lsgs := by intro q hq; simp [inner2] at hq
  wigers := by intro q hq; simp [inner2] at hq
  cigars := by intro q hq; simp [inner2] at hq
  rsgs := by intro q hq; simp [inner2] at hq
  bonds := fun b hb => fit_bonds b (by simp [inner2] at hb; simp [hb])

theorem fit2 : Fit args2 where
  sigers := sigs0
  tsgs := by intro q hq; simp [args2] at hq; subst hq; exact fit_quad0 _
  lsgs := by intro q hq; simp [args2] at hq
  wigers := by intro q hq; simp [args2] at hq
  cigars := by intro q hq; simp [args2] at hq
  rsgs := by intro q hq; simp [args2] at hq
  bonds := fit_bonds

theorem built1 : ∃ e, Built L args1 bytes1 e :=
  ⟨.mk body1 args1.atts [], made1, fit1, 0, body1, [], good_body1 _, .nil, carries fit1 _ _⟩

theorem madeNest : Made L 1 nest2 (.mk body2 inner2.atts []) := ⟨inner2, body2, [], madeN, rfl, rfl, fitN, good_body2, .nil, carries fitN _ _⟩

theorem built2 : ∃ e, Built L args2 bytes2 e :=
  ⟨.mk body2 args2.atts [.mk body2 inner2.atts [], .mk body2 inner2.atts []], made2, fit2, 1, body2, _, good_body2, .cons madeNest (.cons madeNest .nil), carries fit2 _ _⟩

/-- C85 and C86: a version 1 message, then one that changes to version 2 and has others nested in it, twice. -/
example : ∃ es', parse L false 1 ⟨bytes1 ++ (bytes2 ++ (bytes2 ++ [])), [], .v1⟩ = (es', true) ∧ es'.length = 3 := by
  obtain ⟨e1, h1⟩ := built1
  obtain ⟨e2, h2⟩ := built2
  have hs : Series L .v1 [args1, args2, args2] (bytes1 ++ (bytes2 ++ (bytes2 ++ []))) [e1, e2, e2] :=
    .cons h1 (Or.inr (by decide)) (.cons h2 (Or.inl rfl) (.cons h2 (Or.inl rfl) .nil))
  obtain ⟨es', h3, h4⟩ := c86_stream_roundtrip L .v1 _ _ _ false 0 hs
  refine ⟨es', h3, ?_⟩
  cases h4 with | cons _ h4 => cases h4 with | cons _ h4 => cases h4 with | cons _ h4 => cases h4; rfl

/-- C87: the first two and the beginning of the third. -/
example : ∃ es', parsator L false 5 ⟨bytes1.take 10, [bytes1.drop 10 ++ bytes2, bytes2.take 100], .v1⟩ = es' ∧ es'.length = 2 := by
  obtain ⟨e1, h1⟩ := built1
  obtain ⟨e2, h2⟩ := built2
  have hs : Series L .v1 [args1, args2] (bytes1 ++ (bytes2 ++ [])) [e1, e2] := .cons h1 (Or.inr (by decide)) (.cons h2 (Or.inl rfl) .nil)
  obtain ⟨es', h3, h4⟩ := c87_pieces L .v1 _ _ (bytes2.take 100) (bytes1.take 10) [bytes1.drop 10 ++ bytes2, bytes2.take 100] _ 5 hs
    (by intro a ha; simp at ha; rcases ha with rfl | rfl <;> decide)
    (.part h2 (Or.inl rfl) (by decide) (List.take_prefix _ _) (by decide +kernel)) (by simp [← List.append_assoc]) (by decide)
  refine ⟨es', h3, ?_⟩
  cases h4 with | cons _ h4 => cases h4 with | cons _ h4 => cases h4; rfl

end Verif.Prs.DemoStream
