import Verif.Prs.Write
import Verif.Prs.VersionLemmas
import Verif.Codec.PropsMatter
import Verif.Codec.PropsIndexer
import Verif.Codec.PropsCounter

/-!
# Readers and what they consume
-/

namespace Verif.Prs

open Verif.Matter (Mat)
open Verif.Idr (Ixr)
open Verif.Ctr (Ver Counter)
open Verif.B64

/-- The reader takes exactly these bytes off the front, whatever follows. -/
def Frames {α : Type} (rd : Bytes → Got α) (enc : Bytes) (a : α) : Prop :=
  ∀ rest, AllLt 256 rest → rd (enc ++ rest) = ⟨.ok a, enc.length⟩

/-- Bytes of whole quadlets or triplets. -/
structure Piece (bin : Bool) (enc : Bytes) : Prop where
  lt : AllLt 256 enc
  dvd : enc.length % unit bin = 0

def GoodMat (m : Mat) : Prop := ∃ sz n, Verif.Matter.Valid m sz n
def GoodSig (m : Ixr) : Prop := ∃ sz f, Verif.Idr.Valid m sz f
def GoodCtr (v : Ver) (c : Counter) : Prop := ∃ sz, Verif.Ctr.Valid v c sz

theorem alphabet_lt : ∀ c ∈ alphabet, c.toNat < 128 := by decide +kernel

theorem reb64_lt {t : List Char} (h : reb64 t = true) : AllLt 256 (asc t) ∧ ∀ c ∈ asc t, c < 128 := by
  have key : ∀ c ∈ asc t, c < 128 := by
    intro b hb
    simp only [asc, List.mem_map] at hb
    obtain ⟨c, hc, rfl⟩ := hb
    have h := List.all_eq_true.1 h c hc
    simp only [idx] at h
    split at h
    · next hk =>
      exact alphabet_lt c (List.idxOf_lt_length_iff.1 (by have : alphabet.length = 64 := by decide +kernel
                                                          omega))
    · exact absurd h (by simp)
  exact ⟨fun b hb => by have := key b hb; omega, key⟩

theorem Piece.append {bin : Bool} {a b : Bytes} (ha : Piece bin a) (hb : Piece bin b) : Piece bin (a ++ b) := by
  refine ⟨(allLt_append _ _ _).2 ⟨ha.lt, hb.lt⟩, ?_⟩
  have h1 := ha.dvd
  have h2 := hb.dvd
  rw [List.length_append]
  cases bin <;> simp only [unit, Bool.false_eq_true, if_false, if_true] at * <;> omega

theorem Piece.nil (bin : Bool) : Piece bin [] := ⟨by intro b hb; simp at hb, by simp⟩

/-! ## Primitives -/

theorem mat_frames {m : Mat} (h : GoodMat m) (bin : Bool) :
    ∃ enc, writeMat bin m = .ok enc ∧ Frames (readMat (coldOf bin)) enc m ∧ Piece bin enc ∧ enc ≠ [] := by
  obtain ⟨sz, n, hv⟩ := h
  have hfs := Verif.Matter.fullSize_valid hv.size hv.framed
  have hff := Verif.Matter.framed_facts (Verif.Matter.wf_of_sizes hv.size) hv.framed
  cases bin with
  | false =>
    obtain ⟨t, mat, h1, h2, h3, h4, h5⟩ := Verif.Matter.infil_valid hv
    have hex : Verif.Matter.exfil t = .ok m := (Verif.Matter.exfil_ok_iff t m).2 ⟨n, sz, mat, [], h2⟩
    refine ⟨asc t, by simp [writeMat, h1, Except.map], ?_, ⟨(reb64_lt h3).1, ?_⟩, ?_⟩
    · intro rest _
      have hs := (Verif.Matter.c06_self_framing t m n hex hfs (chars rest)).2
      rw [List.take_of_length_le (by omega)] at hs
      simp only [readMat, coldOf, Bool.false_eq_true, if_false, chars_append, chars_asc, hs, hfs, asc_length, h4]
      rfl
    · rw [asc_length, h4]; exact hff.1
    · intro h0
      have := congrArg List.length h0
      rw [asc_length, h4] at this
      simp at this
      have := hff.2.2.2.1
      omega
  | true =>
    obtain ⟨b, h1, h2, h3, h4⟩ := Verif.Matter.binfil_valid hv
    have hex : Verif.Matter.bexfil b = .ok m := (Verif.Matter.bexfil_ok_iff b h2 m).2 ⟨n, sz, b, [], hv, by simp, h3, h4⟩
    refine ⟨b, by simp [writeMat, h1], ?_, ⟨h2, ?_⟩, ?_⟩
    · intro rest hr
      have hs := (Verif.Matter.c06_self_framing_binary b h2 m n hex hfs rest hr).2
      rw [List.take_of_length_le (by omega)] at hs
      simp only [readMat, coldOf, if_true, hs, hfs]
      congr 1
      omega
    · simp only [unit, if_true]; have := hff.1; omega
    · intro h0
      rw [h0] at h3
      have := hff.2.2.2.1
      simp at h3
      omega

theorem prim_frames {m : Mat} (h : GoodMat m) {k : Klas} (hk : k.allows m.code = true) (bin : Bool) :
    ∃ enc, writeMat bin m = .ok enc ∧ Frames (readPrim k (coldOf bin)) enc m ∧ Piece bin enc ∧ enc ≠ [] := by
  obtain ⟨enc, h1, h2, h3, h4⟩ := mat_frames h bin
  refine ⟨enc, h1, ?_, h3, h4⟩
  intro rest hr
  simp only [readPrim, h2 rest hr, hk, if_true]

theorem sig_frames {m : Ixr} (h : GoodSig m) (bin : Bool) :
    ∃ enc, writeSig bin m = .ok enc ∧ Frames (readSig (coldOf bin)) enc m ∧ Piece bin enc ∧ enc ≠ [] := by
  obtain ⟨sz, f, hv⟩ := h
  have hlt := hv.wf.2.2.2.2.2.2.2.2.2.2.1
  have hf4 := hv.wf.2.2.2.2.2.2.2.2.1
  have hspec := (Verif.Idr.spec_of hv.sig hv.size hv.wf).2.2.2.2
  have hne : 0 < f := by
    have := hv.bothLen
    omega
  have hss : Verif.Idr.siger (.ok m) = .ok m := Verif.Idr.siger_ok.2 ⟨rfl, hv.sig⟩
  cases bin with
  | false =>
    obtain ⟨mat, h1, h2, h3, h4⟩ := Verif.Idr.infil_valid hv
    have hl : (Verif.Idr.both sz m ++ mat).length = f := by rw [List.length_append, hv.bothLen, h3]; omega
    have hb : reb64 (Verif.Idr.both sz m ++ mat) = true := by rw [reb64_append, hv.bothB64, h2]; rfl
    refine ⟨asc (Verif.Idr.both sz m ++ mat), by simp [writeSig, h1, Except.map], ?_, ⟨(reb64_lt hb).1, ?_⟩, ?_⟩
    · intro rest _
      have hs : Verif.Idr.exfil (Verif.Idr.both sz m ++ mat ++ chars rest) = .ok m :=
        ((Verif.Idr.exfil_ok_iff _ m).2 ⟨sz, f, mat, chars rest, hv, by simp, h3, (Verif.Matter.idx_of_mem_reb64 h2).1, h4⟩).1
      simp only [readSig, coldOf, Bool.false_eq_true, if_false, chars_append, chars_asc, hs, h1, Except.map, hss, asc_length]
      rfl
    · rw [asc_length, hl]; exact hf4
    · intro h0
      have := congrArg List.length h0
      rw [asc_length, hl] at this
      simp at this
      omega
  | true =>
    obtain ⟨b, h1, h2, h3, h4⟩ := Verif.Idr.binfil_valid hv
    refine ⟨b, by simp [writeSig, h1], ?_, ⟨h2, ?_⟩, ?_⟩
    · intro rest hr
      have hs : Verif.Idr.bexfil (b ++ rest) = .ok m := ((Verif.Idr.bexfil_ok_iff _ ((allLt_append _ _ _).2 ⟨h2, hr⟩) m).2
        ⟨sz, f, b, rest, hv, rfl, h3, h4⟩).1
      simp only [readSig, coldOf, if_true, hs, h1, Except.map, hss]
    · simp only [unit, if_true]; omega
    · intro h0
      rw [h0] at h3
      simp at h3
      omega

/-! ## Counters -/

theorem codes_dash (v : Ver) : ∀ e ∈ Verif.Ctr.sizes v, e.1.head? = some '-' := by cases v <;> decide +kernel

theorem byte_dash : ∀ x < 256, (bits 8 [x]).take 6 = bits 6 [62] → x / 32 = 7 := by decide +kernel

theorem ctr_frames {v : Ver} {c : Counter} (h : GoodCtr v c) (bin : Bool) :
    ∃ enc, writeCtr v bin c = .ok enc ∧ (∀ rest, AllLt 256 rest → peekCtr v (coldOf bin) (enc ++ rest) = ⟨.ok c, 0⟩) ∧
      ctrSize v (coldOf bin) c = enc.length ∧ Piece bin enc ∧ enc ≠ [] ∧ (∀ rest, sniff (enc ++ rest) = .ok (coldOf bin)) ∧
      (∀ k < enc.length, peekCtr v (coldOf bin) (enc.take k) = ⟨.error .shortage, 0⟩) := by
  obtain ⟨sz, hv⟩ := h
  obtain ⟨w1, w2, w3, w4, w5, w6, w7, _⟩ := Verif.Ctr.wf_of_sizes hv.size
  have hl := hv.len
  have hd := codes_dash v _ (Verif.Matter.mem_of_lookup hv.size)
  simp only at hd
  obtain ⟨tl, htl⟩ : ∃ tl, c.code = '-' :: tl := by
    cases hc : c.code with
    | nil => rw [hc] at hd; simp at hd
    | cons x tl => rw [hc] at hd; simp at hd; exact ⟨tl, by rw [hd]⟩
  have hsp := Verif.Ctr.spec_of hv.size
  cases bin with
  | false =>
    have h1 := Verif.Ctr.infil_valid hv
    have hex : ∀ rest, Verif.Ctr.exfil v (Verif.Ctr.both sz c ++ rest) = .ok c := fun rest => (Verif.Ctr.exfil_ok_iff v _ c).2 ⟨sz, rest, hv, rfl⟩
    refine ⟨asc (Verif.Ctr.both sz c), by simp [writeCtr, h1, Except.map], ?_, ?_, ⟨(reb64_lt hv.b64).1, ?_⟩, ?_, ?_, ?_⟩
    · intro rest _
      simp [peekCtr, coldOf, ctrText, chars_append, chars_asc, hex]
    · simp [ctrSize, coldOf, Verif.Ctr.fullSize, hv.size, asc_length, hl]
    · rw [asc_length, hl]; exact w6
    · intro h0
      have := congrArg List.length h0
      rw [asc_length, hl] at this
      simp at this
      omega
    · intro rest
      rw [Verif.Ctr.both, htl]
      simp only [asc, List.cons_append, List.map_cons, sniff, coldOf]
      simp
    · intro k hk
      rw [asc_length, hl, hsp] at hk
      have hp := Verif.Ctr.c81_prefix v (Verif.Ctr.both sz c) c (by have := hex []; rwa [List.append_nil] at this) k hk
      have : chars ((asc (Verif.Ctr.both sz c)).take k) = (Verif.Ctr.both sz c).take k := by
        rw [asc, ← List.map_take]; exact chars_asc _
      simp [peekCtr, coldOf, ctrText, this, hp]
  | true =>
    obtain ⟨b, h1, h2, h3, h4⟩ := Verif.Ctr.binfil_valid hv
    have hex : ∀ rest, AllLt 256 rest → Verif.Ctr.bexfil v (b ++ rest) = .ok c := by
      intro rest hr
      refine (Verif.Ctr.bexfil_ok_iff v _ ((allLt_append _ _ _).2 ⟨h2, hr⟩) c).2 ⟨sz, hv, by rw [List.length_append]; omega, ?_⟩
      rw [bits_append, List.take_append_of_le_length (by rw [bits_length]; omega), List.take_of_length_le (by rw [bits_length]; omega), h4]
    have hne : b ≠ [] := by
      intro h0
      rw [h0] at h3
      simp at h3
      omega
    refine ⟨b, by simp [writeCtr, h1], ?_, ?_, ⟨h2, ?_⟩, hne, ?_, ?_⟩
    · intro rest hr
      simp [peekCtr, coldOf, hex rest hr]
    · simp only [ctrSize, coldOf, Verif.Ctr.fullSize, hv.size, if_true]; omega
    · simp only [unit, if_true]; omega
    · intro rest
      cases b with
      | nil => exact absurd rfl hne
      | cons x tl' =>
        have hx : x < 256 := h2 x (by simp)
        have : x / 32 = 7 := by
          refine byte_dash x hx ?_
          have e1 : (bits 8 (x :: tl')).take 6 = (bits 8 [x]).take 6 := by
            have : bits 8 (x :: tl') = bits 8 [x] ++ bits 8 tl' := bits_append 8 [x] tl'
            rw [this, List.take_append_of_le_length (by rw [bits_length]; simp)]
          rw [← e1, h4, Verif.Ctr.both, htl]
          have e2 : sextets ('-' :: tl ++ intToB64 c.count sz.ss) = 62 :: sextets (tl ++ intToB64 c.count sz.ss) := by
            have h62 : idx '-' = some 62 := by decide +kernel
            simp [sextets, h62]
          rw [e2]
          have : bits 6 (62 :: sextets (tl ++ intToB64 c.count sz.ss)) = bits 6 [62] ++ bits 6 (sextets (tl ++ intToB64 c.count sz.ss)) := bits_append 6 [62] _
          rw [this, List.take_append_of_le_length (by rw [bits_length]; simp), List.take_of_length_le (by rw [bits_length]; simp)]
        simp [sniff, coldOf, this]
    · intro k hk
      have hp := Verif.Ctr.c81_prefix_binary v b h2 c (by have := hex [] (by intro x hx; simp at hx); rwa [List.append_nil] at this) k (by rw [← hsp]; omega)
      simp [peekCtr, coldOf, hp]

end Verif.Prs
