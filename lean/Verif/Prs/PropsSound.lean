import Verif.Prs.Sound
import Verif.Prs.DemoStream

/-!
# What the parser hands on is well formed, whatever it reads (C97)
-/

namespace Verif.Prs

open Verif.Matter (Mat)
open Verif.Idr (Ixr)
open Verif.Ctr (Ver Counter)
open Verif.B64

/-- C97: whatever the bytes, every message that `parse` hands on is well formed: its body was deserialized from exactly the bytes it announces,
all elements of all lists of attachments have the parts that belong into the list, of classes with suitable codes and sizes, and so do nested
messages. -/
theorem c97_parse {β : Type} (L : Loader β) (framed : Bool) (n : Nat) (s : St) (hb : AllLt 256 s.buf) (hf : ∀ p ∈ s.fut, AllLt 256 p) :
    ∀ e ∈ (parse L framed n s).1, WellFormed L e := by
  induction n generalizing s with
  | zero => simp [parse]
  | succ n ih =>
    unfold parse
    have ho := groupAll_ok (L := L) framed (s := s) ⟨hb, hf⟩
    have ha := after_ok ho
    split
    · simp
    · simp only
      split
      · exact ho.1
      · intro e he
        rcases List.mem_append.1 he with he | he
        · exact ho.1 e he
        · exact ih _ ha.1 ha.2 e he

/-- C97: the same for a stream that arrives in pieces, however it is cut. -/
theorem c97_pieces {β : Type} (L : Loader β) (framed : Bool) (n : Nat) (s : St) (hb : AllLt 256 s.buf) (hf : ∀ p ∈ s.fut, AllLt 256 p) :
    ∀ e ∈ parsator L framed n s, WellFormed L e := by
  induction n generalizing s with
  | zero => simp [parsator]
  | succ n ih =>
    unfold parsator
    have ho := groupAll_ok (L := L) framed (s := s) ⟨hb, hf⟩
    have ha := after_ok ho
    simp only
    split
    · exact ho.1
    · split
      · exact ho.1
      next p fut hp =>
        intro e he
        rcases List.mem_append.1 he with he | he
        · exact ho.1 e he
        · refine ih ⟨(after (groupAll L framed s)).buf ++ p, fut, (after (groupAll L framed s)).ver⟩ ?_ ?_ e he
          · exact allLt_append' ha.1 (ha.2 p (by rw [hp]; simp))
          · exact fun q hq => ha.2 q (by rw [hp]; simp [hq])

/-- C97: how a stream begins decides how it is read: serialized messages (JSON, CBOR maps, MessagePack maps), counters and operations in text,
in binary, annotated text. -/
theorem c97_cold (b : Nat) (l : Bytes) (hb : b < 256) :
    (sniff (b :: l) = .ok .msg ↔ 0x60 ≤ b ∧ b < 0xE0) ∧ (sniff (b :: l) = .ok .txt ↔ 0x20 ≤ b ∧ b < 0x60) ∧ (sniff (b :: l) = .ok .bny ↔ 0xE0 ≤ b) ∧
      (sniff (b :: l) = .ok .ano ↔ b < 0x20) := by
  have key : ∀ b : Fin 256, (sniff (b.val :: []) = .ok .msg ↔ 0x60 ≤ b.val ∧ b.val < 0xE0) ∧ (sniff (b.val :: []) = .ok .txt ↔ 0x20 ≤ b.val ∧ b.val < 0x60) ∧
      (sniff (b.val :: []) = .ok .bny ↔ 0xE0 ≤ b.val) ∧ (sniff (b.val :: []) = .ok .ano ↔ b.val < 0x20) := by decide +kernel
  exact key ⟨b, hb⟩

/-- The hypotheses hold of streams that are parsed into messages with attachments. -/
example : AllLt 256 DemoStream.bytes1 ∧ (parse DemoStream.L true 9 ⟨DemoStream.bytes1, [], .v1⟩).1.length = 1 := by decide +kernel

/-- A couple with a digest where a key belongs: the first stream is handed on, the second is not. -/
example : ((parse DemoStream.L true 9 ⟨DemoStream.body1 ++ asc "-CAB".toList ++ asc ('B' :: List.replicate 43 'A') ++ asc ('0' :: 'B' :: List.replicate 86 'A'), [], .v1⟩).1.length,
    (parse DemoStream.L true 9 ⟨DemoStream.body1 ++ asc "-CAB".toList ++ asc ('E' :: List.replicate 43 'A') ++ asc ('0' :: 'B' :: List.replicate 86 'A'), [], .v1⟩).1.length) = (1, 0) := by
  decide +kernel

end Verif.Prs
