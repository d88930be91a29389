import Verif.Krm.Spec

/-! # What it means that a message is from its sender -/

namespace Verif.Krm

open Verif.Kel (Id Dig Sig)

/-- A seal of the message is in an event of the sender. -/
def Sealed (env : Env) (m : Msg) (kwa : Kwa) : Prop :=
  ∃ sn dig, ((sn, dig) ∈ kwa.sscs ∨ (m.sender, sn, dig) ∈ kwa.ssts) ∧ env.kels m.sender sn = some dig ∧ ∃ ds, env.seals m.sender dig = some ds ∧ m.said ∈ ds

/-- The sender is a key and has signed. -/
def OwnSig (env : Env) (m : Msg) (kwa : Kwa) : Prop := ∃ c ∈ kwa.cigars, c.1 = m.sender ∧ env.transferable c.1 = false ∧ env.verify c.1 c.2 m = true

/-- The signature is one of a key of the key state. -/
def Good (env : Env) (ks : Ks) (m : Msg) (s : Sig) : Prop := ∃ key, ks.keys[s.index]? = some key ∧ env.verify key s.raw m = true

/-- The signature is attached as one made with the key state of the sender. -/
def Attached (ks : Ks) (m : Msg) (kwa : Kwa) (s : Sig) : Prop :=
  s ∈ kwa.sigers ∨ (∃ l ∈ kwa.lsgs, l.1 = m.sender ∧ s ∈ l.2) ∨ ∃ t ∈ kwa.tsgs, t.1 = m.sender ∧ t.2.1 = ks.sn ∧ t.2.2.1 = ks.said ∧ s ∈ t.2.2.2

/-- The signature came with the message at some time, when the key state was the same. -/
def Sent (past : List (Env × Int × Msg × Kwa)) (ks : Ks) (m : Msg) (s : Sig) : Prop :=
  ∃ x ∈ past, x.2.2.1 = m ∧ ∃ ks', x.1.kevers m.sender = some ks' ∧ (ks'.sn, ks'.said) = (ks.sn, ks.said) ∧ Attached ks' m x.2.2.2 s ∧ Good x.1 ks' m s

/-- Digests bind messages. -/
def BindsAll (l : List Step) : Prop := ∀ x ∈ delivered l, ∀ y ∈ delivered l, x.2.2.1.sender = y.2.2.1.sender → x.2.2.1.said = y.2.2.1.said → x.2.2.1 = y.2.2.1

/-- The message is authentic. -/
def Authentic (past : List (Env × Int × Msg × Kwa)) (env : Env) (m : Msg) (kwa : Kwa) : Prop :=
  Sealed env m kwa ∨ OwnSig env m kwa ∨ ∃ ks, env.kevers m.sender = some ks ∧
    ((ks.keys.length = 1 ∧ ∃ s, Attached ks m kwa s ∧ Good env ks m s) ∨
      ∃ ss : List Sig, (∀ s ∈ ss, Sent past ks m s) ∧ Verif.Thold.satisfy ks.kt (ss.map Sig.index) = true)

end Verif.Krm
