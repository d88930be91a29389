import Verif.Krm.Waiting

/-! # C92: only authentic messages are handed on -/

namespace Verif.Krm

open Verif.Kel (Id Dig Sig)

/-- **C92.**  After every history, a message that is checked and handed on has a seal in an event of its sender, or a signature of the sender who is a key, or a signature of the
only key of the sender, or signatures that came with it (now or before, when the key state of the sender was the one it is now), each made by the key of the key
state it names, that together satisfy the signing threshold. -/
theorem c92_authentic {k : Krm} {l : List Step} {env : Env} {now : Int} {m : Msg} {kwa : Kwa} (hf : Fresh k) (hb : BindsAll (l ++ [.deliver env now m kwa]))
    (hg : Guards m (run k l)) (hp : handed (run k l) (.deliver env now m kwa) = some m) : Authentic (delivered (l ++ [.deliver env now m kwa])) env m kwa := by
  rw [delivered_append]
  have hB : Bound (delivered l ++ [(env, now, m, kwa)]) := by
    have : delivered (l ++ [.deliver env now m kwa]) = delivered l ++ [(env, now, m, kwa)] := delivered_append ..
    unfold BindsAll at hb
    rw [this] at hb
    exact hb
  show Authentic (delivered l ++ [(env, now, m, kwa)]) env m kwa
  obtain ⟨hW, hS⟩ := run_inv l [] k (fun x hx y hy => hB x (List.mem_append_left _ hx) y (List.mem_append_left _ hy)) (fresh_inv hf)
  rw [List.nil_append] at hW hS
  rw [handed_deliver] at hp
  have hp : isPass (deliver env now (run k l) m kwa).2 = true := by
    split at hp
    · assumption
    · simp at hp
  have hr := reconcile_held now (run k l)
  have hd : isPass (kramit env now (reconcile now (run k l)).1 m kwa).2 = true := by
    unfold deliver at hp
    generalize reconcile now (run k l) = e at *
    obtain ⟨k1, e⟩ := e
    cases e with
    | error e => exact absurd hp (by simp [isPass])
    | ok u =>
      have hp : isPass (intake env now k1 m kwa).2 = true := hp
      unfold intake at hp
      rw [hr.enabled, hg.1, hr.denials, hg.2] at hp
      simpa using hp
  have hs := kramit_sgn env now (reconcile now (run k l)).1 m kwa
  have hself : (env, now, m, kwa) ∈ delivered l ++ [(env, now, m, kwa)] := List.mem_append_right _ (List.mem_singleton.2 rfl)
  rw [hd] at hs
  generalize (kramit env now (reconcile now (run k l)).1 m kwa).1 = k' at hs
  have ht := hr.tables
  generalize (reconcile now (run k l)).1 = k1 at hs ht
  have hS := hS.tables ht
  cases hs with
  | pass _ _ _ h =>
    rcases h with h | h | ⟨ks, hk, h⟩
    · exact Or.inl (sealed_norm h)
    · exact Or.inr (Or.inl (ownSig_norm h))
    · refine Or.inr (Or.inr ⟨ks, hk, ?_⟩)
      rcases h with ⟨h1, s, h2, h3⟩ | ⟨vs, h1, _, h2⟩
      · exact Or.inl ⟨h1, s, attached_norm h2, h3⟩
      · exact Or.inr ⟨vs, fun s hs => ⟨_, hself, rfl, ks, hk, rfl, attached_norm (h1 s hs).1, (h1 s hs).2⟩, h2⟩
  | @more ks vs _ hk hgd _ _ hst _ _ h =>
    refine Or.inr (Or.inr ⟨ks, hk, Or.inr ⟨_, fun s hs => ?_, h rfl⟩⟩)
    rcases List.mem_append.1 hs with hs | hs
    · obtain ⟨v, hv, x, hx, h1, ks', h2, h3, h4, h5⟩ := hS _ s hs
      have he : x.2.2.1 = m := hB x (List.mem_append_left _ hx) _ hself (congrArg Prod.fst h1) (congrArg Prod.snd h1)
      rcases stale_false hst with h6 | h6
      · rw [h6] at hv; simp at hv
      · rw [h6] at hv
        injection hv with hv
        rw [he] at h4 h5
        exact ⟨x, List.mem_append_left _ hx, he, ks', h2, h3.trans hv.symm, h4, h5⟩
    · exact ⟨_, hself, rfl, ks, hk, rfl, attached_norm (hgd s hs).1, (hgd s hs).2⟩

end Verif.Krm
