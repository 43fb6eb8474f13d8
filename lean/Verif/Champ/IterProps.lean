import Verif.Champ.IterProofs

/-!
# Property theorem: iteration (C03)
-/

namespace Champ

variable {K T P : Type}

/-- **C03.** After any history, running the iterators from `begin()` until they equal `end()` takes
exactly `size()` increments, never leaves bounds, and yields a sequence `xs` such that
* `xs` is also the concatenation of the chunks passed to `for_each_chunk`,
* no key occurs twice in `xs`,
* lookup of `k` finds `x` iff `x` is in `xs` and its key equals `k`.
`fuel` bounds the `while` loops inside one increment: any bound above `maxDepth + 2` is enough. -/
theorem C03_iteration (A : Api K T P) (hA : A.Lawful) (ops : List (Op K T P)) (fuel : Nat)
    (hfuel : A.cfg.maxDepth + 2 < fuel) :
    ∃ m it xs, run A ops = some m ∧ Iter.begin A.cfg fuel m.root = some it ∧
      Iter.collect A.cfg fuel m.size it = some xs ∧
      xs.length = m.size ∧
      (∃ xss, m.chunks = some xss ∧ xss.flatten = xs) ∧
      xs.Pairwise (fun x y => A.cfg.eqv (A.cfg.key x) (A.cfg.key y) = false) ∧
      (∀ k x, Spec.run A ops k = some x ↔ x ∈ xs ∧ A.cfg.eqv (A.cfg.key x) k = true) ∧
      (∀ k x, m.get k = some (some x) ↔ x ∈ xs ∧ A.cfg.eqv (A.cfg.key x) k = true) := by
  have hc := hA.cfg
  obtain ⟨m, h1, h2, h3⟩ := run_spec hA ops
  obtain ⟨it, h4, h5⟩ := begin_spec hc hfuel h2
  refine ⟨m, it, m.els, h1, h4, ?_, h2.size.symm, ?_, h2.pairwise hc, ?_, ?_⟩
  · rw [h2.size]; exact h5.collect hfuel
  · obtain ⟨xss, h6, h7⟩ := chunks_spec h2.wf
    exact ⟨xss, h6, h7⟩
  · intro k x
    rw [← h3]; exact look_some_iff hc (h2.pairwise hc)
  · intro k x
    rw [Map.get_look hA h2, Option.some_inj]; exact look_some_iff hc (h2.pairwise hc)

/-- a concrete run over a map with a collision node -/
example : (do
    let m ← run exApi exOps
    let it ← Iter.begin exApi.cfg 35 m.root
    Iter.collect exApi.cfg 35 m.size it) = some [(2, 8), (27, 0), (11, 11)] := by decide +kernel

end Champ
