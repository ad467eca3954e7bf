import Verif.Container.Lemmas
/-
C49: loops over dynamically filled containers.
-/
namespace AmpGen.Container
variable {σ α : Type}

/-- C49.  For every generator of blocks of `B` elements, every `B` above zero and every declared size `N`: the first loop over a container visits the first `N`
elements that are generated, in order, and the generator is called as often as blocks are needed.

Missing: later loops, blocks of different sizes and iterators that are constant, see the counterexamples. -/
theorem container_visits_partial (gen : σ → List α × σ) {B : Nat} (hB : ∀ s, (gen s).1.length = B) (hpos : 0 < B) (N : Nat) (s : σ) :
    ∃ c, (Container.make gen N s).visit gen = some ((blocks gen N s).take N, c) ∧ c.state = after gen ((N - 1) / B + 1) s := by
  rcases Nat.eq_zero_or_pos N with rfl | hN
  · refine ⟨_, rfl, ?_⟩
    simp [Container.make, Container.refresh, after]
  · obtain ⟨c, h1, _, _, h4⟩ := loop_spec hB hpos (N := N) N s 0 0 hpos (by omega) hN
    refine ⟨c, ?_, by rw [h4, Nat.zero_add]⟩
    unfold Container.visit Container.make Container.refresh
    simp only
    simp only [Nat.zero_mul, Nat.zero_add, List.drop_zero] at h1
    exact h1

/-- Blocks of two consecutive numbers. -/
def pairs (n : Nat) : List Nat × Nat := ([2 * n, 2 * n + 1], n + 1)

example : ∃ c, (Container.make pairs 5 0).visit pairs = some ([0, 1, 2, 3, 4], c) ∧ c.state = 3 :=
  container_visits_partial pairs (B := 2) (fun _ => rfl) (by decide) 5 0

/-- C49 is false for a second loop: it begins with the last block of the first, so that some elements are visited twice. -/
theorem container_second_loop_counterexample : ∃ c c', (Container.make pairs 4 0).visit pairs = some ([0, 1, 2, 3], c) ∧ c.visit pairs = some ([2, 3, 4, 5], c') :=
  ⟨_, _, rfl, rfl⟩

/-- Blocks of `n + 2` consecutive numbers. -/
def growing (s : Nat × Nat) : List Nat × (Nat × Nat) := ((List.range (s.1 + 2)).map (s.2 + ·), (s.1 + 1, s.2 + s.1 + 2))

/-- C49 is false for blocks of different sizes: elements are left out. -/
theorem container_block_size_counterexample : ∃ c, (Container.make growing 5 (0, 0)).visit growing = some ([0, 1, 4, 8, 13], c) :=
  ⟨_, rfl⟩

/-- C49 is false for the increment of a constant iterator: with blocks of two or more elements it never refills the buffer, and the first block is visited
again and again. -/
theorem container_const_iterator_counterexample (gen : σ → List α × σ) (c : Container σ α) (h : 2 ≤ c.buffer.length) (pos : Nat) :
    c.constNext gen pos = some (c, pos + 1) := by
  unfold Container.constNext
  rw [if_neg (by omega), Nat.mod_eq_of_lt h, if_neg (by omega)]

example : (Container.loop (Container.constNext pairs) 4 (Container.make pairs 4 0) 0).map (·.1) = some [0, 1, 0, 1] := rfl

end AmpGen.Container
