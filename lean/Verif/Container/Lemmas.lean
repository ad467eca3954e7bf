import Verif.Container.Spec
import Mathlib.Data.Nat.ModEq
import Mathlib.Data.List.Basic
/-
Lemmas about loops over containers.
-/
namespace AmpGen.Container
variable {σ α : Type} {gen : σ → List α × σ}

theorem blocks_length {B : Nat} (hB : ∀ s, (gen s).1.length = B) : ∀ n s, (blocks gen n s).length = n * B := by
  intro n
  induction n with
  | zero => intro s; simp [blocks]
  | succ n ih => intro s; rw [blocks, List.length_append, hB, ih, Nat.succ_mul, Nat.add_comm]

/-- Element `r` of the current block, block `q`, is visited at position `q * B + r`. -/
theorem loop_spec {B : Nat} (hB : ∀ s, (gen s).1.length = B) (hpos : 0 < B) {N : Nat} : ∀ (m : Nat) (s : σ) (q r : Nat), r < B → q * B + r + m = N → 0 < m →
    ∃ c, Container.loop (Container.next gen) m ⟨(gen s).1, N, (gen s).2⟩ (q * B + r) = some (((blocks gen (r + m) s).drop r).take m, c) ∧
      c.totalSize = N ∧ c.buffer = (gen (after gen ((r + m - 1) / B) s)).1 ∧ c.state = after gen ((r + m - 1) / B + 1) s := by
  intro m
  induction m with
  | zero => intro s q r _ _ h; omega
  | succ m ih =>
    intro s q r hr hN _
    have hlen : (gen s).1.length = B := hB s
    have hget : (⟨(gen s).1, N, (gen s).2⟩ : Container σ α).get (q * B + r) = some (gen s).1[r] := by
      unfold Container.get
      simp only [hlen]
      rw [if_neg (by omega), Nat.add_comm, Nat.add_mul_mod_self_right, Nat.mod_eq_of_lt hr, List.getElem?_eq_getElem (by omega)]
    rw [Container.loop, hget]
    simp only [Option.bind_eq_bind, Option.bind_some]
    have hdrop : ∀ k, ((blocks gen (r + (k + 1)) s).drop r).take (k + 1) = (gen s).1[r] :: ((blocks gen (r + (k + 1)) s).drop (r + 1)).take k := by
      intro k
      have hb : blocks gen (r + (k + 1)) s = (gen s).1 ++ blocks gen (r + k) (gen s).2 := by
        rw [← Nat.add_assoc, blocks]
      have hl : r < (blocks gen (r + (k + 1)) s).length := by rw [hb, List.length_append]; omega
      rw [List.drop_eq_getElem_cons hl, List.take_succ_cons]
      congr 1
      simp only [hb]
      rw [List.getElem_append_left]
    rcases Nat.lt_or_ge (r + 1) B with hr1 | hr1
    · -- within the block
      have hmod : (q * B + r + 1) % B = r + 1 := by
        rw [Nat.add_assoc, Nat.add_comm, Nat.add_mul_mod_self_right, Nat.mod_eq_of_lt hr1]
      have hnext : (⟨(gen s).1, N, (gen s).2⟩ : Container σ α).next gen (q * B + r) = some (⟨(gen s).1, N, (gen s).2⟩, q * B + (r + 1)) := by
        unfold Container.next
        simp only [hlen, hmod]
        rw [if_neg (by omega), if_neg (by omega)]
        rfl
      rw [hnext]
      simp only [Option.bind_some]
      rcases Nat.eq_zero_or_pos m with rfl | hm
      · refine ⟨⟨(gen s).1, N, (gen s).2⟩, ?_, rfl, ?_, ?_⟩
        · rw [Container.loop]
          simp only [Option.bind_some]
          rw [hdrop 0]
          rfl
        · simp only
          rw [show (r + (0 + 1) - 1) / B = 0 from Nat.div_eq_of_lt (by omega)]
          rfl
        · simp only
          rw [show (r + (0 + 1) - 1) / B = 0 from Nat.div_eq_of_lt (by omega)]
          rfl
      · obtain ⟨c, h1, h2, h3, h4⟩ := ih s q (r + 1) hr1 (by omega) hm
        refine ⟨c, ?_, h2, ?_, ?_⟩
        · rw [h1]
          simp only [Option.bind_some]
          rw [hdrop m, show r + (m + 1) = r + 1 + m by omega]
        · rw [h3, show r + (m + 1) - 1 = r + 1 + m - 1 by omega]
        · rw [h4, show r + (m + 1) - 1 = r + 1 + m - 1 by omega]
    · -- end of the block
      have hre : r + 1 = B := by omega
      have hmod : (q * B + r + 1) % B = 0 := by
        rw [Nat.add_assoc, hre, ← Nat.succ_mul]
        exact Nat.mul_mod_left _ _
      rcases Nat.eq_zero_or_pos m with rfl | hm
      · have hz : (q * B + r + 1) % N = 0 := by rw [show q * B + r + 1 = N by omega]; exact Nat.mod_self N
        have hnext : (⟨(gen s).1, N, (gen s).2⟩ : Container σ α).next gen (q * B + r) = some (⟨(gen s).1, N, (gen s).2⟩, q * B + r + 1) := by
          unfold Container.next
          simp only [hlen, hmod]
          rw [if_neg (by omega), if_pos trivial, if_neg (by omega), if_neg (by simpa using hz)]
        rw [hnext]
        simp only [Option.bind_some]
        refine ⟨⟨(gen s).1, N, (gen s).2⟩, ?_, rfl, ?_, ?_⟩
        · rw [Container.loop]
          simp only [Option.bind_some]
          rw [hdrop 0]
          rfl
        · simp only
          rw [show (r + (0 + 1) - 1) / B = 0 from Nat.div_eq_of_lt (by omega)]
          rfl
        · simp only
          rw [show (r + (0 + 1) - 1) / B = 0 from Nat.div_eq_of_lt (by omega)]
          rfl
      · have hz : (q * B + r + 1) % N ≠ 0 := by rw [Nat.mod_eq_of_lt (by omega)]; omega
        have hnext : (⟨(gen s).1, N, (gen s).2⟩ : Container σ α).next gen (q * B + r) = some (⟨(gen (gen s).2).1, N, (gen (gen s).2).2⟩, (q + 1) * B + 0) := by
          unfold Container.next
          simp only [hlen, hmod]
          rw [if_neg (by omega), if_pos trivial, if_neg (by omega), if_pos hz]
          unfold Container.refresh
          simp only [Option.some.injEq, Prod.mk.injEq, true_and]
          rw [Nat.succ_mul]
          omega
        rw [hnext]
        simp only [Option.bind_some]
        obtain ⟨c, h1, h2, h3, h4⟩ := ih (gen s).2 (q + 1) 0 hpos (by rw [Nat.succ_mul]; omega) hm
        have hdiv : (r + (m + 1) - 1) / B = (0 + m - 1) / B + 1 := by
          rw [show r + (m + 1) - 1 = (0 + m - 1) + B by omega, Nat.add_div_right _ hpos]
        refine ⟨c, ?_, h2, ?_, ?_⟩
        · rw [h1]
          simp only [Option.bind_some]
          have hd : ((gen s).1 ++ blocks gen (r + m) (gen s).2).drop (r + 1) = blocks gen (r + m) (gen s).2 := by
            rw [hre]
            have := List.drop_left (l₁ := (gen s).1) (l₂ := blocks gen (r + m) (gen s).2)
            rwa [hlen] at this
          rw [hdrop m, ← Nat.add_assoc, blocks, hd]
          rw [List.drop_zero, Nat.zero_add]
          congr 2
          -- the first m elements do not depend on how many blocks are appended
          have : ∀ (a b : Nat) (s : σ), m ≤ a → (blocks gen (a + b) s).take m = (blocks gen a s).take m := by
            intro a b s ha
            have happ : ∀ (a : Nat) (s : σ), blocks gen (a + b) s = blocks gen a s ++ blocks gen b (after gen a s) := by
              intro a
              induction a with
              | zero => intro s; simp [blocks, after]
              | succ a iha => intro s; rw [Nat.succ_add, blocks, iha, blocks, List.append_assoc]; rfl
            rw [happ, List.take_append_of_le_length]
            rw [blocks_length hB]
            calc m ≤ a := ha
              _ = a * 1 := (Nat.mul_one a).symm
              _ ≤ a * B := Nat.mul_le_mul_left a hpos
          rw [Nat.add_comm r m]
          exact congrArg (List.cons _) (this m r (gen s).2 le_rfl).symm
        · rw [h3, hdiv]
          rfl
        · rw [h4, hdiv]
          rfl

end AmpGen.Container
