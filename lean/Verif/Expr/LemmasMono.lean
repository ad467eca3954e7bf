import Verif.Expr.Spec
/-
A larger budget does not change a result that has been obtained.
-/
namespace AmpGen.Expr

variable {K : Type} [Field K]

theorem mul_group_mono (T : Tests K) : ∀ n : Nat,
    (∀ c e e', simplifyMul T n c e = some e' → simplifyMul T (n + 1) c e = some e') ∧
    (∀ A B e', mulF T n A B = some e' → mulF T (n + 1) A B = some e') ∧
    (∀ A B e', divF T n A B = some e' → divF T (n + 1) A B = some e')
  | 0 => by
    refine ⟨?_, ?_, ?_⟩
    · intro c e e' h; simp [simplifyMul] at h
    · intro A B e' h; simp [mulF] at h
    · intro A B e' h; simp [divF] at h
  | n + 1 => by
    obtain ⟨ihs, ihm, ihd⟩ := mul_group_mono T n
    refine ⟨?_, ?_, ?_⟩
    · intro c e e' h
      unfold simplifyMul at h ⊢
      split at h
      · exact h
      · split at h
        · rename_i h1; simp only [h1, if_true]; exact h
        · rename_i h1
          split at h
          · rename_i h2; simp only [h1, h2, if_true]; exact h
          · rename_i h2
            simp only [h1, h2]
            split at h
            · obtain ⟨X, hX, hY⟩ := Option.bind_eq_some_iff.mp h
              exact Option.bind_eq_some_iff.mpr ⟨X, ihs _ _ _ hX, ihm _ _ _ hY⟩
            · exact h
    · intro A B e' h
      unfold mulF at h ⊢
      split at h
      · exact ihs _ _ _ h
      · exact ihs _ _ _ h
      · obtain ⟨X, hX, hY⟩ := Option.bind_eq_some_iff.mp h
        exact Option.bind_eq_some_iff.mpr ⟨X, ihm _ _ _ hX, ihd _ _ _ hY⟩
      · obtain ⟨X, hX, hY⟩ := Option.bind_eq_some_iff.mp h
        exact Option.bind_eq_some_iff.mpr ⟨X, ihm _ _ _ hX, ihd _ _ _ hY⟩
      · exact h
    · intro A B e' h
      unfold divF at h ⊢
      split at h
      · rename_i h1; simp only [h1, if_true]; exact h
      · rename_i h1
        simp only [h1]
        split at h
        · split at h
          · rename_i h2; simp only [h2, if_true]; exact h
          · rename_i h2; simp only [h2]; exact ihm _ _ _ h
        · obtain ⟨X, hX, hY⟩ := Option.bind_eq_some_iff.mp h
          exact Option.bind_eq_some_iff.mpr ⟨X, ihm _ _ _ hX, ihd _ _ _ hY⟩
        · obtain ⟨X, hX, hY⟩ := Option.bind_eq_some_iff.mp h
          exact Option.bind_eq_some_iff.mpr ⟨X, ihm _ _ _ hX, ihd _ _ _ hY⟩
        · obtain ⟨X, hX, hY⟩ := Option.bind_eq_some_iff.mp h
          exact Option.bind_eq_some_iff.mpr ⟨X, ihm _ _ _ hX, ihd _ _ _ hY⟩
        · exact h

theorem mono_le {α : Type} {f : Nat → Option α} (h1 : ∀ n e, f n = some e → f (n + 1) = some e)
    {n m : Nat} (hnm : n ≤ m) {e : α} (h : f n = some e) : f m = some e := by
  induction hnm with
  | refl => exact h
  | step _ ih => exact h1 _ _ ih

theorem mulF_mono {T : Tests K} {A B e : Ex K} (n : Nat) (h : mulF T n A B = some e) :
    mulF T (n + 1) A B = some e := (mul_group_mono T n).2.1 _ _ _ h

theorem divF_mono {T : Tests K} {A B e : Ex K} (n : Nat) (h : divF T n A B = some e) :
    divF T (n + 1) A B = some e := (mul_group_mono T n).2.2 _ _ _ h

theorem subF_mono {T : Tests K} {A B e : Ex K} (n : Nat) (h : subF T n A B = some e) :
    subF T (n + 1) A B = some e := by
  unfold subF at h ⊢
  split at h
  · split at h
    · rename_i h1; simp only [h1, if_true]; exact mulF_mono n h
    · rename_i h1; simp only [h1]; exact h
  · split at h
    · rename_i h1; simp only [h1, if_true]; exact mulF_mono n h
    · rename_i h1; simp only [h1]; exact h
  · exact h
  · exact h

theorem prodAdd_mono {T : Tests K} {l r B e : Ex K} (n : Nat)
    (h : simplifyProdAdd T n l r B = some e) : simplifyProdAdd T (n + 1) l r B = some e := by
  unfold simplifyProdAdd at h ⊢
  split at h
  · split at h
    · rename_i h1; simp only [h1, if_true]
      obtain ⟨X, hX, hY⟩ := Option.bind_eq_some_iff.mp h
      exact Option.bind_eq_some_iff.mpr ⟨X, mulF_mono n hX, subF_mono n hY⟩
    · rename_i h1; simp only [h1]; exact h
  · exact h

theorem add_group_mono (T : Tests K) : ∀ n : Nat,
    (∀ c e e', simplifyAdd T n c e = some e' → simplifyAdd T (n + 1) c e = some e') ∧
    (∀ A B e', addF T n A B = some e' → addF T (n + 1) A B = some e')
  | 0 => by
    refine ⟨?_, ?_⟩
    · intro c e e' h; simp [simplifyAdd] at h
    · intro A B e' h; simp [addF] at h
  | n + 1 => by
    obtain ⟨ihs, iha⟩ := add_group_mono T n
    refine ⟨?_, ?_⟩
    · intro c e e' h
      unfold simplifyAdd at h ⊢
      split at h
      · rename_i h1; simp only [h1, if_true]; exact h
      · rename_i h1
        simp only [h1]
        split at h
        · exact h
        · obtain ⟨X, hX, hY⟩ := Option.bind_eq_some_iff.mp h
          exact Option.bind_eq_some_iff.mpr ⟨X, ihs _ _ _ hX, iha _ _ _ hY⟩
        · exact h
    · intro A B e' h
      unfold addF at h ⊢
      split at h
      · exact ihs _ _ _ h
      · exact ihs _ _ _ h
      · exact prodAdd_mono n h
      · exact prodAdd_mono n h
      · exact h

theorem addF_mono {T : Tests K} {A B e : Ex K} (n : Nat) (h : addF T n A B = some e) :
    addF T (n + 1) A B = some e := (add_group_mono T n).2 _ _ _ h

end AmpGen.Expr
