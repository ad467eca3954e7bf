import Verif.Helicity.LemmasCache
/-
The index strings of a decay are different if the indices have one digit.
-/
namespace AmpGen.Helicity
open Spec

/-- The digits of a string. -/
def digits (s : String) : List Char := s.toList.filter Char.isDigit

theorem digits_append (a b : String) : digits (a ++ b) = digits a ++ digits b := by simp [digits]

theorem digits_brace (a : String) : digits ("{" ++ a ++ "}") = digits a := by
  rw [digits_append, digits_append]
  have h1 : digits "{" = [] := by decide
  have h2 : digits "}" = [] := by decide
  rw [h1, h2, List.nil_append, List.append_nil]

theorem digits_index : ∀ i < 10, digits (toString i) = [Nat.digitChar i] := by decide

theorem digitChar_inj : ∀ i < 10, ∀ j < 10, Nat.digitChar i = Nat.digitChar j → i = j := by decide

/-- The digits of the index string are the indices. -/
theorem digits_key : ∀ t : Particle, Binary t → (∀ i ∈ leaves t, i < 10) → digits t.key = (leaves t).map Nat.digitChar
  | .stable .., _, h => by
    simp only [Particle.key, leaves] at *
    exact digits_index _ (h _ (by simp))
  | .one _ d, hb, h => by
    simp only [Particle.key, leaves]
    rw [digits_brace]
    exact digits_key d hb h
  | .two _ _ _ _ d1 d2, hb, h => by
    simp only [Particle.key, leaves, List.mem_append] at *
    rw [show "{" ++ d1.key ++ d2.key ++ "}" = "{" ++ (d1.key ++ d2.key) ++ "}" by simp only [String.append_assoc], digits_brace, digits_append, digits_key d1 hb.1 fun i hi => h i (Or.inl hi), digits_key d2 hb.2 fun i hi => h i (Or.inr hi), List.map_append]
  | .many .., hb, _ => hb.elim

theorem leaves_ne_nil : ∀ t : Particle, Binary t → leaves t ≠ []
  | .stable .., _ => by simp [leaves]
  | .one _ d, hb => leaves_ne_nil d hb
  | .two _ _ _ _ d1 d2, hb => by
    have := leaves_ne_nil d1 hb.1
    simp [leaves, this]
  | .many .., hb => hb.elim

/-- The digits of the index strings of the particles in a decay. -/
theorem keys_digits : ∀ t : Particle, Binary t → (∀ i ∈ leaves t, i < 10) → ∀ k ∈ keys t, ∃ l, l ≠ [] ∧ l.length ≤ (leaves t).length ∧ (∀ i ∈ l, i ∈ leaves t) ∧
    digits k = l.map Nat.digitChar
  | .stable pr i pol p, hb, h, k, hk => by
    simp only [keys, List.mem_singleton] at hk
    subst hk
    exact ⟨_, leaves_ne_nil _ hb, le_rfl, fun i hi => hi, digits_key _ hb h⟩
  | .one _ d, hb, h, k, hk => keys_digits d hb h k hk
  | .two pr L S ha d1 d2, hb, h, k, hk => by
    simp only [keys, List.mem_cons, List.mem_append] at hk
    rcases hk with hk | hk | hk
    · subst hk
      exact ⟨_, leaves_ne_nil _ hb, le_rfl, fun i hi => hi, digits_key _ hb h⟩
    · obtain ⟨l, l1, l2, l3, l4⟩ := keys_digits d1 hb.1 (fun i hi => h i (by simp [leaves, hi])) k hk
      exact ⟨l, l1, by simp only [leaves, List.length_append]; omega, fun i hi => by simp [leaves, l3 i hi], l4⟩
    · obtain ⟨l, l1, l2, l3, l4⟩ := keys_digits d2 hb.2 (fun i hi => h i (by simp [leaves, hi])) k hk
      exact ⟨l, l1, by simp only [leaves, List.length_append]; omega, fun i hi => by simp [leaves, l3 i hi], l4⟩
  | .many .., hb, _, _, _ => hb.elim

theorem keys_nodup : ∀ t : Particle, Binary t → (leaves t).Nodup → (∀ i ∈ leaves t, i < 10) → (keys t).Nodup
  | .stable .., _, _, _ => by simp [keys]
  | .one _ d, hb, hn, h => keys_nodup d hb hn h
  | .two pr L S ha d1 d2, hb, hn, h => by
    have h1 : ∀ i ∈ leaves d1, i < 10 := fun i hi => h i (by simp [leaves, hi])
    have h2 : ∀ i ∈ leaves d2, i < 10 := fun i hi => h i (by simp [leaves, hi])
    have hn' : (leaves d1).Nodup ∧ (leaves d2).Nodup ∧ ∀ a ∈ leaves d1, ∀ b ∈ leaves d2, a ≠ b := by simpa [leaves, List.nodup_append] using hn
    obtain ⟨n1, n2, n3⟩ := hn'
    have hk := congrArg List.length (digits_key (.two pr L S ha d1 d2) hb h)
    simp only [leaves, List.length_map, List.length_append] at hk
    have p1 := List.length_pos_iff.2 (leaves_ne_nil d1 hb.1)
    have p2 := List.length_pos_iff.2 (leaves_ne_nil d2 hb.2)
    simp only [keys, List.nodup_cons, List.mem_append, not_or, List.nodup_append]
    refine ⟨⟨fun hm => ?_, fun hm => ?_⟩, keys_nodup d1 hb.1 n1 h1, keys_nodup d2 hb.2 n2 h2, ?_⟩
    · obtain ⟨l, l1, l2, l3, l4⟩ := keys_digits d1 hb.1 h1 _ hm
      have := congrArg List.length l4
      rw [List.length_map] at this
      omega
    · obtain ⟨l, l1, l2, l3, l4⟩ := keys_digits d2 hb.2 h2 _ hm
      have := congrArg List.length l4
      rw [List.length_map] at this
      omega
    · rintro a ha' b hb' rfl
      obtain ⟨l, l1, l2, l3, l4⟩ := keys_digits d1 hb.1 h1 _ ha'
      obtain ⟨l', l1', l2', l3', l4'⟩ := keys_digits d2 hb.2 h2 _ hb'
      obtain ⟨i, hi⟩ := List.exists_mem_of_ne_nil l l1
      have : Nat.digitChar i ∈ l'.map Nat.digitChar := by
        rw [← l4', l4]
        exact List.mem_map_of_mem hi
      obtain ⟨j, hj, hij⟩ := List.mem_map.1 this
      exact n3 i (l3 i hi) j (l3' j hj) (digitChar_inj j (h2 j (l3' j hj)) i (h1 i (l3 i hi)) hij).symm
  | .many .., _, _, _ => by simp [keys]

/-- The amplitude of the head of a decay. -/
theorem amplitude_value (cfg : Config) {t : Particle} (hb : Binary t) (hn : (leaves t).Nodup) (h : ∀ i ∈ leaves t, i < 10) (Mz : ℝ) :
    amplitude cfg t Mz = value cfg t (frame cfg true t (some .empty) 1) Mz :=
  (cached_run cfg t true _ Mz 1 [] (keys_nodup t hb hn h) (agrees_nil cfg true t _ 1)).1

end AmpGen.Helicity
