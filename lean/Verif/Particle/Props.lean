import Verif.Particle.LemmasRound
import Verif.Particle.Samples
/-
Descriptors of decay trees.
-/
namespace AmpGen.Particle
open AmpGen.Strings AmpGen.PDG AmpGen.PDG.Spec AmpGen.Particle.Spec

variable {K : Type} [Field K] [LinearOrder K]

/-! ### Splitting -/

/-- **C20**: a text `head{item,…,item}` with correctly nested brackets is split into the head and the items, for every nesting; a text without brackets is one item. The same holds for `head[item;…;item]`. -/
theorem items_split (o c sep : Char) (hoc : o ≠ c) (hso : sep ≠ o) (hsc : sep ≠ c) (h : Str) (items : List Str) (hh : NoneOf [o, c, sep] h) (hne : items ≠ []) (hi : ∀ i ∈ items, Shape o c sep i) :
    getItems (h ++ o :: ([sep].intercalate items ++ [c])) o c sep = some (h :: items) ∧ getItems h o c sep = some [h] :=
  ⟨getItems_node hoc hso hsc h items hh hne hi, getItems_atom h (fun hx => hh _ hx (by simp)) (fun hx => hh _ hx (by simp))⟩

/-- Two levels of nesting. -/
example : getItems "D0{K*(892)bar0{K-,pi+},rho(770)0{pi+,pi-}}".toList '{' '}' ',' = some ["D0".toList, "K*(892)bar0{K-,pi+}".toList, "rho(770)0{pi+,pi-}".toList] := by decide +kernel

/-! ### The constructor ends -/

/-- **C20**: the constructor from a descriptor ends for every text: a larger depth of the recursion does not change the result. -/
theorem constructor_terminates (env : Env K) (s : Str) (n : Nat) (hn : s.length < n) : env.construct n s = env.ofDescriptor s := by
  unfold Env.ofDescriptor
  induction n with
  | zero => omega
  | succ n ih =>
    by_cases h : s.length < n
    · rw [← construct_depth env n s h]; exact ih h
    · have : s.length = n := by omega
      rw [this]

/-! ### The round trip -/

/-- **C20 (partial)**: the descriptor of a tree that was constructed from some text gives back the same tree, which has the same descriptor. This holds where the database is consistent for the names that occur, and the
modifiers can be written again: no structural characters, settings with an equals sign are no lineshapes, and a named vertex without an explicit orbital state. See the counterexamples for the last two. -/
theorem descriptor_round_trip_partial (env : Env K) (he : Unambiguous env) (s : Str) (t : Tree K) (r : Str) (ht : env.ofDescriptor s = some t)
    (hc : ∀ d, Has t d → Consistent env.db d.name ∧ Writable env d) (hr : t.uniqueString = some r) :
    ∃ t', env.ofDescriptor r = some t' ∧ Same t t' ∧ t'.uniqueString = some r := by
  unfold Env.ofDescriptor at ht
  have hprinted := construct_printed env he _ s t ht hc
  refine ⟨t.norm, ?_, same_norm env t hprinted ⟨r, hr⟩, uniqueString_norm env t r hprinted hr⟩
  have h1 := (construct_print env he _ s t r ht hc hr).1
  have h2 := construct_mono_le env (Nat.le_max_left (s.length + 1) (r.length + 1)) r _ h1
  rw [← constructor_terminates env r (max (s.length + 1) (r.length + 1)) (by have := Nat.le_max_right (s.length + 1) (r.length + 1); omega)]
  exact h2

/-- A tree with an orbital state, a lineshape, a flag and a setting, whose daughters are not given in order. -/
example : ∃ t r, sample "D0[D;NoSym]{rho(770)0[GounarisSakurai]{pi+,pi-},K*(892)bar0[LASS.x;BgSpin0]{pi+,K-}}" = some t ∧
    (∀ d, Has t d → Consistent sampleEnv.db d.name ∧ Writable sampleEnv d) ∧ t.uniqueString = some r ∧
    r = "D0[D;NoSym]{K*(892)bar0[LASS.x;BgSpin0]{K-,pi+},rho(770)0[GounarisSakurai]{pi+,pi-}}".toList := by
  have h : (match sample "D0[D;NoSym]{rho(770)0[GounarisSakurai]{pi+,pi-},K*(892)bar0[LASS.x;BgSpin0]{pi+,K-}}" with
      | some t => t.nodes.all (fun d => isConsistent sampleEnv.db d.name && isWritable sampleEnv d) &&
        decide (t.uniqueString = some "D0[D;NoSym]{K*(892)bar0[LASS.x;BgSpin0]{K-,pi+},rho(770)0[GounarisSakurai]{pi+,pi-}}".toList)
      | none => false) = true := by decide +kernel
  split at h
  · rename_i t ht
    rw [Bool.and_eq_true, List.all_eq_true] at h
    refine ⟨t, _, ht, ?_, of_decide_eq_true h.2, rfl⟩
    intro d hd
    have := h.1 d (has_nodes t d hd)
    rw [Bool.and_eq_true] at this
    exact ⟨isConsistent_spec this.1, isWritable_spec this.2⟩
  · simp at h

/-- **C20**, counterexample: with a named vertex and an explicit orbital state the vertex is printed in place of the orbital state, which is lost when the descriptor is read. -/
theorem descriptor_round_trip_counterexample : ∃ t r t', sample "D0[D;vertex=V]{K*(892)bar0{K-,pi+},rho(770)0{pi+,pi-}}" = some t ∧ t.uniqueString = some r ∧ sampleEnv.ofDescriptor r = some t' ∧
    t.data.orbital = 2 ∧ t'.data.orbital = 0 := by
  have h : (match sample "D0[D;vertex=V]{K*(892)bar0{K-,pi+},rho(770)0{pi+,pi-}}" with
      | some t => (match t.uniqueString with
        | some r => (match sampleEnv.ofDescriptor r with
          | some t' => decide (t.data.orbital = 2) && decide (t'.data.orbital = 0)
          | none => false)
        | none => false)
      | none => false) = true := by decide +kernel
  split at h
  · rename_i t ht
    split at h
    · rename_i r hr
      split at h
      · rename_i t' ht'
        rw [Bool.and_eq_true] at h
        exact ⟨t, r, t', ht, hr, ht', of_decide_eq_true h.1, of_decide_eq_true h.2⟩
      · simp at h
    · simp at h
  · simp at h

/-- **C20**, counterexample: a lineshape with an equals sign is printed as lineshape and as setting: the descriptor grows each time it is read. -/
theorem descriptor_growth_counterexample : ∃ t r t' r', sample "K*(892)0[GSpline.x=1]{K+,pi-}" = some t ∧ t.uniqueString = some r ∧ sampleEnv.ofDescriptor r = some t' ∧ t'.uniqueString = some r' ∧
    r.length < r'.length := by
  have h : (match sample "K*(892)0[GSpline.x=1]{K+,pi-}" with
      | some t => (match t.uniqueString with
        | some r => (match sampleEnv.ofDescriptor r with
          | some t' => (match t'.uniqueString with
            | some r' => decide (r.length < r'.length)
            | none => false)
          | none => false)
        | none => false)
      | none => false) = true := by decide +kernel
  split at h
  · rename_i t ht
    split at h
    · rename_i r hr
      split at h
      · rename_i t' ht'
        split at h
        · rename_i r' hr'
          exact ⟨t, r, t', r', ht, hr, ht', hr', of_decide_eq_true h⟩
        · simp at h
      · simp at h
    · simp at h
  · simp at h

end AmpGen.Particle
