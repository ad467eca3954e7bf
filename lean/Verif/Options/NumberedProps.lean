import Verif.Options.NumberedModel
import Mathlib.Data.Set.Finite.Basic
import Mathlib.Data.Set.Finite.Lattice
import Mathlib.Data.Fintype.EquivFin
/-
C171: the values of numbered options.
-/
namespace AmpGen.Options
open AmpGen.Strings (Str)

/-! ### The value of one option, from what the user wrote -/

/-- What the user gave to an option: nothing, or a first word that reads as a value or does not. -/
inductive Given (cast : Str → Option T) (zero : T) (p : Parser) (name : Str) (dflt : T) : T → Prop
  | unset : p.parsed name = none → Given cast zero p name dflt dflt
  | bare : p.parsed name = some [name] → Given cast zero p name dflt dflt
  | word {w : Str} {ws : List Str} {v : T} : p.parsed name = some (name :: w :: ws) → cast w = some v → Given cast zero p name dflt v
  | unread {w : Str} {ws : List Str} : p.parsed name = some (name :: w :: ws) → cast w = none → Given cast zero p name dflt zero

theorem namedValue_given {T : Type} {cast : Str → Option T} {zero : T} {p : Parser} {name : Str} {dflt v : T} (h : Given cast zero p name dflt v) :
    namedValue cast zero p name dflt = some v := by
  cases h with
  | unset h => simp [namedValue, namedParameter, Parser.find, h]
  | bare h => simp [namedValue, namedParameter, Parser.find, h]
  | @word w ws v h hc =>
    have : ¬ ws.length + 1 + 1 < 2 := by omega
    simp [namedValue, namedParameter, Parser.find, h, hc, this]
  | @unread w ws h hc =>
    have : ¬ ws.length + 1 + 1 < 2 := by omega
    simp [namedValue, namedParameter, Parser.find, h, hc, this]

theorem vectorLoop_run {T : Type} [DecidableEq T] {cast : Str → Option T} {zero dflt : T} {p : Parser} {name : Str} : ∀ (vs : List T) (x fuel : Nat) (out : List T),
    (∀ i (h : i < vs.length), Given cast zero p (name ++ Nat.toDigits 10 (x + i)) dflt vs[i] ∧ vs[i] ≠ dflt) →
    Given cast zero p (name ++ Nat.toDigits 10 (x + vs.length)) dflt dflt → vs.length < fuel →
    vectorLoop cast zero p name dflt fuel x out = some (out ++ (vs ++ [dflt]).filter fun v => v ≠ zero)
  | [], x, fuel, out, _, hd, hf => by
    obtain ⟨f, rfl⟩ : ∃ f, fuel = f + 1 := ⟨fuel - 1, by simp at hf; omega⟩
    have := namedValue_given hd
    simp only [List.length_nil, Nat.add_zero] at this
    simp only [vectorLoop, numberedName, this]
    by_cases hz : dflt = zero <;> simp [hz]
  | v :: vs, x, fuel, out, hv, hd, hf => by
    obtain ⟨f, rfl⟩ : ∃ f, fuel = f + 1 := ⟨fuel - 1, by simp at hf; omega⟩
    have h0 := hv 0 (by simp)
    have h1 := namedValue_given h0.1
    simp only [Nat.add_zero, List.getElem_cons_zero] at h1 h0
    have ih := vectorLoop_run vs (x + 1) f (if v ≠ zero then out ++ [v] else out) (fun i hi => by
      have := hv (i + 1) (by simpa using hi)
      simpa [Nat.add_assoc, Nat.add_comm 1 i] using this) (by
      simpa [Nat.add_assoc, Nat.add_comm 1] using hd) (by simpa using hf)
    simp only [vectorLoop, numberedName, h1]
    rw [if_pos h0.2, ih]
    by_cases hz : v = zero <;> simp [hz]

/-! ### The property -/

/-- C171 (partial).  If the options `name0`, `name1`, … up to a number have the values `vs`, none of them the default, and the next one is not set, is
set without a value or is set to the default, then the values read are `vs` in order without those equal to the value-initialised one, **provided the
default is the value-initialised value**.  Missing: other defaults, see `numbered_options_default` and `numbered_options_counterexample`. -/
theorem numbered_options_partial {T : Type} [DecidableEq T] {cast : Str → Option T} {zero : T} {p : Parser} {name : Str} {vs : List T}
    (hv : ∀ i (h : i < vs.length), Given cast zero p (name ++ Nat.toDigits 10 i) zero vs[i] ∧ vs[i] ≠ zero)
    (hd : Given cast zero p (name ++ Nat.toDigits 10 vs.length) zero zero) {fuel : Nat} (hf : vs.length < fuel) :
    getVectorArgument cast zero p name zero fuel = some vs := by
  rw [getVectorArgument, vectorLoop_run vs 0 fuel [] (by simpa using hv) (by simpa using hd) hf]
  have : ∀ v ∈ vs, v ≠ zero := fun v h => by
    obtain ⟨i, hi, rfl⟩ := List.getElem_of_mem h
    exact (hv i hi).2
  simp [List.filter_append]
  exact fun v h => this v h

/-- C171, any default.  The values read are those before the first option that has the default, with the default after them, and in both the
value-initialised ones left out. -/
theorem numbered_options_default {T : Type} [DecidableEq T] {cast : Str → Option T} {zero dflt : T} {p : Parser} {name : Str} {vs : List T}
    (hv : ∀ i (h : i < vs.length), Given cast zero p (name ++ Nat.toDigits 10 i) dflt vs[i] ∧ vs[i] ≠ dflt)
    (hd : Given cast zero p (name ++ Nat.toDigits 10 vs.length) dflt dflt) {fuel : Nat} (hf : vs.length < fuel) :
    getVectorArgument cast zero p name dflt fuel = some ((vs ++ [dflt]).filter fun v => v ≠ zero) := by
  rw [getVectorArgument, vectorLoop_run vs 0 fuel [] (by simpa using hv) (by simpa using hd) hf]
  rfl

theorem toDigits_injective {a b : Nat} (h : Nat.toDigits 10 a = Nat.toDigits 10 b) : a = b := by
  have := congrArg (fun l => Nat.ofDigitChars 10 l 0) h
  simpa [Nat.ofDigitChars_ten_toDigits] using this

/-- The options a parser holds are lines that begin with their name. -/
theorem given_exists {T : Type} (cast : Str → Option T) (zero : T) {p : Parser} (hk : ∀ k l, p.parsed k = some l → l.head? = some k) (name : Str) (dflt : T) :
    ∃ v, Given cast zero p name dflt v := by
  cases h : p.parsed name with
  | none => exact ⟨_, .unset h⟩
  | some l =>
    have := hk _ _ h
    match l, this with
    | [k], hk => obtain rfl : k = name := by simpa using hk
                 exact ⟨_, .bare h⟩
    | k :: w :: ws, hk =>
      obtain rfl : k = name := by simpa using hk
      cases hc : cast w with
      | none => exact ⟨_, .unread h hc⟩
      | some v => exact ⟨_, .word h hc⟩

/-- C171, the loop ends.  With finitely many options set, whatever their values, the reading ends after some number of turns with an answer, and any
larger allowance of turns gives the same answer. -/
theorem numbered_options_end {T : Type} [DecidableEq T] (cast : Str → Option T) (zero dflt : T) (p : Parser) (name : Str)
    (hk : ∀ k l, p.parsed k = some l → l.head? = some k) (hfin : {k | p.parsed k ≠ none}.Finite) :
    ∃ n out, ∀ fuel, n ≤ fuel → getVectorArgument cast zero p name dflt fuel = some out := by
  classical
  choose val hval using fun i : Nat => given_exists cast zero hk (name ++ Nat.toDigits 10 i) dflt
  have hex : ∃ i, val i = dflt := by
    by_contra hne
    push Not at hne
    refine (Set.infinite_of_injective_forall_mem (f := fun i : Nat => name ++ Nat.toDigits 10 i) ?_ ?_) hfin
    · intro a b h
      exact toDigits_injective (List.append_cancel_left h)
    · intro i h
      have := namedValue_given (hval i)
      have h' := namedValue_given (cast := cast) (zero := zero) (dflt := dflt) (Given.unset h)
      rw [this] at h'
      exact hne i (by simpa using h')
  let n := Nat.find hex
  have hn : val n = dflt := Nat.find_spec hex
  refine ⟨n + 1, _, fun fuel hf => numbered_options_default (vs := (List.range n).map val) ?_ ?_ (by simpa using Nat.lt_of_succ_le hf)⟩
  · intro i hi
    have hi' : i < n := by simpa using hi
    simp only [List.getElem_map, List.getElem_range]
    exact ⟨hval i, Nat.find_min hex hi'⟩
  · have := hval n
    rw [hn] at this
    simpa using this

/-- Two numbered options, `f0 a` and `f1 b`. -/
def twoFiles : Parser :=
  ⟨fun k => if k = "f0".toList then some ["f0".toList, "a".toList] else if k = "f1".toList then some ["f1".toList, "b".toList] else none, ["f0".toList, "f1".toList]⟩

example : getVectorArgument some [] twoFiles "f".toList [] 3 = some ["a".toList, "b".toList] := by
  refine numbered_options_partial (fun i hi => ?_) ?_ (by decide)
  · match i, hi with
    | 0, _ => exact ⟨.word (w := "a".toList) (ws := []) (by decide) rfl, by simp⟩
    | 1, _ => exact ⟨.word (w := "b".toList) (ws := []) (by decide) rfl, by simp⟩
  · exact .unset (by decide)

example : ∃ n out, ∀ fuel, n ≤ fuel → getVectorArgument some [] twoFiles "f".toList "z".toList fuel = some out := by
  refine numbered_options_end some [] _ twoFiles _ ?_ ?_
  · intro k l h
    simp only [twoFiles] at h
    split at h
    · rename_i hk; cases h; simp [hk]
    · split at h
      · rename_i hk; cases h; simp [hk]
      · cases h
  · refine Set.Finite.subset (Set.toFinite {"f0".toList, "f1".toList}) ?_
    intro k h
    simp only [twoFiles, Set.mem_setOf_eq] at h
    by_contra hn
    simp only [Set.mem_insert_iff, Set.mem_singleton_iff, not_or] at hn
    rw [if_neg hn.1, if_neg hn.2] at h
    exact h rfl

/-- C171, what goes wrong.  With a default that is not the empty word the default is returned after the options that were set; and an option set to
the default hides the ones after it. -/
theorem numbered_options_counterexample :
    getVectorArgument some [] twoFiles "f".toList "z".toList 3 = some ["a".toList, "b".toList, "z".toList] ∧
    getVectorArgument some [] twoFiles "f".toList "a".toList 3 = some ["a".toList] := by
  constructor <;> decide +kernel

end AmpGen.Options
