import Verif.Particle.AttributeModel
import Verif.Strings.Lemmas
/-
C173: the value a modifier gives to an attribute.
-/
namespace AmpGen.Particle.Attribute
open AmpGen.Strings (Str split getlines isBlankItem)

/-- A word that can be a key or a value: without an equals sign, and neither empty nor a single blank. -/
structure Word (w : Str) : Prop where
  noEq : '=' ∉ w
  ne : w ≠ []
  noBlank : w ≠ [' '] ∧ w ≠ ['\n'] ∧ w ≠ ['\t']

/-- `Modifier m kv`: the modifier `m` is `key=value`, or is no assignment: without an equals sign, or with nothing after it. -/
inductive Modifier : Str → Option (Str × Str) → Prop
  | assign {k v : Str} : Word k → Word v → Modifier (k ++ '=' :: v) (some (k, v))
  | plain {m : Str} : '=' ∉ m → Modifier m none
  | bare {k : Str} : Word k → Modifier (k ++ ['=']) none

/-- The value in the first of the assignments to the key. -/
inductive FirstValue (key : Str) : List (Option (Str × Str)) → Option Str → Prop
  | nil : FirstValue key [] none
  | here {v : Str} {l : List (Option (Str × Str))} : FirstValue key (some (key, v) :: l) (some v)
  | otherKey {k v : Str} {l : List (Option (Str × Str))} {r : Option Str} : k ≠ key → FirstValue key l r → FirstValue key (some (k, v) :: l) r
  | noKey {l : List (Option (Str × Str))} {r : Option Str} : FirstValue key l r → FirstValue key (none :: l) r

theorem Word.keep {w : Str} (h : Word w) : isBlankItem w = false := by
  obtain ⟨_, h1, h2, h3, h4⟩ := h
  simp [isBlankItem, h1, h2, h3, h4]

theorem split_modifier {m : Str} {kv : Option (Str × Str)} (h : Modifier m kv) :
    (∀ k v, kv = some (k, v) → split m '=' true = [k, v]) ∧ (kv = none → (split m '=' true).length ≤ 1) := by
  cases h with
  | assign hk hv =>
    refine ⟨fun k v h => ?_, fun h => (by cases h)⟩
    cases h
    rw [split, Strings.getlines_append hk.noEq, Strings.getlines_single hv.noEq hv.ne]
    simp [hk.keep, hv.keep]
  | plain hm =>
    refine ⟨fun k v h => (by cases h), fun _ => ?_⟩
    by_cases he : m = []
    · subst he; simp [split, Strings.getlines_nil]
    · rw [split, Strings.getlines_single hm he]
      exact (List.length_filter_le _ _).trans (by simp)
  | bare hk =>
    refine ⟨fun k v h => (by cases h), fun _ => ?_⟩
    rw [split, Strings.getlines_append hk.noEq, Strings.getlines_nil]
    exact (List.length_filter_le _ _).trans (by simp)

/-- C173 (partial).  For modifiers that are `key=value`, `key=` or have no equals sign, the attribute of a particle is the value in the first assignment
to the key, and there is none if no modifier assigns to it.  Missing: modifiers with two or more equals signs, see `attribute_counterexample`. -/
theorem attribute_partial {modifiers : List Str} {kvs : List (Option (Str × Str))} (h : List.Forall₂ Modifier modifiers kvs) (key : Str) {r : Option Str}
    (hr : FirstValue key kvs r) : getAttribute modifiers key = r := by
  induction h generalizing r with
  | nil => cases hr; rfl
  | @cons m kv ms kvs hm _ ih =>
    obtain ⟨h1, h2⟩ := split_modifier hm
    unfold getAttribute at ih ⊢
    rw [List.findSome?_cons]
    cases hr with
    | here => simp [h1 _ _ rfl]
    | otherKey hne hr => simp [h1 _ _ rfl, hne, ih hr]
    | noKey hr =>
      have := h2 rfl
      match hs : split m '=' true, this with
      | [], _ => simp [ih hr]
      | [x], _ => simp [ih hr]

theorem word_of {w : Str} (h1 : '=' ∉ w) (h2 : w ≠ []) (h3 : w ≠ [' '] ∧ w ≠ ['\n'] ∧ w ≠ ['\t']) : Word w := ⟨h1, h2, h3⟩

example : getAttribute ["D".toList, "L=1".toList, "helAmp=a".toList, "helAmp=b".toList] "helAmp".toList = some "a".toList :=
  attribute_partial (kvs := [none, some ("L".toList, "1".toList), some ("helAmp".toList, "a".toList), some ("helAmp".toList, "b".toList)])
    (.cons (.plain (by decide)) (.cons (.assign (k := "L".toList) (v := "1".toList) (word_of (by decide) (by decide) (by decide)) (word_of (by decide) (by decide) (by decide)))
      (.cons (.assign (k := "helAmp".toList) (v := "a".toList) (word_of (by decide) (by decide) (by decide)) (word_of (by decide) (by decide) (by decide)))
        (.cons (.assign (k := "helAmp".toList) (v := "b".toList) (word_of (by decide) (by decide) (by decide)) (word_of (by decide) (by decide) (by decide))) .nil)))) _
    (.noKey (.otherKey (by decide) .here))

/-- C173, more than one equals sign.  A value with an equals sign in it is lost, and of an empty key the value is taken as the key. -/
theorem attribute_counterexample : getAttribute ["f=a=b".toList] "f".toList = none ∧ getAttribute ["=f=a".toList] "f".toList = some "a".toList := by
  simp [getAttribute, split, Strings.getlines_cons, Strings.getlines_nil, isBlankItem]

end AmpGen.Particle.Attribute
