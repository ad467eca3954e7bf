import Verif.Parser.WordModel
import Mathlib.Analysis.Complex.Trigonometric
/-
C166 (the words of a formula stand for numbers, constants and parameters).
-/
namespace AmpGen.Parser
open AmpGen.Strings (Str)
open Complex (I)

/-- The words that are constants. -/
def constantWords : List Str := ["PI".toList, "pi".toList, "M_PI".toList, "e".toList, "I".toList, "i".toList]

/-- The angle in radians. -/
noncomputable def radians : AngularUnits → ℝ → ℝ
  | .deg, x => x / 180 * Real.pi
  | .rad, x => x

theorem not_constant {name : Str} (h : name ∉ constantWords) :
    ¬ (name = "PI".toList ∨ name = "pi".toList ∨ name = "M_PI".toList) ∧ ¬ name = "e".toList ∧ ¬ (name = "I".toList ∨ name = "i".toList) := by
  simp only [constantWords, List.mem_cons, List.not_mem_nil, or_false, not_or] at h
  tauto

/-- C166.  A word that is neither a number nor one of the names of constants stands for the current value of the parameter with this name; if there is none but
parameters for a real and an imaginary part, for the complex number with these parts, or, in polar coordinates, with this modulus and this angle, in degrees or
radians as chosen; and for a symbol of this name otherwise, or if there is no parameter set.

Missing: parameters with the name of a constant or of a number, see the counterexample. -/
theorem word_meaning_partial (num : Str → Option ℝ) (coord : Coordinates) (units : AngularUnits) (ps : List Str) (name : Str) (hn : num name = none)
    (hc : name ∉ constantWords) (current : Str → ℝ) (symbol : Str → ℂ) :
    let v := (processEndPoint (settings coord units) num (some ps) name).value current symbol
    let a := current (name ++ "_Re".toList)
    let b := current (name ++ "_Im".toList)
    let complex := name ++ "_Re".toList ∈ ps ∧ name ++ "_Im".toList ∈ ps
    (name ∈ ps → v = current name) ∧
    (name ∉ ps → complex → coord = .cartesian → v.re = a ∧ v.im = b) ∧
    (name ∉ ps → complex → coord = .polar → v.re = a * Real.cos (radians units b) ∧ v.im = a * Real.sin (radians units b)) ∧
    (name ∉ ps → ¬ complex → v = symbol name) ∧
    (processEndPoint (settings coord units) num none name).value current symbol = symbol name := by
  obtain ⟨h1, h2, h3⟩ := not_constant hc
  intro v a b complex
  have hv : v = (if name ∈ ps then Meaning.link name
        else if complex then
          if (settings coord units).isCartesian then .cartesian (name ++ "_Re".toList) (name ++ "_Im".toList)
          else .polar (settings coord units).sf (name ++ "_Re".toList) (name ++ "_Im".toList)
        else .unknown name).value current symbol := by
    show (processEndPoint (settings coord units) num (some ps) name).value current symbol = _
    unfold processEndPoint
    rw [hn]
    simp only [if_neg h1, if_neg h2, if_neg h3]
    rfl
  refine ⟨fun h => ?_, fun h hx e => ?_, fun h hx e => ?_, fun h hx => ?_, ?_⟩
  · rw [hv, if_pos h]; rfl
  · rw [hv, if_neg h, if_pos hx, e, if_pos (by simp [settings])]
    simp [Meaning.value, a, b]
  · rw [hv, if_neg h, if_pos hx, e, if_neg (by simp [settings])]
    have he : ((settings .polar units).sf : ℂ) * I * (b : ℂ) = ((radians units b : ℝ) : ℂ) * I := by
      cases units
      · simp only [settings, radians, if_true]
        push_cast
        ring
      · simp [settings, radians, mul_comm]
    have hexp : Meaning.value current symbol (.polar (settings .polar units).sf (name ++ "_Re".toList) (name ++ "_Im".toList)) =
        (a : ℂ) * Complex.exp (((radians units b : ℝ) : ℂ) * I) := by
      unfold Meaning.value
      rw [← he]
    rw [hexp]
    constructor
    · rw [Complex.re_ofReal_mul, Complex.exp_ofReal_mul_I_re]
    · rw [Complex.im_ofReal_mul, Complex.exp_ofReal_mul_I_im]
  · rw [hv, if_neg h, if_neg hx]; rfl
  · unfold processEndPoint
    rw [hn]
    simp only [if_neg h1, if_neg h2, if_neg h3]
    rfl

example : ((processEndPoint (settings .polar .deg) (fun _ => none) (some ["x_Re".toList, "x_Im".toList]) "x".toList).value (fun s => if s = "x_Re".toList then 2 else 180)
    (fun _ => 0)).re = -2 := by
  have h := (word_meaning_partial (fun _ => none) .polar .deg ["x_Re".toList, "x_Im".toList] "x".toList rfl (by decide)
    (fun s => if s = "x_Re".toList then 2 else 180) (fun _ => 0)).2.2.1 (by decide) (by decide) rfl
  rw [h.1]
  have e : "x".toList ++ "_Re".toList = "x_Re".toList := by decide
  have e' : "x".toList ++ "_Im".toList ≠ "x_Re".toList := by decide
  rw [if_pos e, if_neg e']
  simp [radians]

/-- C166.  Numbers stand for themselves, and `pi`, `e` and `i` for the constants, with any parameter set. -/
theorem word_constants (st : Settings) (num : Str → Option ℝ) (params : Option (List Str)) (current : Str → ℝ) (symbol : Str → ℂ) :
    (∀ name x, num name = some x → (processEndPoint st num params name).value current symbol = x) ∧
    (∀ name ∈ ["PI".toList, "pi".toList, "M_PI".toList], num name = none → (processEndPoint st num params name).value current symbol = Real.pi) ∧
    (num "e".toList = none → (processEndPoint st num params "e".toList).value current symbol = Real.exp 1) ∧
    (∀ name ∈ ["I".toList, "i".toList], num name = none → ((processEndPoint st num params name).value current symbol) ^ 2 = -1 ∧
      0 < ((processEndPoint st num params name).value current symbol).im) := by
  refine ⟨fun name x h => ?_, fun name hm h => ?_, fun h => ?_, fun name hm h => ?_⟩
  · unfold processEndPoint; rw [h]; rfl
  · unfold processEndPoint
    rw [h]
    simp only [List.mem_cons, List.not_mem_nil, or_false] at hm
    simp only [if_pos hm]
    rfl
  · unfold processEndPoint
    rw [h]
    rw [if_neg (by decide), if_pos rfl]
    rfl
  · have hv : (processEndPoint st num params name).value current symbol = I := by
      unfold processEndPoint
      rw [h]
      simp only [List.mem_cons, List.not_mem_nil, or_false] at hm
      rcases hm with rfl | rfl
      · rw [if_neg (by decide), if_neg (by decide), if_pos (by decide)]; rfl
      · rw [if_neg (by decide), if_neg (by decide), if_pos (by decide)]; rfl
    rw [hv]
    simp [Complex.I_sq]

example : (processEndPoint (settings .cartesian .rad) (fun _ => none) none "pi".toList).value (fun _ => 0) (fun _ => 0) = Real.pi :=
  (word_constants (settings .cartesian .rad) (fun _ => none) none (fun _ => 0) (fun _ => 0)).2.1 _ (by simp) rfl

/-- C166 is false for parameters whose names are names of constants or numbers: the formula uses the constant or the number.  A complex parameter of which one part
is missing is a symbol.  The choice of coordinates and units that is made after the first formula has been read has no effect. -/
theorem word_meaning_counterexample (st : Settings) (num : Str → Option ℝ) (current : Str → ℝ) (symbol : Str → ℂ) :
    (num "e".toList = none → (processEndPoint st num (some ["e".toList]) "e".toList).value current symbol = Real.exp 1) ∧
    (∀ x, num "1".toList = some x → (processEndPoint st num (some ["1".toList]) "1".toList).value current symbol = x) ∧
    (num "a".toList = none → (processEndPoint st num (some ["a_Re".toList]) "a".toList).value current symbol = symbol "a".toList) ∧
    (∀ coord units coord' units', getMe (some (getMe none coord units)) coord' units' = settings coord units) := by
  refine ⟨(word_constants st num _ current symbol).2.2.1, fun x => (word_constants st num _ current symbol).1 _ x, fun h => ?_, fun _ _ _ _ => rfl⟩
  unfold processEndPoint
  rw [h, if_neg (by decide), if_neg (by decide), if_neg (by decide)]
  simp only
  rw [if_neg (by decide), if_neg (by decide)]
  rfl

end AmpGen.Parser
