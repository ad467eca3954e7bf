import Verif.Export.Lemmas
import Mathlib.Data.Complex.Basic
/-
C141 and C142: exported code and the names of generated functions.
-/
namespace AmpGen.Export

open AmpGen.Polarised (PAmps)

variable {X P : Type}

/-- C141.  Numbers in exported code: a fit parameter is off by at most half a millionth, a
constant by at most five millionths of its size. -/
theorem exported_numbers (x : ℝ) : |dec6 x - x| ≤ 5 / 10 ^ 7 ∧ |sig6 x - x| ≤ 5 / 10 ^ 6 * |x| :=
  ⟨dec6_err x, sig6_err x⟩

/-- C141.  For every event the exported functions are those of the model with the numbers as they
are written: `FCN(x, 1)` is the squared modulus of the amplitude over the normalisation, and for
`sign` other than one the part of odd parity is multiplied by it. -/
theorem exported_functions (es : List (Element X)) (buf : List ℝ) (normalisation : ℝ) (x : X) (sign : Int) :
    let es' := es.map fun e => { e with coupling := csig6 e.coupling }
    let buf' := buf.map dec6
    AMP es buf x sign = evenPart es' buf' x + sign * oddPart es' buf' x ∧
    AMP es buf x 1 = amplitude es' buf' x ∧
    FCN es buf normalisation x sign =
      Complex.normSq (evenPart es' buf' x + sign * oddPart es' buf' x) / sig6 normalisation ∧
    ∀ i e, es[i]? = some e → component es buf i x = e.amp buf' x := by
  have key : ∀ s : Int, AMP es buf x s = evenPart (es.map fun e => { e with coupling := csig6 e.coupling })
      (buf.map dec6) x + s * oddPart (es.map fun e => { e with coupling := csig6 e.coupling }) (buf.map dec6) x := by
    intro s
    rw [AMP_eq, ← split_parts, List.map_map]
    rfl
  refine ⟨key sign, ?_, ?_, ?_⟩
  · rw [key 1, Int.cast_one, one_mul, even_add_odd]
  · unfold FCN; rw [key sign]
  · intro i e h
    simp [component, allAmplitudesWParams, allAmplitudes, List.getD, h]

/-- C141.  If the fit parameters have at most six decimals and the couplings and the normalisation
at most six significant digits, the exported density is that of the model: `FCN(x, 1)` for the
decay, and `FCN(x, -1)` with the sign of the amplitudes of odd parity changed.  The sum of the two
does not depend on the interference of even and odd amplitudes.

Missing: parameters, couplings and normalisation with more digits. -/
theorem exported_density_partial (es : List (Element X)) (buf : List ℝ) (normalisation : ℝ) (x : X)
    (hb : ∀ v ∈ buf, SixDecimals v) (hc : ∀ e ∈ es, SixDigitsC e.coupling) (hn : SixDigits normalisation) :
    AMP es buf x 1 = amplitude es buf x ∧
    FCN es buf normalisation x 1 = ‖amplitude es buf x‖ ^ 2 / normalisation ∧
    FCN es buf normalisation x (-1) = ‖evenPart es buf x - oddPart es buf x‖ ^ 2 / normalisation ∧
    FCN es buf normalisation x 1 + FCN es buf normalisation x (-1) =
      2 * (‖evenPart es buf x‖ ^ 2 + ‖oddPart es buf x‖ ^ 2) / normalisation := by
  have hes : (es.map fun e => { e with coupling := csig6 e.coupling }) = es := by
    conv_rhs => rw [← List.map_id es]
    apply List.map_congr_left
    intro e he
    rw [csig6_fixed (hc e he)]
    rfl
  have h1 := exported_functions es buf normalisation x 1
  have h2 := exported_functions es buf normalisation x (-1)
  simp only [hes, map_dec6 hb, sig6_fixed hn] at h1 h2
  have e1 : FCN es buf normalisation x 1 = ‖amplitude es buf x‖ ^ 2 / normalisation := by
    rw [h1.2.2.1, ← even_add_odd, Complex.normSq_eq_norm_sq]
    congr 4
    push_cast; ring
  have e2 : FCN es buf normalisation x (-1) = ‖evenPart es buf x - oddPart es buf x‖ ^ 2 / normalisation := by
    rw [h2.2.2.1, Complex.normSq_eq_norm_sq]
    congr 4
    push_cast; ring
  refine ⟨h1.2.1, e1, e2, ?_⟩
  rw [e1, e2, ← even_add_odd, ← Complex.normSq_eq_norm_sq, ← Complex.normSq_eq_norm_sq,
    ← Complex.normSq_eq_norm_sq, ← Complex.normSq_eq_norm_sq]
  simp only [Complex.normSq_apply, Complex.add_re, Complex.add_im, Complex.sub_re, Complex.sub_im]
  ring

/-- Two amplitudes of opposite parity, a width of 0.149 and a coupling of 0.5 i. -/
noncomputable example :
    let es : List (Element ℝ) := [⟨1, 1, fun b x => b.getD 0 0 * x⟩, ⟨⟨0, 1 / 2⟩, -1, fun _ x => x⟩]
    (∀ v ∈ [(0.149 : ℝ)], SixDecimals v) ∧ (∀ e ∈ es, SixDigitsC e.coupling) ∧ SixDigits (2.5 : ℝ) := by
  refine ⟨?_, ?_, ⟨25, -1, by norm_num, by norm_num⟩⟩
  · intro v hv
    rw [List.mem_singleton] at hv
    exact ⟨149000, by rw [hv]; norm_num⟩
  · intro e he
    rcases List.mem_cons.mp he with rfl | he
    · exact ⟨⟨1, 0, by norm_num, by simp⟩, ⟨0, 0, by norm_num, by simp⟩⟩
    · rw [List.mem_singleton] at he
      subst he
      exact ⟨⟨0, 0, by norm_num, by simp⟩, ⟨5, -1, by norm_num, by norm_num⟩⟩

/-- C141.  A parameter below half a millionth, as a small width, is exported as zero. -/
theorem exported_density_counterexample :
    ∃ (es : List (Element ℝ)) (buf : List ℝ) (x : ℝ), ‖amplitude es buf x‖ ^ 2 > 0 ∧ FCN es buf 1 x 1 = 0 := by
  refine ⟨[⟨1, 1, fun b x => ((b.getD 0 0 * x : ℝ) : ℂ)⟩], [4 / 10 ^ 7], 1, ?_, ?_⟩
  · unfold amplitude
    simp
  · have h : dec6 (4 / 10 ^ 7) = 0 := by
      unfold dec6
      rw [show (4 : ℝ) / 10 ^ 7 * 10 ^ 6 = 2 / 5 by norm_num, round_eq,
        show (2 : ℝ) / 5 + 1 / 2 = 9 / 10 by norm_num]
      have : ⌊(9 : ℝ) / 10⌋ = 0 := by rw [Int.floor_eq_iff]; norm_num
      rw [this]; simp
    unfold FCN
    rw [AMP_eq]
    simp [h]

/-- C141.  Couplings are exported with six significant digits: where amplitudes nearly cancel, the
exported density can vanish although that of the model does not. -/
theorem exported_cancellation_counterexample :
    ∃ (es : List (Element Unit)), ‖amplitude es [] ()‖ ^ 2 > 0 ∧ FCN es [] 1 () 1 = 0 := by
  have h1 : sig6 1 = 1 := sig6_fixed ⟨1, 0, by norm_num, by simp⟩
  have h0 : sig6 0 = 0 := sig6_fixed ⟨0, 0, by norm_num, by simp⟩
  have hx : sig6 (-(1 + 1 / 10 ^ 7)) = -1 := by
    have hl : Int.log 10 |(-(1 + 1 / 10 ^ 7) : ℝ)| = 0 := by
      rw [abs_neg, abs_of_pos (by norm_num)]
      have a := (Int.lt_zpow_iff_log_lt (b := 10) (by norm_num) (x := 1) (r := (1 + 1 / 10 ^ 7 : ℝ)) (by norm_num)).mp
        (by norm_num)
      have b := (Int.zpow_le_iff_le_log (b := 10) (by norm_num) (x := 0) (r := (1 + 1 / 10 ^ 7 : ℝ)) (by norm_num)).mp
        (by norm_num)
      omega
    unfold sig6
    rw [hl]
    have : (-(1 + 1 / 10 ^ 7) : ℝ) / 10 ^ ((0 : ℤ) - 5) = -(100000 + 1 / 100) := by norm_num
    rw [this, round_eq]
    have : ⌊(-(100000 + 1 / 100) + 1 / 2 : ℝ)⌋ = -100000 := by rw [Int.floor_eq_iff]; norm_num
    rw [this]; norm_num
  refine ⟨[⟨1, 1, fun _ _ => 1⟩, ⟨⟨-(1 + 1 / 10 ^ 7), 0⟩, 1, fun _ _ => 1⟩], ?_, ?_⟩
  · have e : amplitude [(⟨1, 1, fun _ _ => 1⟩ : Element Unit), ⟨⟨-(1 + 1 / 10 ^ 7), 0⟩, 1, fun _ _ => 1⟩] [] () =
        ((-(1 / 10 ^ 7) : ℝ) : ℂ) := by
      unfold amplitude
      apply Complex.ext
      · simp only [List.map_cons, List.map_nil, List.sum_cons, List.sum_nil, mul_one, add_zero, Complex.add_re,
          Complex.one_re, Complex.ofReal_re]
        norm_num
      · simp only [List.map_cons, List.map_nil, List.sum_cons, List.sum_nil, mul_one, add_zero, Complex.add_im,
          Complex.one_im, Complex.ofReal_im]
    rw [e]
    apply pow_pos
    rw [norm_pos_iff]
    intro h
    rw [Complex.ofReal_eq_zero] at h
    norm_num at h
  · unfold FCN
    rw [AMP_eq]
    have e : csig6 1 + csig6 ⟨-(1 + 1 / 10 ^ 7), 0⟩ = 0 := by
      unfold csig6
      apply Complex.ext
      · simp only [Complex.add_re, Complex.one_re, Complex.zero_re, h1]
        rw [hx]; norm_num
      · simp only [Complex.add_im, Complex.one_im, Complex.zero_im, h0]; norm_num
    simp only [List.map_cons, List.map_nil, List.sum_cons, List.sum_nil, if_true, one_mul, mul_one, add_zero]
    rw [e]
    simp

/-- C141.  The exported density of a polarised sum is that of the model over the normalisation if
the numbers have at most six digits.

Missing: numbers with more digits. -/
theorem exported_polarised_partial (A : PAmps P X) (p : P) (normalisation : ℝ) (x : X) (sign : Int)
    (hs : 0 < A.s1 * A.s2)
    (hb : ∀ i, ∀ v ∈ A.ext i p, SixDecimals v) (hc : ∀ i, SixDigitsC (A.coup i p))
    (hp : ∀ k, SixDigits (A.pol p k)) (hf : ∀ fr, A.frac = some fr → SixDigits (fr p))
    (hn : SixDigits normalisation) :
    polFCN A p normalisation x sign = A.density p x / normalisation := by
  unfold polFCN
  rw [sig6_fixed hn]
  congr 1
  rw [Polarised.probExpr_eq (x := x)]
  · rw [Polarised.density_eq, Polarised.density_eq]
    have hpol : (fun k => sig6 (A.pol p k)) = A.pol p := funext fun k => sig6_fixed (hp k)
    have ht : ∀ m f, (written A (fun p k => sig6 (A.pol p k)) (A.frac.map fun fr p => sig6 (fr p))).tot p m f x =
        A.tot p m f x := by
      intro m f
      unfold PAmps.tot written
      exact Finset.sum_congr rfl fun i _ => by simp only [csig6_fixed (hc i)]; rfl
    have hr : (written A (fun p k => sig6 (A.pol p k)) (A.frac.map fun fr p => sig6 (fr p))).pol p = A.pol p := hpol
    simp only [ht]
    rw [hr]
    refine congrArg Complex.re (Finset.sum_congr rfl fun a _ => Finset.sum_congr rfl fun b _ => ?_)
    refine congrArg₂ _ rfl (Finset.sum_congr rfl fun f _ => ?_)
    refine congrArg₂ _ (congrArg₂ _ rfl ?_) rfl
    unfold written
    cases h : A.frac with
    | none => rfl
    | some fr => simp only [Option.map_some, sig6_fixed (hf fr h)]
  · intro i _ c hc'
    unfold polAmplitudes written at *
    simp only at hc' ⊢
    have hd : (A.s1 * A.s2 * i + c) / (A.s1 * A.s2) = i := by
      rw [Nat.mul_add_div hs, Nat.div_eq_of_lt hc', Nat.add_zero]
    have hm : (A.s1 * A.s2 * i + c) % (A.s1 * A.s2) = c := by
      rw [Nat.mul_add_mod, Nat.mod_eq_of_lt hc']
    rw [hd, hm, map_dec6 (hb i)]

/-- A spin one half initial state with polarisation 0.5 along z. -/
noncomputable def exampleSum (s1 : Nat) : PAmps Unit Unit where
  n := 1
  s1 := s1
  s2 := 2
  name := fun _ => "A"
  ext := fun _ _ => [0.5]
  amp := fun _ _ _ c => if c = 0 then 1 else 0
  coup := fun _ _ => 1
  weight := fun _ => 1
  pol := fun _ k => if k = 2 then 1 / 2 else 0
  frac := some fun _ => 1 / 4

example : let A := exampleSum 2
    0 < A.s1 * A.s2 ∧ (∀ i, ∀ v ∈ A.ext i (), SixDecimals v) ∧ (∀ i, SixDigitsC (A.coup i ())) ∧
    (∀ k, SixDigits (A.pol () k)) ∧ (∀ fr, A.frac = some fr → SixDigits (fr ())) ∧ SixDigits 1 := by
  refine ⟨by decide, ?_, ?_, ?_, ?_, ⟨1, 0, by norm_num, by simp⟩⟩
  · intro i v hv
    rw [show (exampleSum 2).ext i () = [0.5] from rfl, List.mem_singleton] at hv
    exact ⟨500000, by rw [hv]; norm_num⟩
  · intro i
    exact ⟨⟨1, 0, by norm_num, by simp [exampleSum]⟩, ⟨0, 0, by norm_num, by simp [exampleSum]⟩⟩
  · intro k
    unfold exampleSum
    simp only
    split
    · exact ⟨5, -1, by norm_num, by norm_num⟩
    · exact ⟨0, 0, by norm_num, by simp⟩
  · intro fr h
    have : fr = fun _ => 1 / 4 := by
      have := Option.some.inj h
      exact this.symm
    rw [this]
    exact ⟨25, -2, by norm_num, by norm_num⟩

/-- C141.  The function exported for a polarisation given by the caller: for two initial
polarisation states and no final state fraction it is the density at that polarisation.

Missing: a final state fraction, spin one and numbers with more than six digits. -/
theorem exported_given_polarisation_partial (A : PAmps P X) (p : P) (normalisation : ℝ) (x : X) (sign : Int)
    (px py pz : ℝ) (hs : A.s1 = 2) (hs2 : 0 < A.s2) (hfrac : A.frac = none)
    (hb : ∀ i, ∀ v ∈ A.ext i p, SixDecimals v) (hc : ∀ i, SixDigitsC (A.coup i p)) (hn : SixDigits normalisation) :
    polFCNExt A p normalisation x sign px py pz =
      .value ({ A with pol := fun _ k => [px, py, pz].getD k 0 }.density p x / normalisation) := by
  unfold polFCNExt
  rw [if_pos (by omega), if_neg (by omega), sig6_fixed hn]
  congr 2
  have hpos : 0 < A.s1 * A.s2 := by rw [hs]; omega
  rw [Polarised.probExpr_eq (x := x)]
  · rw [Polarised.density_eq, Polarised.density_eq]
    have ht : ∀ m f, (written A (fun _ k => [px, py, pz].getD k 0) none).tot p m f x =
        ({ A with pol := fun _ k => [px, py, pz].getD k 0 } : PAmps P X).tot p m f x := by
      intro m f
      unfold PAmps.tot written
      exact Finset.sum_congr rfl fun i _ => by simp only [csig6_fixed (hc i)]; rfl
    simp only [ht, hfrac]
    unfold written
    simp only
  · intro i _ c hc'
    unfold polAmplitudes written at *
    simp only at hc' ⊢
    have hd : (A.s1 * A.s2 * i + c) / (A.s1 * A.s2) = i := by
      rw [Nat.mul_add_div hpos, Nat.div_eq_of_lt hc', Nat.add_zero]
    have hm : (A.s1 * A.s2 * i + c) % (A.s1 * A.s2) = c := by
      rw [Nat.mul_add_mod, Nat.mod_eq_of_lt hc']
    rw [hd, hm, map_dec6 (hb i)]

example : let A := { exampleSum 2 with frac := none }
    A.s1 = 2 ∧ 0 < A.s2 ∧ A.frac = none := ⟨rfl, by decide, rfl⟩

/-- C141.  For a spin one initial state the exported function for a given polarisation is generated
from entries beyond the end of a vector; for one initial state it does not exist. -/
theorem exported_given_polarisation_counterexample (A : PAmps P X) (p : P) (normalisation : ℝ) (x : X)
    (sign : Int) (px py pz : ℝ) :
    (A.s1 = 3 → polFCNExt A p normalisation x sign px py pz = .undefinedBehaviour) ∧
    (A.s1 ≤ 1 → polFCNExt A p normalisation x sign px py pz = .absent) := by
  unfold polFCNExt
  constructor
  · intro h; rw [if_pos (by omega), if_pos h]
  · intro h; rw [if_neg (by omega)]

/-- C141.  `FCN_extPol` ignores the final state fraction: at the polarisation of the model it gives
a density other than that of the model. -/
theorem exported_fraction_counterexample :
    ∃ v, polFCNExt (exampleSum 2) () 1 () 1 0 0 (1 / 2) = .value v ∧ v ≠ (exampleSum 2).density () () := by
  have h1 : sig6 1 = 1 := sig6_fixed ⟨1, 0, by norm_num, by simp⟩
  have hc : csig6 1 = 1 := csig6_fixed ⟨⟨1, 0, by norm_num, by simp⟩, ⟨0, 0, by norm_num, by simp⟩⟩
  refine ⟨Polarised.probExpr (written (exampleSum 2) (fun _ k => [0, 0, 1 / 2].getD k 0) none) ()
    (polAmplitudes (exampleSum 2) () ()) / sig6 1, ?_, ?_⟩
  · unfold polFCNExt
    rw [if_pos (by decide), if_neg (by decide)]
  · rw [Polarised.density_eq, h1]
    unfold Polarised.probExpr Polarised.transition polAmplitudes written exampleSum PAmps.tot PAmps.el Polarised.rhoExpr
    simp [Finset.sum_range_succ, hc]
    norm_num

/-! ### C142 -/

/-- C142.  The symbol of a generated function is an identifier for every non-empty name, and
making a symbol of a symbol changes nothing. -/
theorem symbol_valid (s : List Char) (h : s ≠ []) :
    IsIdentifier (programaticName s) ∧ programaticName (programaticName s) = programaticName s := by
  refine ⟨⟨?_, ?_, ?_⟩, ?_⟩
  · rw [programaticName_eq]
    cases hm : s.map symbolChar with
    | nil => exact absurd (List.map_eq_nil_iff.mp hm) h
    | cons c t => simp only; split <;> simp
  · intro c hc
    rcases programaticName_chars s c hc with h | h
    · left; exact (isAlnum_iff c).mp h
    · right; exact h
  · intro c hc hd
    have := programaticName_head s c hc
    rw [(isDigit_iff c).mpr hd] at this
    exact absurd this (by simp)
  · exact programaticName_fixed _ (programaticName_chars s) (programaticName_head s)

example : ("D0{K*(892)bar0{K-,pi+},pi0}".toList ≠ []) := by decide

example : programaticName "3pi{K*(892)+,pi-}".toList = "f3pi_Ks_892_p_pim_".toList := by decide

/-- C142.  Names that are identifiers already are their own symbols, so that different ones have
different symbols.

Missing: other names, for which this is false. -/
theorem symbols_distinct_partial (s t : List Char) (hs : IsIdentifier s) (ht : IsIdentifier t)
    (h : programaticName s = programaticName t) : s = t := by
  have key : ∀ s, IsIdentifier s → programaticName s = s := by
    intro s ⟨_, hc, hd⟩
    apply programaticName_fixed
    · intro c h
      rcases hc c h with h | h
      · left; exact (isAlnum_iff c).mpr h
      · right; exact h
    · intro c h
      have := hd c h
      rw [← isDigit_iff] at this
      simpa using this
  rw [key s hs, key t ht] at h
  exact h

example : IsIdentifier "all_amplitudes".toList := by
  refine ⟨by decide, by decide, ?_⟩
  intro c hc
  have : c = 'a' := by
    have h : some 'a' = some c := hc
    exact (Option.some.inj h).symm
  subst this
  decide

/-- C142.  Two decay chains with the same symbol: a resonance that decays to two of the three
particles beside it, and the one that decays to all of them. -/
theorem symbols_counterexample :
    programaticName "D0{K*(892)0,rho(770)0{pi+,pi-},pi0}".toList =
      programaticName "D0{K*(892)0{rho(770)0,pi+,pi-},pi0}".toList := by decide

end AmpGen.Export
