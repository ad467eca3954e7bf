import Verif.Shapes.PropsPhsp
import Mathlib.Algebra.BigOperators.Intervals
import Mathlib.Data.List.FinRange
/-
Properties of the coupled channels, of the amplitude of Bugg, and of the shapes of a decay to three bodies.
-/
namespace AmpGen.Shapes

open Complex Spec
open AmpGen.Lineshapes (Q2 blattWeisskopf blattWeisskopfNorm kFactor)

/-! ### Coupled channels -/

theorem totalWidth_eq (channels : List Channel) (s : ℝ) :
    totalWidth channels s = (channels.map fun c => (c.coupling : ℂ) * phaseSpace c.kind s c.m1 c.m2 c.radius c.l).sum := by
  unfold totalWidth
  have : ∀ (l : List Channel) (z : ℂ), l.foldl (fun (w : ℂ) (c : Channel) => w + c.coupling * phaseSpace c.kind s c.m1 c.m2 c.radius c.l) z =
      z + (l.map fun c => (c.coupling : ℂ) * phaseSpace c.kind s c.m1 c.m2 c.radius c.l).sum := by
    intro l
    induction l with
    | nil => intro z; simp
    | cons c l ih => intro z; rw [List.foldl_cons, ih, List.map_cons, List.sum_cons, add_assoc]
  rw [this, zero_add]

/-- The real part of the width is the sum of the couplings times the phase space of the open channels, for the default phase space and waves without
angular momentum. -/
theorem coupled_width (channels : List Channel) (s : ℝ) (hs : 0 < s)
    (hc : ∀ c ∈ channels, c.l = 0 ∧ 0 < c.m1 ∧ 0 < c.m2 ∧ (c.kind = .CM ∨ c.kind = .default ∧ (c.m1 - c.m2) ^ 2 < s)) :
    (totalWidth channels s).re = (channels.map fun c => c.coupling * phsp s c.m1 c.m2 / (16 * Real.pi)).sum := by
  rw [totalWidth_eq]
  induction channels with
  | nil => simp
  | cons c l ih =>
    rw [List.map_cons, List.sum_cons, List.map_cons, List.sum_cons, add_re, ih fun d hd => hc d (List.mem_cons_of_mem _ hd)]
    congr 1
    obtain ⟨hl, h1, h2, hk⟩ := hc c (List.mem_cons_self ..)
    rw [re_ofReal_mul, hl, mul_div_assoc]
    congr 1
    rcases hk with hk | ⟨hk, hp⟩
    · rw [hk]; exact phase_space_CM s c.m1 c.m2 c.radius hs h1 h2
    · rw [hk]
      have := rhoTwoBody_re (m1 := c.m1) (m2 := c.m2) hs hp
      unfold phaseSpace
      simp only [blattWeisskopf, ofReal_one, mul_one]
      exact this

/-- Without the modifier `norm` the amplitude is finite whenever a channel is open, and meets the optical theorem: its imaginary part is its square times the
mass and the sum of the widths of the open channels, over the factors it is multiplied by. -/
theorem coupled_unitary (mod : CoupledMod) (channels : List Channel) (s s1 s2 mass width radius : ℝ) (L : ℕ) (hmod : mod ≠ .norm)
    (hs : 0 < s) (hm : 0 < mass)
    (hc : ∀ c ∈ channels, c.l = 0 ∧ 0 < c.m1 ∧ 0 < c.m2 ∧ 0 ≤ c.coupling ∧ (c.kind = .CM ∨ c.kind = .default ∧ (c.m1 - c.m2) ^ 2 < s))
    (ho : ∃ c ∈ channels, 0 < c.coupling ∧ (c.m1 + c.m2) ^ 2 < s) :
    ∃ A B, CoupledChannel mod channels s s1 s2 mass width radius L = some A ∧
      A = kFactor mass width * (if mod = .BL then √(blattWeisskopf (|Q2 s s1 s2| * radius ^ 2) L) else √(blattWeisskopfNorm (|Q2 s s1 s2| * radius ^ 2) 0 L) : ℝ) * B ∧
      0 < B.im ∧ B.im = normSq B * (mass * (channels.map fun c => c.coupling * phsp s c.m1 c.m2 / (16 * Real.pi)).sum) := by
  have hw := coupled_width channels s hs fun c h => ⟨(hc c h).1, (hc c h).2.1, (hc c h).2.2.1, (hc c h).2.2.2.2⟩
  have hpi := Real.pi_pos
  have hpos : 0 < (channels.map fun c => c.coupling * phsp s c.m1 c.m2 / (16 * Real.pi)).sum := by
    obtain ⟨c, hmem, hg, hop⟩ := ho
    have hge : ∀ x ∈ channels.map (fun c => c.coupling * phsp s c.m1 c.m2 / (16 * Real.pi)), 0 ≤ x := by
      intro x hx
      obtain ⟨d, hd, rfl⟩ := List.mem_map.1 hx
      have h1 := (hc d hd).2.2.2.1
      have h2 := phsp_nonneg (m1 := d.m1) (m2 := d.m2) hs
      positivity
    have h1 : c.coupling * phsp s c.m1 c.m2 / (16 * Real.pi) ≤ _ := List.single_le_sum hge _ (List.mem_map_of_mem hmem)
    have h2 := phsp_pos hs (hc c hmem).2.1.le (hc c hmem).2.2.1.le hop
    have h3 : 0 < c.coupling * phsp s c.m1 c.m2 / (16 * Real.pi) := by positivity
    linarith
  have hre : (((mass : ℝ) : ℂ) * totalWidth channels s).re = mass * (channels.map fun c => c.coupling * phsp s c.m1 c.m2 / (16 * Real.pi)).sum := by
    rw [re_ofReal_mul, hw]
  obtain ⟨hne, him, hopt⟩ := propagator (x := mass * mass - s) (w := (mass : ℂ) * totalWidth channels s) (by rw [hre]; positivity)
  refine ⟨_, 1 / (((mass * mass - s : ℝ) : ℂ) - I * ((mass : ℂ) * totalWidth channels s)), ?_, rfl, him, ?_⟩
  · unfold CoupledChannel
    simp only
    rw [if_neg hmod, Option.bind_some]
    have e : (mass : ℂ) * mass - I * mass * totalWidth channels s * 1 - s = ((mass * mass - s : ℝ) : ℂ) - I * ((mass : ℂ) * totalWidth channels s) := by
      push_cast; ring
    rw [e, quot_some hne, Option.map_some, show |Q2 s s1 s2| * radius * radius = |Q2 s s1 s2| * radius ^ 2 by ring]
    push_cast
    rfl
  · rw [hopt, hre]

/-- With the modifier `norm` the amplitude at the mass of the resonance is imaginary, with the width of the resonance, whatever the couplings. -/
theorem coupled_norm_at_mass (channels : List Channel) (s1 s2 mass width radius : ℝ) (L : ℕ) (hm : 0 < mass) (hw : 0 < width)
    (hne : totalWidth channels (mass * mass) ≠ 0) :
    ∃ A, CoupledChannel .norm channels (mass * mass) s1 s2 mass width radius L = some A ∧ A.re = 0 ∧
      A.im = kFactor mass width * √(blattWeisskopfNorm (|Q2 (mass * mass) s1 s2| * radius ^ 2) 0 L) / (mass * width) := by
  unfold CoupledChannel
  simp only
  rw [if_pos trivial, quot_some hne, Option.bind_some]
  have e : (mass : ℂ) * mass - I * mass * totalWidth channels (mass * mass) * (width / totalWidth channels (mass * mass)) - ((mass * mass : ℝ) : ℂ) =
      -(I * ((mass * width : ℝ) : ℂ)) := by
    rw [mul_assoc (I * (mass : ℂ)), mul_div_cancel₀ _ hne]; push_cast; ring
  have hn : -(I * ((mass * width : ℝ) : ℂ)) ≠ 0 := neg_ne_zero.2 (mul_ne_zero I_ne_zero (ofReal_ne_zero.2 (by positivity)))
  rw [e, quot_some hn, Option.map_some]
  have hmod : ¬ CoupledMod.norm = CoupledMod.BL := by decide
  rw [if_neg hmod, show |Q2 (mass * mass) s1 s2| * radius * radius = |Q2 (mass * mass) s1 s2| * radius ^ 2 by ring]
  generalize √(blattWeisskopfNorm (|Q2 (mass * mass) s1 s2| * radius ^ 2) 0 L) = F
  have ev : ((kFactor mass width * F : ℝ) : ℂ) * (1 / -(I * ((mass * width : ℝ) : ℂ))) = I * ((kFactor mass width * F / (mass * width) : ℝ) : ℂ) := by
    rw [mul_one_div, div_eq_iff hn]
    have : (mass : ℂ) ≠ 0 := ofReal_ne_zero.2 hm.ne'
    have : (width : ℂ) ≠ 0 := ofReal_ne_zero.2 hw.ne'
    push_cast
    field_simp
    rw [I_sq]; ring
  refine ⟨_, rfl, ?_, ?_⟩
  · rw [ev, re_mul_ofReal]; simp
  · rw [ev, im_mul_ofReal]; simp

/-- With the modifier `norm` a resonance below the threshold of its channel has no width above it: the amplitude is real, although the channel is open. -/
theorem coupled_norm_counterexample (m1 m2 g s s1 s2 mass width radius chRadius : ℝ) (L : ℕ) (h1 : 0 < m1) (h2 : 0 < m2) (hm : 0 < mass)
    (hlow : (m1 - m2) ^ 2 < mass * mass) (hhigh : mass * mass < (m1 + m2) ^ 2) (hT : (m1 + m2) ^ 2 < s) (A : ℂ)
    (hA : CoupledChannel .norm [⟨.default, m1, m2, chRadius, 0, g⟩] s s1 s2 mass width radius L = some A) :
    A.im = 0 ∧ (0 < g → 0 < (totalWidth [⟨.default, m1, m2, chRadius, 0, g⟩] s).re) := by
  have hs : 0 < s := lt_trans (by positivity) hT
  have hpi := Real.pi_pos
  constructor
  · unfold CoupledChannel at hA
    simp only at hA
    rw [if_pos trivial] at hA
    unfold quot at hA
    split at hA
    · simp at hA
    · next hne =>
      rw [Option.bind_some] at hA
      obtain ⟨B, hB, hA⟩ := Option.map_eq_some_iff.1 hA
      change quot 1 _ = some B at hB
      obtain ⟨hn2, hB⟩ := quot_of_some hB
      · rw [← hA, im_ofReal_mul, hB]
        -- the widths
        have w : ∀ t : ℝ, totalWidth [⟨.default, m1, m2, chRadius, 0, g⟩] t = (g / (16 * Real.pi * t) : ℝ) * Hr t (m1 * m1) (m2 * m2) := by
          intro t
          rw [totalWidth_eq]
          simp only [List.map_cons, List.map_nil, List.sum_cons, List.sum_nil, add_zero]
          unfold phaseSpace rhoTwoBody
          simp only [blattWeisskopf]
          push_cast; ring
        have hr1 : Hr s (m1 * m1) (m2 * m2) = ((√((s - (m1 + m2) ^ 2) * (s - (m1 - m2) ^ 2)) : ℝ) : ℂ) := by
          unfold Hr complexSqrt
          rw [show s * s + (m1 * m1) * (m1 * m1) + (m2 * m2) * (m2 * m2) - 2 * s * (m1 * m1) - 2 * s * (m2 * m2) - 2 * (m2 * m2) * (m1 * m1) =
            (s - (m1 + m2) ^ 2) * (s - (m1 - m2) ^ 2) by ring, if_pos (mul_pos (by linarith) (by nlinarith [mul_pos h1 h2]))]
        have hr2 : Hr (mass * mass) (m1 * m1) (m2 * m2) = I * ((√(-((mass * mass - (m1 + m2) ^ 2) * (mass * mass - (m1 - m2) ^ 2))) : ℝ) : ℂ) := by
          unfold Hr complexSqrt
          rw [show (mass * mass) * (mass * mass) + (m1 * m1) * (m1 * m1) + (m2 * m2) * (m2 * m2) - 2 * (mass * mass) * (m1 * m1) - 2 * (mass * mass) * (m2 * m2) - 2 * (m2 * m2) * (m1 * m1) =
            (mass * mass - (m1 + m2) ^ 2) * (mass * mass - (m1 - m2) ^ 2) by ring, if_neg (not_lt.2 (mul_nonpos_of_nonpos_of_nonneg (by linarith) (by linarith)))]
        rw [w, w, hr1, hr2]
        generalize √((s - (m1 + m2) ^ 2) * (s - (m1 - m2) ^ 2)) = a
        generalize √(-((mass * mass - (m1 + m2) ^ 2) * (mass * mass - (m1 - m2) ^ 2))) = b
        generalize g / (16 * Real.pi * s) = gs
        generalize g / (16 * Real.pi * (mass * mass)) = gm
        have e : (mass : ℂ) * mass - I * mass * ((gs : ℂ) * a) * (width / ((gm : ℂ) * (I * b))) - s =
            ((mass * mass - mass * (gs * a) * (width / (gm * b)) - s : ℝ) : ℂ) := by
          have : (width : ℂ) / ((gm : ℂ) * (I * b)) = width / (gm * b) / I := by rw [div_div]; congr 1; ring
          rw [this]
          have hI := I_ne_zero
          push_cast
          field_simp
        rw [e]
        rw [one_div, ← ofReal_inv, ofReal_im, mul_zero]
  · intro hg
    rw [coupled_width _ s hs (by
      intro c hc
      rw [List.mem_singleton] at hc
      subst hc
      exact ⟨rfl, h1, h2, Or.inr ⟨rfl, by nlinarith [mul_pos h1 h2]⟩⟩)]
    have := phsp_pos hs h1.le h2.le hT
    simp only [List.map_cons, List.map_nil, List.sum_cons, List.sum_nil, add_zero]
    positivity

example : ∃ A, CoupledChannel .none [⟨.default, 0.14, 0.14, 1.5, 0, 2⟩, ⟨.CM, 0.5, 0.5, 1.5, 0, 3⟩] 0.9 0.02 0.02 1 0.1 1.5 0 = some A := by
  obtain ⟨A, B, h, _⟩ := coupled_unitary .none [⟨.default, 0.14, 0.14, 1.5, 0, 2⟩, ⟨.CM, 0.5, 0.5, 1.5, 0, 3⟩] 0.9 0.02 0.02 1 0.1 1.5 0 (by decide) (by norm_num) (by norm_num)
    (by
      intro c hc
      simp only [List.mem_cons, List.not_mem_nil, or_false] at hc
      rcases hc with rfl | rfl
      · exact ⟨rfl, by norm_num, by norm_num, by norm_num, Or.inr ⟨rfl, by norm_num⟩⟩
      · exact ⟨rfl, by norm_num, by norm_num, by norm_num, Or.inl rfl⟩)
    ⟨⟨.default, 0.14, 0.14, 1.5, 0, 2⟩, List.mem_cons_self .., by norm_num, by norm_num⟩
  exact ⟨A, h⟩
example : ∃ m1 m2 mass s : ℝ, 0 < m1 ∧ 0 < m2 ∧ (m1 - m2) ^ 2 < mass * mass ∧ mass * mass < (m1 + m2) ^ 2 ∧ (m1 + m2) ^ 2 < s := ⟨0.5, 0.5, 0.98, 1.1, by norm_num⟩

/-! ### Bugg -/

/-- A resonance with parameters that make sense. -/
structure BuggPar.Physical (p : BuggPar) : Prop where
  M : 0 < p.M
  b1 : 0 < p.b1
  b2 : 0 ≤ p.b2
  g_4pi : 0 ≤ p.g_4pi
  g_2K : 0 ≤ p.g_2K
  g_2eta : 0 ≤ p.g_2eta
  sA : 0 < p.sA
  adler : p.sA < 4 * p.mPi ^ 2
  above : 4 * p.mPi ^ 2 < p.M ^ 2
  mPi : 0 < p.mPi
  mK : p.mPi ≤ p.mK
  mEta : p.mPi ≤ p.mEta

theorem buggRho2_re {s m : ℝ} (hs : 0 < s) : (buggRho2 s (m * m)).re = phsp s m m := by
  unfold buggRho2
  rw [complexSqrt_re, show 4 * (m * m) / s = 4 * m * m / s by ring, phsp_same hs]

/-- Above the threshold of two pions the amplitude is finite and meets the optical theorem: its imaginary part is its square times the sum of the widths to
pions, kaons, etas and four pions, and each is positive where its channel is open. -/
theorem bugg_unitary (p : BuggPar) (hp : p.Physical) (s : ℝ) (hs : 4 * p.mPi ^ 2 < s) :
    ∃ A G2pi G2K G2eta G4pi, Bugg false p s = some A ∧ 0 < A.im ∧ A.im = normSq A * (G2pi + G2K + G2eta + G4pi) ∧
      0 < G2pi ∧ G2pi = p.M * (p.b1 + p.b2 * s) * Real.exp (-(s - p.M ^ 2) / p.A) * ((s - p.sA) / (p.M ^ 2 - p.sA)) * phsp s p.mPi p.mPi ∧
      G2K = p.g_2K * (p.M * (p.b1 + p.b2 * s) * Real.exp (-(s - p.M ^ 2) / p.A)) * (s / p.M ^ 2) * Real.exp (-p.alpha * |s - 4 * p.mK ^ 2|) * phsp s p.mK p.mK ∧
      G2eta = p.g_2eta * (p.M * (p.b1 + p.b2 * s) * Real.exp (-(s - p.M ^ 2) / p.A)) * (s / p.M ^ 2) * Real.exp (-p.alpha * |s - 4 * p.mEta ^ 2|) * phsp s p.mEta p.mEta ∧
      (if 16 * p.mPi ^ 2 < s then
        G4pi * (1 + Real.exp (p.lambda_4pi * (p.s0_4pi - s))) = p.M * p.g_4pi * (1 + Real.exp (p.lambda_4pi * (p.s0_4pi - p.M ^ 2))) else G4pi = 0) := by
  have hpi0 := hp.mPi
  have hs0 : 0 < s := lt_trans (by positivity) hs
  have hM := hp.M
  have hg1 : 0 < p.g1sg s := by
    unfold BuggPar.g1sg
    have := hp.b1; have := hp.b2
    positivity
  have eg1 : p.g1sg s = p.M * (p.b1 + p.b2 * s) * Real.exp (-(s - p.M ^ 2) / p.A) := by unfold BuggPar.g1sg; rw [sq]
  have had : 0 < p.adlerZero s := by
    unfold BuggPar.adlerZero
    have := hp.adler; have := hp.above
    exact div_pos (by linarith) (by nlinarith)
  have ead : p.adlerZero s = (s - p.sA) / (p.M ^ 2 - p.sA) := by unfold BuggPar.adlerZero; rw [sq]
  have hphs : 0 < phsp s p.mPi p.mPi := phsp_pos hs0 hpi0.le hpi0.le (by nlinarith)
  have eq : ∀ m : ℝ, buggQ s (m * m) = |s - 4 * m ^ 2| := by
    intro m
    unfold buggQ
    split
    · next h => rw [abs_of_pos (by nlinarith)]; ring
    · next h => rw [abs_of_nonpos (by nlinarith)]; ring
  have h4 : 0 ≤ gamma4pi s p.mPi p.M p.g_4pi p.lambda_4pi p.s0_4pi := by
    unfold gamma4pi rho4pi
    have := hp.g_4pi
    split <;> positivity
  have hre : (p.width s).re = p.g1sg s * p.adlerZero s * phsp s p.mPi p.mPi +
      p.g_2K * p.g1sg s * s / (p.M * p.M) * Real.exp (-p.alpha * buggQ s (p.mK * p.mK)) * phsp s p.mK p.mK +
      p.g_2eta * p.g1sg s * s / (p.M * p.M) * Real.exp (-p.alpha * buggQ s (p.mEta * p.mEta)) * phsp s p.mEta p.mEta +
      p.M * gamma4pi s p.mPi p.M p.g_4pi p.lambda_4pi p.s0_4pi := by
    unfold BuggPar.width
    simp only
    rw [add_re, add_re, add_re, re_ofReal_mul, re_ofReal_mul, re_ofReal_mul, ofReal_re, buggRho2_re hs0, buggRho2_re hs0, buggRho2_re hs0]
  have hK : 0 ≤ p.g_2K * p.g1sg s * s / (p.M * p.M) * Real.exp (-p.alpha * buggQ s (p.mK * p.mK)) * phsp s p.mK p.mK := by
    have := hp.g_2K; have := phsp_nonneg (m1 := p.mK) (m2 := p.mK) hs0; positivity
  have hE : 0 ≤ p.g_2eta * p.g1sg s * s / (p.M * p.M) * Real.exp (-p.alpha * buggQ s (p.mEta * p.mEta)) * phsp s p.mEta p.mEta := by
    have := hp.g_2eta; have := phsp_nonneg (m1 := p.mEta) (m2 := p.mEta) hs0; positivity
  have hpos : 0 < (p.width s).re := by rw [hre]; positivity
  obtain ⟨hne, him, hopt⟩ := propagator (x := p.M * p.M - s - p.g1sg s * p.adlerZero s * (buggJ1 s p.mPi - buggJ1 (p.M * p.M) p.mPi)) hpos
  refine ⟨_, _, _, _, _, ?_, him, by rw [hopt, hre], by positivity, ?_, ?_, ?_, ?_⟩
  · unfold Bugg
    simp only
    rw [quot_some hne]; rfl
  · rw [eg1, ead]
  · rw [eg1, eq]; ring
  · rw [eg1, eq]; ring
  · unfold gamma4pi rho4pi
    rw [show 16 * p.mPi * p.mPi = 16 * p.mPi ^ 2 by ring]
    split
    · next h16 =>
      have a1 : 0 < 1 + Real.exp (p.lambda_4pi * (p.s0_4pi - s)) := by positivity
      have a2 : 0 < 1 + Real.exp (p.lambda_4pi * (p.s0_4pi - p.M ^ 2)) := by positivity
      rw [show p.M * p.M = p.M ^ 2 by ring]
      field_simp
    · ring

/-- With the modifier `Az` the amplitude vanishes at the zero of Adler. -/
theorem bugg_adler (p : BuggPar) (hp : p.Physical) : Bugg true p p.sA = some 0 := by
  have hM := hp.M
  have hsA := hp.sA
  have had := hp.adler
  have hab := hp.above
  have hpi0 := hp.mPi
  have hz : p.adlerZero p.sA = 0 := by unfold BuggPar.adlerZero; simp
  have closed : ∀ m : ℝ, p.mPi ≤ m → buggRho2 p.sA (m * m) = I * ((√(-(1 - 4 * (m * m) / p.sA)) : ℝ) : ℂ) := by
    intro m hm
    unfold buggRho2 complexSqrt
    have : p.sA < 4 * (m * m) := by nlinarith
    have : 1 < 4 * (m * m) / p.sA := by rw [one_lt_div hsA]; exact this
    rw [if_neg (by linarith)]
  have h4 : gamma4pi p.sA p.mPi p.M p.g_4pi p.lambda_4pi p.s0_4pi = 0 := by unfold gamma4pi; rw [if_neg (by nlinarith)]
  have hg1 : 0 < p.g1sg p.sA := by unfold BuggPar.g1sg; have := hp.b1; have := hp.b2; positivity
  unfold Bugg
  simp only
  have hw : ∃ x : ℝ, 0 ≤ x ∧ p.width p.sA = I * x := by
    unfold BuggPar.width
    simp only
    rw [hz, h4, closed p.mK hp.mK, closed p.mEta hp.mEta]
    refine ⟨p.g_2K * p.g1sg p.sA * p.sA / (p.M * p.M) * Real.exp (-p.alpha * buggQ p.sA (p.mK * p.mK)) * √(-(1 - 4 * (p.mK * p.mK) / p.sA)) +
      p.g_2eta * p.g1sg p.sA * p.sA / (p.M * p.M) * Real.exp (-p.alpha * buggQ p.sA (p.mEta * p.mEta)) * √(-(1 - 4 * (p.mEta * p.mEta) / p.sA)), ?_, ?_⟩
    · have := hp.g_2K; have := hp.g_2eta; positivity
    · push_cast; ring
  obtain ⟨x, hx, hxe⟩ := hw
  rw [hz, hxe]
  have e : ((p.M * p.M - p.sA - p.g1sg p.sA * 0 * (buggJ1 p.sA p.mPi - buggJ1 (p.M * p.M) p.mPi) : ℝ) : ℂ) - I * (I * x) = ((p.M * p.M - p.sA + x : ℝ) : ℂ) := by
    push_cast; linear_combination (-(x : ℂ)) * I_sq
  rw [e, quot_some (ofReal_ne_zero.2 (by nlinarith)), Option.map_some]
  simp

example : (⟨0.935, 1.302, 0.340, 2.426, 0.011, 0.6, 0.2, 1.3, 0.0077, 7.082, 2.8, 0.13957, 0.49368, 0.54786⟩ : BuggPar).Physical := by
  constructor <;> norm_num

/-! ### Decays to three bodies -/

theorem mass_product {p q : ℝ × ℝ × ℝ × ℝ} {m n : ℝ} (hp : OnShell p m) (hq : OnShell q n) : m * n ≤ minkowski p q := by
  obtain ⟨p1, p2, p3, pE⟩ := p
  obtain ⟨q1, q2, q3, qE⟩ := q
  obtain ⟨hm, hpE, hpp⟩ := hp
  obtain ⟨hn, hqE, hqq⟩ := hq
  simp only [minkowski] at *
  have hcs : (p1 * q1 + p2 * q2 + p3 * q3) ^ 2 ≤ (p1 ^ 2 + p2 ^ 2 + p3 ^ 2) * (q1 ^ 2 + q2 ^ 2 + q3 ^ 2) := by
    nlinarith [sq_nonneg (p1 * q2 - p2 * q1), sq_nonneg (p1 * q3 - p3 * q1), sq_nonneg (p2 * q3 - p3 * q2)]
  have e1 : pE ^ 2 = m ^ 2 + (p1 ^ 2 + p2 ^ 2 + p3 ^ 2) := by nlinarith
  have e2 : qE ^ 2 = n ^ 2 + (q1 ^ 2 + q2 ^ 2 + q3 ^ 2) := by nlinarith
  obtain ⟨P, hP⟩ : ∃ P, P = p1 ^ 2 + p2 ^ 2 + p3 ^ 2 := ⟨_, rfl⟩
  obtain ⟨Q, hQ⟩ : ∃ Q, Q = q1 ^ 2 + q2 ^ 2 + q3 ^ 2 := ⟨_, rfl⟩
  have hP0 : 0 ≤ P := by rw [hP]; positivity
  have hQ0 : 0 ≤ Q := by rw [hQ]; positivity
  rw [← hP, ← hQ] at hcs
  rw [← hP] at e1
  rw [← hQ] at e2
  have hd : |p1 * q1 + p2 * q2 + p3 * q3| ≤ √P * √Q := by
    rw [← Real.sqrt_mul hP0]; exact Real.abs_le_sqrt hcs
  have hd' := (abs_le.1 hd).2
  have hle : m * n + √P * √Q ≤ pE * qE := by
    apply le_of_sq_le_sq _ (by positivity)
    rw [mul_pow, e1, e2]
    have := sq_nonneg (m * √Q - n * √P)
    have a := Real.sq_sqrt hP0
    have b := Real.sq_sqrt hQ0
    nlinarith
  linarith

/-- The momentum as the code has it. -/
def toP4 (p : ℝ × ℝ × ℝ × ℝ) : P4 := ⟨p.1, p.2.1, p.2.2.1, p.2.2.2⟩

/-- The square of the amplitude is the distribution documented over the whole of the Dalitz plot, and positive, for a particle and its products on their mass
shell and if the mass of the neutral product is not too small. -/
theorem eta_density (m mp mm m0 : ℝ) (pp pm p0 : ℝ × ℝ × ℝ × ℝ) (hpp : OnShell pp mp) (hpm : OnShell pm mm) (hp0 : OnShell p0 m0) (hm : 0 < m)
    (hP : minkowski (pp + pm + p0) (pp + pm + p0) = m ^ 2) (hT : mp + mm + m0 < m) (hr : mp + mm - m0 ≤ 0.28 * m) :
    EtaDalitz m mp mm m0 (toP4 pp) (toP4 pm) (toP4 p0) ^ 2 =
        1 - 1.07 * (3 * kinetic (pp + pm + p0) p0 / (kinetic (pp + pm + p0) pp + kinetic (pp + pm + p0) pm + kinetic (pp + pm + p0) p0) - 1) ∧
      0 < EtaDalitz m mp mm m0 (toP4 pp) (toP4 pm) (toP4 p0) := by
  have k : ∀ p n, OnShell p n → kinetic (pp + pm + p0) p = minkowski p (pp + pm + p0) - m * n := by
    intro p n h
    unfold kinetic
    rw [hP, h.2.2, Real.sqrt_sq hm.le, Real.sqrt_sq h.1]
  have ed : ∀ p, dot (toP4 p) (((toP4 pp).add (toP4 pm)).add (toP4 p0)) = minkowski p (pp + pm + p0) := by
    intro p
    unfold dot toP4 P4.add minkowski
    simp only [Prod.snd_add, Prod.fst_add]
  rw [k p0 m0 hp0, k pp mp hpp, k pm mm hpm]
  have eY : etaY m mp mm m0 (toP4 pp) (toP4 pm) (toP4 p0) = 3 * (minkowski p0 (pp + pm + p0) - m * m0) /
      (minkowski pp (pp + pm + p0) - m * mp + (minkowski pm (pp + pm + p0) - m * mm) + (minkowski p0 (pp + pm + p0) - m * m0)) - 1 := by
    unfold etaY
    simp only
    rw [ed, ed, ed]
  have hpair := mass_product hpp hpm
  have bil : ∀ a b c d : ℝ × ℝ × ℝ × ℝ, minkowski a (b + c + d) = minkowski a b + minkowski a c + minkowski a d := by
    intro a b c d; unfold minkowski; simp only [Prod.snd_add, Prod.fst_add]; ring
  have bil' : minkowski (pp + pm + p0) (pp + pm + p0) = minkowski pp (pp + pm + p0) + minkowski pm (pp + pm + p0) + minkowski p0 (pp + pm + p0) := by
    unfold minkowski; simp only [Prod.snd_add, Prod.fst_add]; ring
  have sym : ∀ a b, minkowski a b = minkowski b a := by intro a b; unfold minkowski; ring
  have h2 : 2 * minkowski p0 (pp + pm + p0) ≤ m ^ 2 + m0 ^ 2 - (mp + mm) ^ 2 := by
    have e1 := hP
    rw [bil', bil pp, bil pm, bil p0, hpp.2.2, hpm.2.2, hp0.2.2, sym pm pp, sym p0 pp, sym p0 pm] at e1
    rw [bil p0, hp0.2.2, sym p0 pp, sym p0 pm]
    nlinarith
  have hQ : minkowski pp (pp + pm + p0) - m * mp + (minkowski pm (pp + pm + p0) - m * mm) + (minkowski p0 (pp + pm + p0) - m * m0) = m * (m - (mp + mm + m0)) := by
    rw [bil'] at hP; linear_combination hP
  have hQ0 : 0 < m * (m - (mp + mm + m0)) := mul_pos hm (by linarith)
  have hz : 0 < 1 - 1.07 * etaY m mp mm m0 (toP4 pp) (toP4 pm) (toP4 p0) := by
    rw [eY, hQ]
    obtain ⟨T, hTe⟩ : ∃ T, minkowski p0 (pp + pm + p0) - m * m0 = T := ⟨_, rfl⟩
    have hTle : 2 * T ≤ (m - (mp + mm + m0)) * (m - m0 + (mp + mm)) := by rw [← hTe]; nlinarith
    rw [hTe]
    have hlt : 3 * T / (m * (m - (mp + mm + m0))) ≤ 1.92 := by
      rw [div_le_iff₀ hQ0]
      have : (m - (mp + mm + m0)) * (m - m0 + (mp + mm)) ≤ (m - (mp + mm + m0)) * (1.28 * m) :=
        mul_le_mul_of_nonneg_left (by linarith) (by linarith)
      nlinarith
    linarith
  unfold EtaDalitz
  simp only
  rw [if_pos hz, Real.sq_sqrt hz.le]
  exact ⟨by rw [eY], Real.sqrt_pos.2 hz⟩

example : ∃ (m mp mm m0 : ℝ) (pp pm p0 : ℝ × ℝ × ℝ × ℝ), OnShell pp mp ∧ OnShell pm mm ∧ OnShell p0 m0 ∧ 0 < m ∧
    minkowski (pp + pm + p0) (pp + pm + p0) = m ^ 2 ∧ mp + mm + m0 < m ∧ mp + mm - m0 ≤ 0.28 * m := by
  refine ⟨13, 3, 3, 3, (4, 0, 0, 5), (-4, 0, 0, 5), (0, 0, 0, 3), ?_, ?_, ?_, ?_, ?_, ?_, ?_⟩ <;> norm_num [OnShell, minkowski]

/-- `PolyNR` is a polynomial in the masses of both pairs. -/
theorem polynr_sum (degree : ℕ) (C : ℕ → ℕ → ℝ) (s01 s02 : ℝ) :
    PolyNR degree C s01 s02 = ∑ i ∈ Finset.range (degree + 1), ∑ j ∈ Finset.range (degree + 1), C i j * s01 ^ i * s02 ^ j := by
  have fold : ∀ (n : ℕ) (f : ℕ → ℝ) (z : ℝ), (List.range n).foldl (fun (r : ℝ) (i : ℕ) => r + f i) z = z + ∑ i ∈ Finset.range n, f i := by
    intro n f
    induction n with
    | zero => intro z; simp
    | succ n ih => intro z; rw [List.range_succ, List.foldl_append, ih, Finset.sum_range_succ, List.foldl_cons, List.foldl_nil, add_assoc]
  unfold PolyNR
  simp only [fold, zero_add]

/-- The documentation has the root of the polynomial. -/
theorem polynr_root_counterexample : ∃ (degree : ℕ) (C : ℕ → ℕ → ℝ), ∀ s01 s02 : ℝ,
    PolyNR degree C s01 s02 ≠ √(∑ i ∈ Finset.range (degree + 1), ∑ j ∈ Finset.range (degree + 1), C i j * s01 ^ i * s02 ^ j) := by
  refine ⟨0, fun _ _ => 4, fun s01 s02 => ?_⟩
  rw [polynr_sum]
  simp only [Finset.sum_range_one, zero_add, pow_zero, mul_one]
  rw [show (4 : ℝ) = 2 ^ 2 by norm_num, Real.sqrt_sq (by norm_num)]
  norm_num

example : PolyNR 1 (fun i j => i + j) 2 3 = 17 := by
  rw [polynr_sum]; simp [Finset.sum_range_succ]; norm_num

end AmpGen.Shapes
