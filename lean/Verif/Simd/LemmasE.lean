import Verif.Simd.Lemmas
namespace AmpGen.Simd
open AmpGen.Expr Spec

variable {isa : Isa} {i : Fin isa.size}

theorem lane_real {a : RealV isa} {x : Val} (h : lane i (.real a) = some x) : ∃ r, a i = some r ∧ x = .real r := by
  unfold lane at h
  cases h1 : a i with
  | none => simp [h1] at h
  | some r => exact ⟨r, rfl, by simpa [h1] using h.symm⟩

theorem lane_mask {m : Mask isa} {x : Val} (h : lane i (.mask m) = some x) : ∃ t, m i = some t ∧ x = .bool t := by
  unfold lane at h
  cases h1 : m i with
  | none => simp [h1] at h
  | some r => exact ⟨r, rfl, by simpa [h1] using h.symm⟩

theorem lane_cplx {a : ComplexV isa} {x : Val} (h : lane i (.cplx a) = some x) : ∃ z, At i a z ∧ x = .cplx z := by
  unfold lane at h
  cases h1 : a.re i with
  | none => simp [h1] at h
  | some r =>
    cases h2 : a.im i with
    | none => simp [h1, h2] at h
    | some s => exact ⟨⟨r, s⟩, ⟨h1, h2⟩, by simpa [h1, h2] using h.symm⟩

theorem of_real {a : RealV isa} {r : ℝ} (h : a i = some r) : lane i (.real a) = some (.real r) := by simp [lane, h]
theorem of_mask {a : Mask isa} {r : Bool} (h : a i = some r) : lane i (.mask a) = some (.bool r) := by simp [lane, h]
theorem of_cplx {a : ComplexV isa} {z : ℂ} (h : At i a z) : lane i (.cplx a) = some (.cplx z) := at_iff.mp h

theorem cpow_half_ne {z : ℂ} (h : z ≠ 0) : z ^ (1 / 2 : ℂ) ≠ 0 := by
  rw [Ne, Complex.cpow_eq_zero_iff]; exact fun hh => h hh.1

/-- Unary functions, in a lane. -/
theorem un_lane {f : Un} {a v : VVal isa} {x y : Val} (hv : vun f a = some v) (ha : lane i a = some x) (hy : unary f x = some y)
    (hc : ∀ z, (f = .sqrt ∨ f = .isqrt) → x = .cplx z → ¬ (z.im = 0 ∧ z.re < 0)) : lane i v = some y := by
  cases a with
  | mask m => cases f <;> simp [vun] at hv
  | real a =>
    obtain ⟨r, hr, rfl⟩ := lane_real ha
    cases f
    case log =>
      simp only [vun, Option.some.injEq] at hv; subst hv
      simp only [unary] at hy; split at hy
      · rename_i h; cases hy; exact of_real (log_lane hr h)
      · cases hy
    case sqrt =>
      simp only [vun, Option.some.injEq] at hv; subst hv
      simp only [unary] at hy; split at hy
      · rename_i h; cases hy; exact of_real (sqrt_lane hr h)
      · cases hy
    case exp => simp only [vun, Option.some.injEq] at hv; subst hv; cases hy; exact of_real (exp_lane hr)
    case sin => simp only [vun, Option.some.injEq] at hv; subst hv; cases hy; exact of_real (sin_lane hr)
    case cos => simp only [vun, Option.some.injEq] at hv; subst hv; cases hy; exact of_real (cos_lane hr)
    case tan =>
      simp only [vun, Option.some.injEq] at hv; subst hv
      simp only [unary] at hy; split at hy
      · cases hy
      · rename_i h; cases hy; exact of_real (tan_lane hr h)
    case real => simp only [vun, Option.some.injEq] at hv; subst hv; cases hy; exact of_real hr
    case isqrt =>
      simp only [vun, Option.some.injEq] at hv; subst hv
      simp only [unary] at hy; split at hy
      · rename_i h; cases hy; exact of_real (div_lane (splat_lane 1) (sqrt_lane hr h.le) (Real.sqrt_pos.mpr h).ne')
      · cases hy
    case conj =>
      simp only [vun] at hv; split at hv
      · cases hv
      · cases hv; cases hy; exact of_real hr
    case abs => simp only [vun, Option.some.injEq] at hv; subst hv; cases hy; exact of_real (abs_lane hr)
    all_goals simp [vun] at hv
  | cplx a =>
    obtain ⟨z, hz, rfl⟩ := lane_cplx ha
    cases f
    case log =>
      simp only [vun, Option.some.injEq] at hv; subst hv
      simp only [unary] at hy; split at hy
      · cases hy
      · rename_i h; cases hy; exact of_cplx (clog_at hz h)
    case sqrt =>
      simp only [vun, Option.some.injEq] at hv; subst hv; cases hy
      exact of_cplx (csqrt_at hz (hc z (Or.inl rfl) rfl))
    case exp => simp only [vun, Option.some.injEq] at hv; subst hv; cases hy; exact of_cplx (cexp_at hz)
    case norm => simp only [vun, Option.some.injEq] at hv; subst hv; cases hy; exact of_real (norm_at hz)
    case real => simp only [vun, Option.some.injEq] at hv; subst hv; cases hy; exact of_real hz.1
    case imag => simp only [vun, Option.some.injEq] at hv; subst hv; cases hy; exact of_real hz.2
    case isqrt =>
      simp only [vun, Option.some.injEq] at hv; subst hv
      simp only [unary] at hy; split at hy
      · cases hy
      · rename_i h; cases hy
        have := Rdiv_at (splat_lane (i := i) 1) (csqrt_at hz (hc z (Or.inr rfl) rfl)) (cpow_half_ne h)
        rw [Complex.ofReal_one] at this
        exact of_cplx this
    case conj => simp only [vun, Option.some.injEq] at hv; subst hv; cases hy; exact of_cplx (conj_at hz)
    case abs => simp only [vun, Option.some.injEq] at hv; subst hv; cases hy; exact of_real (cabs_at hz)
    all_goals simp [vun] at hv

/-- Binary functions, in a lane. -/
theorem bin_lane {op : Bin} {a b v : VVal isa} {x y w : Val} (hv : vbin op a b = some v) (ha : lane i a = some x) (hb : lane i b = some y)
    (hw : binary op x y = some w) (hge : op = .ge → isa ≠ .arm128d) : lane i v = some w := by
  cases op
  case sum =>
    cases a <;> cases b <;> simp only [vbin, Option.some.injEq, reduceCtorEq] at hv <;> subst hv
    · obtain ⟨r, hr, rfl⟩ := lane_real ha; obtain ⟨s, hs, rfl⟩ := lane_real hb; cases hw; exact of_real (add_lane hr hs)
    · obtain ⟨r, hr, rfl⟩ := lane_real ha; obtain ⟨s, hs, rfl⟩ := lane_cplx hb; cases hw; exact of_cplx (Radd_at hr hs)
    · obtain ⟨r, hr, rfl⟩ := lane_cplx ha; obtain ⟨s, hs, rfl⟩ := lane_real hb; cases hw; exact of_cplx (addR_at hr hs)
    · obtain ⟨r, hr, rfl⟩ := lane_cplx ha; obtain ⟨s, hs, rfl⟩ := lane_cplx hb; cases hw; exact of_cplx (cadd_at hr hs)
  case sub =>
    cases a <;> cases b <;> simp only [vbin, Option.some.injEq, reduceCtorEq] at hv <;> subst hv
    · obtain ⟨r, hr, rfl⟩ := lane_real ha; obtain ⟨s, hs, rfl⟩ := lane_real hb; cases hw; exact of_real (sub_lane hr hs)
    · obtain ⟨r, hr, rfl⟩ := lane_real ha; obtain ⟨s, hs, rfl⟩ := lane_cplx hb; cases hw; exact of_cplx (Rsub_at hr hs)
    · obtain ⟨r, hr, rfl⟩ := lane_cplx ha; obtain ⟨s, hs, rfl⟩ := lane_real hb; cases hw; exact of_cplx (subR_at hr hs)
    · obtain ⟨r, hr, rfl⟩ := lane_cplx ha; obtain ⟨s, hs, rfl⟩ := lane_cplx hb; cases hw; exact of_cplx (csub_at hr hs)
  case prod =>
    cases a <;> cases b <;> simp only [vbin, Option.some.injEq, reduceCtorEq] at hv <;> subst hv
    · obtain ⟨r, hr, rfl⟩ := lane_real ha; obtain ⟨s, hs, rfl⟩ := lane_real hb; cases hw; exact of_real (mul_lane hr hs)
    · obtain ⟨r, hr, rfl⟩ := lane_real ha; obtain ⟨s, hs, rfl⟩ := lane_cplx hb; cases hw; exact of_cplx (Rmul_at hr hs)
    · obtain ⟨r, hr, rfl⟩ := lane_cplx ha; obtain ⟨s, hs, rfl⟩ := lane_real hb; cases hw; exact of_cplx (mulR_at hr hs)
    · obtain ⟨r, hr, rfl⟩ := lane_cplx ha; obtain ⟨s, hs, rfl⟩ := lane_cplx hb; cases hw; exact of_cplx (cmul_at hr hs)
  case div =>
    cases a <;> cases b <;> simp only [vbin, Option.some.injEq, reduceCtorEq] at hv <;> subst hv
    · obtain ⟨r, hr, rfl⟩ := lane_real ha; obtain ⟨s, hs, rfl⟩ := lane_real hb
      by_cases h0 : s = 0
      · simp [binary, arith, h0] at hw
      · simp only [binary, arith, h0, if_false, Option.map_some, Option.some.injEq] at hw; subst hw; exact of_real (div_lane hr hs h0)
    · obtain ⟨r, hr, rfl⟩ := lane_real ha; obtain ⟨s, hs, rfl⟩ := lane_cplx hb
      by_cases h0 : s = 0
      · simp [binary, arith, Val.number, h0] at hw
      · simp only [binary, arith, Val.number, Option.bind_some, h0, if_false, Option.map_some, Option.some.injEq] at hw; subst hw
        exact of_cplx (Rdiv_at hr hs h0)
    · obtain ⟨r, hr, rfl⟩ := lane_cplx ha; obtain ⟨s, hs, rfl⟩ := lane_real hb
      by_cases h0 : s = 0
      · simp [binary, arith, Val.number, h0] at hw
      · have h1 : (s : ℂ) ≠ 0 := by exact_mod_cast h0
        simp only [binary, arith, Val.number, Option.bind_some, h1, if_false, Option.map_some, Option.some.injEq] at hw; subst hw
        exact of_cplx (divR_at hr hs h0)
    · obtain ⟨r, hr, rfl⟩ := lane_cplx ha; obtain ⟨s, hs, rfl⟩ := lane_cplx hb
      by_cases h0 : s = 0
      · simp [binary, arith, Val.number, h0] at hw
      · simp only [binary, arith, Val.number, Option.bind_some, h0, if_false, Option.map_some, Option.some.injEq] at hw; subst hw
        exact of_cplx (cdiv_at hr hs h0)
  case and =>
    cases a <;> cases b <;> simp only [vbin, Option.some.injEq, reduceCtorEq] at hv
    subst hv
    obtain ⟨r, hr, rfl⟩ := lane_mask ha; obtain ⟨s, hs, rfl⟩ := lane_mask hb; cases hw
    exact of_mask (by simp [and, hr, hs])
  case or =>
    cases a <;> cases b <;> simp only [vbin, Option.some.injEq, reduceCtorEq] at hv
    subst hv
    obtain ⟨r, hr, rfl⟩ := lane_mask ha; obtain ⟨s, hs, rfl⟩ := lane_mask hb; cases hw
    exact of_mask (by simp [or, hr, hs])
  case pow => cases a <;> cases b <;> simp [vbin] at hv
  case fmod =>
    cases a <;> cases b <;> simp only [vbin, Option.some.injEq, reduceCtorEq] at hv
    subst hv
    obtain ⟨r, hr, rfl⟩ := lane_real ha; obtain ⟨s, hs, rfl⟩ := lane_real hb
    simp only [binary] at hw
    split at hw
    · cases hw
    · rename_i h0; cases hw; exact of_real (fmod_lane hr hs h0)
  case ge =>
    cases a <;> cases b <;> simp only [vbin, Option.some.injEq, reduceCtorEq] at hv
    subst hv
    obtain ⟨r, hr, rfl⟩ := lane_real ha; obtain ⟨s, hs, rfl⟩ := lane_real hb; cases hw
    exact of_mask (ge_lane (hge rfl) hr hs)
  case gt =>
    cases a <;> cases b <;> simp only [vbin, Option.some.injEq, reduceCtorEq] at hv
    subst hv
    obtain ⟨r, hr, rfl⟩ := lane_real ha; obtain ⟨s, hs, rfl⟩ := lane_real hb; cases hw
    exact of_mask (gt_lane hr hs)
  case lt =>
    cases a <;> cases b <;> simp only [vbin, Option.some.injEq, reduceCtorEq] at hv
    subst hv
    obtain ⟨r, hr, rfl⟩ := lane_real ha; obtain ⟨s, hs, rfl⟩ := lane_real hb; cases hw
    exact of_mask (lt_lane hr hs)
  case le =>
    cases a <;> cases b <;> simp only [vbin, Option.some.injEq, reduceCtorEq] at hv
    subst hv
    obtain ⟨r, hr, rfl⟩ := lane_real ha; obtain ⟨s, hs, rfl⟩ := lane_real hb; cases hw
    exact of_mask (le_lane hr hs)
  case eq =>
    cases a <;> cases b <;> simp only [vbin, Option.some.injEq, reduceCtorEq] at hv
    subst hv
    obtain ⟨r, hr, rfl⟩ := lane_real ha; obtain ⟨s, hs, rfl⟩ := lane_real hb; cases hw
    exact of_mask (eq_lane hr hs)
  case atan2 =>
    cases a <;> cases b <;> simp only [vbin, Option.some.injEq, reduceCtorEq] at hv
    subst hv
    obtain ⟨r, hr, rfl⟩ := lane_real ha; obtain ⟨s, hs, rfl⟩ := lane_real hb; cases hw
    exact of_real (atan2_lane hr hs)

/-- Whether a vector value is complex. -/
def VVal.isC : VVal isa → Bool
  | .cplx _ => true
  | _ => false

theorem vun_isC {f : Un} {a v : VVal isa} (h : vun f a = some v) :
    v.isC = (decide (f = .log ∨ f = .sqrt ∨ f = .exp ∨ f = .isqrt ∨ f = .conj) && a.isC) := by
  cases f <;> cases a <;> simp only [vun, Option.some.injEq, reduceCtorEq] at h <;> first
    | (subst h; simp [VVal.isC])
    | (split at h <;> cases h; simp [VVal.isC])

theorem vbin_isC {op : Bin} {a b v : VVal isa} (h : vbin op a b = some v) :
    v.isC = (decide (op = .sum ∨ op = .sub ∨ op = .prod ∨ op = .div) && (a.isC || b.isC)) := by
  cases op <;> cases a <;> cases b <;> simp only [vbin, Option.some.injEq, reduceCtorEq] at h <;> subst h <;> simp [VVal.isC]

theorem vselect_isC {c a b v : VVal isa} (h : vselect c a b = some v) : v.isC = (a.isC || b.isC) := by
  cases c <;> cases a <;> cases b <;> simp only [vselect, Option.some.injEq, reduceCtorEq] at h <;> subst h <;> simp [VVal.isC]

/-- The type of the generated code. -/
theorem veval_isC {env : String → Fin isa.size → ℝ} : ∀ {e : Ex ℂ} {v : VVal isa}, veval env e = some v → v.isC = isComplex e := by
  intro e
  induction e with
  | const z =>
    intro v h
    simp only [veval, Option.some.injEq] at h; subst h
    by_cases hz : z.im = 0 <;> simp [hz, VVal.isC, isComplex]
  | param n => intro v h; cases h; rfl
  | cparam n m => intro v h; cases h; rfl
  | lambda n => intro v h; cases h; rfl
  | func n => intro v h; cases h
  | un f e ih =>
    intro v h
    simp only [veval, Option.bind_eq_some_iff] at h
    obtain ⟨a, ha, hv⟩ := h
    rw [vun_isC hv, ih ha]; simp [isComplex]
  | bin op l r ihl ihr =>
    intro v h
    simp only [veval, Option.bind_eq_some_iff] at h
    obtain ⟨a, ha, b, hb, hv⟩ := h
    rw [vbin_isC hv, ihl ha, ihr hb]; simp [isComplex]
  | ternary c x y ihc ihx ihy =>
    intro v h
    simp only [veval, Option.bind_eq_some_iff] at h
    obtain ⟨t, ht, a, ha, b, hb, hv⟩ := h
    rw [vselect_isC hv, ihx ha, ihy hb]; simp [isComplex]
  | subtree k e ih =>
    intro v h
    simp only [veval] at h
    rw [ih h]; simp [isComplex]

/-- A choice, in a lane. -/
theorem select_val {m : Mask isa} {a b v : VVal isa} {t : Bool} {x w : Val} (hv : vselect (.mask m) a b = some v) (hm : m i = some t)
    (hx : lane i (if t then a else b) = some x) (hw : (if a.isC || b.isC then x.number.map .cplx else some x) = some w) : lane i v = some w := by
  cases a <;> cases b <;> simp only [vselect, Option.some.injEq, reduceCtorEq] at hv <;> subst hv
  · rename_i a b
    simp only [VVal.isC, Bool.or_self, Bool.false_eq_true, if_false, Option.some.injEq] at hw; subst hw
    cases t
    · obtain ⟨r, hr, rfl⟩ := lane_real (a := b) (by simpa using hx); exact of_real (by rw [select_lane hm]; simpa using hr)
    · obtain ⟨r, hr, rfl⟩ := lane_real (a := a) (by simpa using hx); exact of_real (by rw [select_lane hm]; simpa using hr)
  · rename_i a b
    cases t
    · obtain ⟨r, hr, rfl⟩ := lane_cplx (a := b) (by simpa using hx)
      simp only [VVal.isC, Bool.or_true, if_true, Val.number, Option.map_some, Option.some.injEq] at hw; subst hw
      exact of_cplx ⟨by simp only [cselect]; rw [select_lane hm]; simpa using hr.1, by simp only [cselect]; rw [select_lane hm]; simpa using hr.2⟩
    · obtain ⟨r, hr, rfl⟩ := lane_real (a := a) (by simpa using hx)
      simp only [VVal.isC, Bool.or_true, if_true, Val.number, Option.map_some, Option.some.injEq] at hw; subst hw
      exact of_cplx ⟨by simp only [cselect]; rw [select_lane hm]; simpa using hr, by simp only [cselect]; rw [select_lane hm]; simp [splat]⟩
  · rename_i a b
    cases t
    · obtain ⟨r, hr, rfl⟩ := lane_real (a := b) (by simpa using hx)
      simp only [VVal.isC, Bool.true_or, if_true, Val.number, Option.map_some, Option.some.injEq] at hw; subst hw
      exact of_cplx ⟨by simp only [cselect]; rw [select_lane hm]; simpa using hr, by simp only [cselect]; rw [select_lane hm]; simp [splat]⟩
    · obtain ⟨r, hr, rfl⟩ := lane_cplx (a := a) (by simpa using hx)
      simp only [VVal.isC, Bool.true_or, if_true, Val.number, Option.map_some, Option.some.injEq] at hw; subst hw
      exact of_cplx ⟨by simp only [cselect]; rw [select_lane hm]; simpa using hr.1, by simp only [cselect]; rw [select_lane hm]; simpa using hr.2⟩
  · rename_i a b
    cases t
    · obtain ⟨r, hr, rfl⟩ := lane_cplx (a := b) (by simpa using hx)
      simp only [VVal.isC, Bool.or_true, if_true, Val.number, Option.map_some, Option.some.injEq] at hw; subst hw
      exact of_cplx ⟨by simp only [cselect]; rw [select_lane hm]; simpa using hr.1, by simp only [cselect]; rw [select_lane hm]; simpa using hr.2⟩
    · obtain ⟨r, hr, rfl⟩ := lane_cplx (a := a) (by simpa using hx)
      simp only [VVal.isC, Bool.true_or, if_true, Val.number, Option.map_some, Option.some.injEq] at hw; subst hw
      exact of_cplx ⟨by simp only [cselect]; rw [select_lane hm]; simpa using hr.1, by simp only [cselect]; rw [select_lane hm]; simpa using hr.2⟩

/-- The generated code for vectors, lane by lane. -/
theorem veval_lane {env : String → Fin isa.size → ℝ} : ∀ {e : Ex ℂ} {v : VVal isa} {x : Val}, veval env e = some v →
    OffCut (fun n => env n i) e → (isa = .arm128d → ¬ UsesGe e) → value (fun n => env n i) e = some x → lane i v = some x := by
  intro e
  induction e with
  | const z =>
    intro v x h _ _ hx
    simp only [veval, Option.some.injEq] at h; subst h
    simp only [value, Option.some.injEq] at hx; subst hx
    by_cases hz : z.im = 0
    · simp only [hz, if_true]; exact of_real rfl
    · simp only [hz, if_false]; exact of_cplx ⟨rfl, rfl⟩
  | param n => intro v x h _ _ hx; cases h; cases hx; exact of_real rfl
  | cparam n m => intro v x h _ _ hx; cases h; cases hx; exact of_cplx ⟨rfl, rfl⟩
  | lambda n => intro v x h _ _ hx; cases h; cases hx; exact of_real rfl
  | func n => intro v x h; cases h
  | un f e ih =>
    intro v x h hc hg hx
    simp only [veval, Option.bind_eq_some_iff] at h
    obtain ⟨a, ha, hv⟩ := h
    simp only [value, Option.bind_eq_some_iff] at hx
    obtain ⟨y, hy, hx⟩ := hx
    refine un_lane hv (ih ha (fun f a z hf hw => hc f a z hf (.un hw)) (fun hi ⟨a, b, hw⟩ => hg hi ⟨a, b, .un hw⟩) hy) hx ?_
    intro z hf hz
    subst hz
    exact hc f e z hf (.refl _) hy
  | bin op l r ihl ihr =>
    intro v x h hc hg hx
    simp only [veval, Option.bind_eq_some_iff] at h
    obtain ⟨a, ha, b, hb, hv⟩ := h
    simp only [value, Option.bind_eq_some_iff] at hx
    obtain ⟨y, hy, z, hz, hx⟩ := hx
    refine bin_lane hv (ihl ha (fun f a z hf hw => hc f a z hf (.left hw)) (fun hi ⟨a, b, hw⟩ => hg hi ⟨a, b, .left hw⟩) hy)
      (ihr hb (fun f a z hf hw => hc f a z hf (.right hw)) (fun hi ⟨a, b, hw⟩ => hg hi ⟨a, b, .right hw⟩) hz) hx ?_
    rintro rfl hi
    exact hg hi ⟨l, r, .refl _⟩
  | ternary c p q ihc ihp ihq =>
    intro v x h hc hg hx
    simp only [veval, Option.bind_eq_some_iff] at h
    obtain ⟨t, ht, a, ha, b, hb, hv⟩ := h
    simp only [value, Option.bind_eq_some_iff] at hx
    obtain ⟨y, hy, hx⟩ := hx
    have hl := ihc ht (fun f a z hf hw => hc f a z hf (.cond hw)) (fun hi ⟨a, b, hw⟩ => hg hi ⟨a, b, .cond hw⟩) hy
    cases y with
    | real r => simp at hx
    | cplx r => simp at hx
    | bool s =>
      simp only [Option.bind_eq_some_iff] at hx
      obtain ⟨u, hu, hx⟩ := hx
      cases t with
      | real t => obtain ⟨_, _, h⟩ := lane_real hl; cases h
      | cplx t => obtain ⟨_, _, h⟩ := lane_cplx hl; cases h
      | mask m =>
        obtain ⟨s', hm, h⟩ := lane_mask hl
        cases h
        rw [← veval_isC ha, ← veval_isC hb] at hx
        refine select_val hv hm ?_ hx
        cases s
        · simp only [Bool.false_eq_true, if_false] at hu ⊢
          exact ihq hb (fun f a z hf hw => hc f a z hf (.no hw)) (fun hi ⟨a, b, hw⟩ => hg hi ⟨a, b, .no hw⟩) hu
        · simp only [if_true] at hu ⊢
          exact ihp ha (fun f a z hf hw => hc f a z hf (.yes hw)) (fun hi ⟨a, b, hw⟩ => hg hi ⟨a, b, .yes hw⟩) hu
  | subtree k e ih =>
    intro v x h hc hg hx
    simp only [veval] at h
    simp only [value] at hx
    exact ih h (fun f a z hf hw => hc f a z hf (.subtree hw)) (fun hi ⟨a, b, hw⟩ => hg hi ⟨a, b, .subtree hw⟩) hx

end AmpGen.Simd
