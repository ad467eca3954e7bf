import Verif.Helicity.LemmasGram
/-
The sums over polarisations in an event and in the rotated event.
-/
namespace AmpGen.Helicity
open Complex Spec
open AmpGen.Transform
open AmpGen.Polarisation (Mom Properties)
open AmpGen.Polarisation.Spec (OnShell)
open AmpGen.Wigner (toInt toInt_nat)
open AmpGen.Spin (LS recouplingConstants recoupling passes_nat cg_selection_rules)

/-- The amplitude of a projection. -/
noncomputable def A (cfg : Config) (t : Particle) (F : TransformSequence) (i : Nat) : ℂ := (value cfg t (some F) (i - (t.props.twoSpin : ℝ) / 2)).getD 0

/-- All amplitudes have a value. -/
def Defined (cfg : Config) (t : Particle) (F : TransformSequence) : Prop :=
  ∀ t' ∈ polarised t, ∀ i ≤ t.props.twoSpin, value cfg t' (some F) (i - (t.props.twoSpin : ℝ) / 2) = some (A cfg t' F i)

/-- The sum over polarisations of the products of two amplitudes. -/
noncomputable def gram (cfg : Config) (t : Particle) (F : TransformSequence) (i j : Nat) : ℂ := S (polarised t) fun t' => A cfg t' F i * (starRingEnd ℂ) (A cfg t' F j)

/-! ### Couplings -/

noncomputable def ia (d : Properties) (k : LS) : Nat := (toInt (k.m1 + (d.twoSpin : ℝ) / 2)).toNat
noncomputable def ib (d : Properties) (k : LS) : Nat := (toInt (k.m2 + (d.twoSpin : ℝ) / 2)).toNat
noncomputable def ic (pr : Properties) (k : LS) : Nat := (toInt (k.m1 - k.m2 + (pr.twoSpin : ℝ) / 2)).toNat

theorem couples_index {pr d1 d2 : Properties} {cs : List LS} (h : Couples pr d1 d2 cs) {k : LS} (hk : k ∈ cs) :
    ia d1 k ≤ d1.twoSpin ∧ ib d2 k ≤ d2.twoSpin ∧ ic pr k ≤ pr.twoSpin ∧ k.m1 = ia d1 k - (d1.twoSpin : ℝ) / 2 ∧ k.m2 = ib d2 k - (d2.twoSpin : ℝ) / 2 ∧
      k.m1 - k.m2 = ic pr k - (pr.twoSpin : ℝ) / 2 := by
  obtain ⟨a, b, c, ha, hb, hc, e1, e2, e3⟩ := h k hk
  have h1 : ia d1 k = a := by unfold ia; rw [e1, sub_add_cancel, toInt_nat]; rfl
  have h2 : ib d2 k = b := by unfold ib; rw [e2, sub_add_cancel, toInt_nat]; rfl
  have h3 : ic pr k = c := by unfold ic; rw [e3, sub_add_cancel, toInt_nat]; rfl
  rw [h1, h2, h3]
  exact ⟨ha, hb, hc, e1, e2, e3⟩

theorem couples_recoupling (pr d1 d2 : Properties) (hp : 2 ∣ pr.twoSpin + d1.twoSpin + d2.twoSpin) (L S' : ℝ) :
    Couples pr d1 d2 (recouplingConstants (spin pr) L S' (spin d1) (spin d2)) := by
  intro k hk
  unfold recouplingConstants spin at hk
  rw [show (2 : ℝ) * ((d1.twoSpin : ℝ) / 2) = (d1.twoSpin : Nat) by ring, show (2 : ℝ) * ((d2.twoSpin : ℝ) / 2) = (d2.twoSpin : Nat) by ring, passes_nat, passes_nat] at hk
  simp only [List.mem_flatMap, List.mem_range] at hk
  obtain ⟨a, ha, b, hb, hk⟩ := hk
  split at hk
  · rename_i hne
    simp only [List.mem_singleton] at hk
    subst hk
    unfold recoupling at hne
    simp only [] at hne
    have hcg := left_ne_zero_of_mul (right_ne_zero_of_mul hne)
    obtain ⟨-, -, -, hM, -⟩ := cg_selection_rules _ _ _ _ _ _ hcg
    rw [abs_le] at hM
    obtain ⟨n, hn⟩ := hp
    have hn' : (pr.twoSpin : ℝ) + d1.twoSpin + d2.twoSpin = 2 * n := by exact_mod_cast hn
    obtain ⟨c, hc⟩ : ∃ c : ℤ, (c : ℝ) = (-((d1.twoSpin : ℝ) / 2) + a) - (-((d2.twoSpin : ℝ) / 2) + b) + (pr.twoSpin : ℝ) / 2 :=
      ⟨(n : ℤ) - d1.twoSpin + a - b, by push_cast; linarith⟩
    have hc0 : (0 : ℤ) ≤ c := by
      have : (0 : ℝ) ≤ c := by rw [hc]; linarith [hM.1]
      exact_mod_cast this
    obtain ⟨c', rfl⟩ := Int.eq_ofNat_of_zero_le hc0
    have hcn : (c' : ℝ) ≤ pr.twoSpin := by
      have : ((c' : ℤ) : ℝ) ≤ pr.twoSpin := by rw [hc]; linarith [hM.2]
      exact_mod_cast this
    refine ⟨a, b, c', by omega, by omega, by exact_mod_cast hcn, ?_, ?_, ?_⟩
    · unfold recoupling; simp only []; ring
    · unfold recoupling; simp only []; ring
    · unfold recoupling
      simp only []
      have : (c' : ℝ) = ((c' : ℤ) : ℝ) := by simp
      rw [this, hc]
      ring
  · simp at hk

/-- The couplings of a decay that makes sense. -/
theorem sound_couples {pr : Properties} {L S' : Nat} {ha : Option (List ℝ)} {d1 d2 : Particle} (h : Sound (.two pr L S' ha d1 d2)) :
    ∃ cs, couplings pr L S' ha d1.props d2.props = some cs ∧ Couples pr d1.props d2.props cs := by
  obtain ⟨-, -, h⟩ := h
  cases ha with
  | none => exact ⟨_, rfl, couples_recoupling _ _ _ h _ _⟩
  | some things =>
    obtain ⟨cs, h1, h2⟩ := h
    exact ⟨cs, h1, h2⟩

/-! ### The amplitude of two products -/

theorem two_value (cfg : Config) {pr : Properties} {L S' : Nat} {ha : Option (List ℝ)} {d1 d2 : Particle} {cs : List LS}
    (hcs : couplings pr L S' ha d1.props d2.props = some cs) (hco : Couples pr d1.props d2.props cs) {F F1 F2 : TransformSequence} (hF : Good F) {q : Mom}
    (hq : act F.transforms d1.P = q) (hqt : q 0 * q 0 + q 1 * q 1 ≠ 0) (h1 : frame cfg false d1 (some F) 1 = some F1) (h2 : frame cfg false d2 (some F) (-1) = some F2)
    (hd1 : Defined cfg d1 F1) (hd2 : Defined cfg d2 F2) {x y : Particle} (hx : x ∈ polarised d1) (hy : y ∈ polarised d2) (i : Nat) :
    value cfg (.two pr L S' ha x y) (some F) (i - (pr.twoSpin : ℝ) / 2) = some (S (cs.filter fun k => !skipped d1.props d2.props k) fun k =>
      k.factor * rotD q pr.twoSpin i (ic pr k) * A cfg x F1 (ia d1.props k) * A cfg y F2 (ib d2.props k)) := by
  obtain ⟨px, qx, -, -⟩ := polarised_same d1 x hx
  obtain ⟨py, qy, -, -⟩ := polarised_same d2 y hy
  rw [value, px, py, hcs, Option.bind_some]
  refine total_eq _ _ _ fun k hk => ?_
  have hk' := List.mem_of_mem_filter hk
  obtain ⟨i1, i2, i3, e1, e2, e3⟩ := couples_index hco hk'
  have hv1 : value cfg x (frame cfg false x (some F) 1) k.m1 = some (A cfg x F1 (ia d1.props k)) := by
    rw [frame_same cfg d1 x hx, h1, e1]
    exact hd1 x hx _ i1
  have hv2 : value cfg y (frame cfg false y (some F) (-1)) k.m2 = some (A cfg y F2 (ib d2.props k)) := by
    rw [frame_same cfg d2 y hy, h2, e2]
    exact hd2 y hy _ i2
  have hr : rotation (some F) x.P (spin pr) (i - (pr.twoSpin : ℝ) / 2) (k.m1 - k.m2) = some (rotD q pr.twoSpin i (ic pr k)) := by
    rw [qx, e3]
    exact rotD_eq hF hq hqt _ _ _
  simp only [hr, hv1, hv2]
  rfl

theorem two_gram (cfg : Config) {pr : Properties} {L S' : Nat} {ha : Option (List ℝ)} {d1 d2 : Particle} {cs : List LS}
    (hcs : couplings pr L S' ha d1.props d2.props = some cs) (hco : Couples pr d1.props d2.props cs) {F F1 F2 : TransformSequence} (hF : Good F) {q : Mom}
    (hq : act F.transforms d1.P = q) (hqt : q 0 * q 0 + q 1 * q 1 ≠ 0) (h1 : frame cfg false d1 (some F) 1 = some F1) (h2 : frame cfg false d2 (some F) (-1) = some F2)
    (hd1 : Defined cfg d1 F1) (hd2 : Defined cfg d2 F2) : Defined cfg (.two pr L S' ha d1 d2) F ∧
    ∀ i j, gram cfg (.two pr L S' ha d1 d2) F i j = S (cs.filter fun k => !skipped d1.props d2.props k) fun k => S (cs.filter fun k => !skipped d1.props d2.props k) fun k' =>
      k.factor * k'.factor * (rotD q pr.twoSpin i (ic pr k) * (starRingEnd ℂ) (rotD q pr.twoSpin j (ic pr k'))) *
        (gram cfg d1 F1 (ia d1.props k) (ia d1.props k') * gram cfg d2 F2 (ib d2.props k) (ib d2.props k')) := by
  have hv := fun {x y} hx hy i => two_value cfg (S' := S') (L := L) hcs hco hF hq hqt h1 h2 hd1 hd2 (x := x) (y := y) hx hy i
  have hA : ∀ x ∈ polarised d1, ∀ y ∈ polarised d2, ∀ i, A cfg (.two pr L S' ha x y) F i = S (cs.filter fun k => !skipped d1.props d2.props k) fun k =>
      k.factor * rotD q pr.twoSpin i (ic pr k) * A cfg x F1 (ia d1.props k) * A cfg y F2 (ib d2.props k) := by
    intro x hx y hy i
    unfold A
    simp only [Particle.props]
    rw [hv hx hy i]
    rfl
  refine ⟨?_, fun i j => ?_⟩
  · intro t' ht' i hi
    obtain ⟨x, hx, y, hy, rfl⟩ := mem_polarised_two ht'
    rw [hA x hx y hy i]
    exact hv hx hy i
  · unfold gram
    rw [polarised, S_pairs]
    obtain ⟨l, hl⟩ : ∃ l, (cs.filter fun k => !skipped d1.props d2.props k) = l := ⟨_, rfl⟩
    rw [hl] at hA ⊢
    have e1 : S (polarised d1) (fun x => S (polarised d2) fun y => A cfg (.two pr L S' ha x y) F i * (starRingEnd ℂ) (A cfg (.two pr L S' ha x y) F j)) =
        S (polarised d1) fun x => S (polarised d2) fun y => S l fun k => S l fun k' =>
          k.factor * k'.factor * (rotD q pr.twoSpin i (ic pr k) * (starRingEnd ℂ) (rotD q pr.twoSpin j (ic pr k'))) *
          ((A cfg x F1 (ia d1.props k) * (starRingEnd ℂ) (A cfg x F1 (ia d1.props k'))) * (A cfg y F2 (ib d2.props k) * (starRingEnd ℂ) (A cfg y F2 (ib d2.props k')))) := by
      refine S_congr fun x hx => S_congr fun y hy => ?_
      rw [hA x hx y hy, hA x hx y hy, S_conj, ← S_mul']
      refine S_congr fun k _ => ?_
      rw [← S_mul]
      refine S_congr fun k' _ => ?_
      simp only [map_mul, conj_ofReal]
      ring
    rw [e1]
    calc _ = S (polarised d1) fun x => S l fun k => S (polarised d2) fun y => S l fun k' =>
          k.factor * k'.factor * (rotD q pr.twoSpin i (ic pr k) * (starRingEnd ℂ) (rotD q pr.twoSpin j (ic pr k'))) *
          ((A cfg x F1 (ia d1.props k) * (starRingEnd ℂ) (A cfg x F1 (ia d1.props k'))) * (A cfg y F2 (ib d2.props k) * (starRingEnd ℂ) (A cfg y F2 (ib d2.props k')))) :=
          S_congr fun x _ => S_comm _ _ _
      _ = S l fun k => S (polarised d1) fun x => S (polarised d2) fun y => S l fun k' =>
          k.factor * k'.factor * (rotD q pr.twoSpin i (ic pr k) * (starRingEnd ℂ) (rotD q pr.twoSpin j (ic pr k'))) *
          ((A cfg x F1 (ia d1.props k) * (starRingEnd ℂ) (A cfg x F1 (ia d1.props k'))) * (A cfg y F2 (ib d2.props k) * (starRingEnd ℂ) (A cfg y F2 (ib d2.props k')))) :=
          S_comm _ _ _
      _ = S l fun k => S l fun k' => S (polarised d1) fun x => S (polarised d2) fun y =>
          k.factor * k'.factor * (rotD q pr.twoSpin i (ic pr k) * (starRingEnd ℂ) (rotD q pr.twoSpin j (ic pr k'))) *
          ((A cfg x F1 (ia d1.props k) * (starRingEnd ℂ) (A cfg x F1 (ia d1.props k'))) * (A cfg y F2 (ib d2.props k) * (starRingEnd ℂ) (A cfg y F2 (ib d2.props k')))) := by
          refine S_congr fun k _ => ?_
          exact (S_congr fun x _ => S_comm _ _ _).trans (S_comm _ _ _)
      _ = _ := by
          refine S_congr fun k _ => S_congr fun k' _ => ?_
          simp only [S_mul, S_mul']

/-! ### Frames of the products -/

/-- A particle that does not decay is at rest in its frame. -/
def Own : Particle → TransformSequence → Prop
  | .stable pr _ _ p, F => act F.transforms p = ![0, 0, 0, pr.mass]
  | .one _ d, F => Own d F
  | _, _ => True

theorem sound_forward : ∀ (t : Particle), Sound t → Forward t.P
  | .stable .., h => (OnShell.forward h.2.1).1
  | .one _ d, h => sound_forward d h.2
  | .two _ _ _ _ d1 d2, h => (sound_forward d1 h.1).add (sound_forward d2 h.2.1)
  | .many .., h => h.elim

theorem sound_massive (t : Particle) (h : Sound t) : Massive t := by
  refine ⟨sound_forward t h, ?_, ?_⟩
  · cases t with
    | stable pr i pol p =>
      have := (OnShell.forward h.2.1).2
      simp only [Particle.massSq, Particle.isStable, if_true, Particle.props, Particle.P]
      exact this.symm
    | one pr d => simp [Particle.massSq, Particle.isStable, msq]
    | two pr L S' ha d1 d2 => simp [Particle.massSq, Particle.isStable, msq]
    | many pr k p => exact h.elim
  · cases t with
    | stable pr i pol p => exact fun _ => ⟨h.2.2.2.1, h.2.2.2.2⟩
    | one pr d => simp [Particle.isStable]
    | two pr L S' ha d1 d2 => simp [Particle.isStable]
    | many pr k p => exact h.elim

theorem rotated_props (R : Matrix (Fin 3) (Fin 3) ℝ) (t : Particle) : (rotated R t).props = t.props ∧ (rotated R t).isStable = t.isStable := by
  cases t <;> exact ⟨rfl, rfl⟩

theorem rotated_P (R : Matrix (Fin 3) (Fin 3) ℝ) : ∀ t : Particle, (rotated R t).P = turned R t.P
  | .stable .. => rfl
  | .one _ d => rotated_P R d
  | .two _ _ _ _ d1 d2 => by
    show (rotated R d1).P + (rotated R d2).P = turned R (d1.P + d2.P)
    rw [rotated_P R d1, rotated_P R d2, turned_add]
  | .many .. => rfl

theorem rotated_onShell {R : Matrix (Fin 3) (Fin 3) ℝ} (hR : R * R.transpose = 1) {m : ℝ} {p : Mom} (h : OnShell m p) : OnShell m (turned R p) := by
  obtain ⟨h1, h2, h3⟩ := h
  have := turned_norm hR p
  refine ⟨h1, by rw [turned_energy]; exact h2, ?_⟩
  rw [turned_energy]
  linear_combination h3 - this

theorem rotated_sound {R : Matrix (Fin 3) (Fin 3) ℝ} (hR : R * R.transpose = 1) : ∀ t : Particle, Sound t → Sound (rotated R t)
  | .stable .., h => ⟨h.1, rotated_onShell hR h.2.1, h.2.2⟩
  | .one _ d, h => ⟨by rw [(rotated_props R d).1]; exact h.1, rotated_sound hR d h.2⟩
  | .two _ _ _ ha d1 d2, h => by
    refine ⟨rotated_sound hR d1 h.1, rotated_sound hR d2 h.2.1, ?_⟩
    rw [(rotated_props R d1).1, (rotated_props R d2).1]
    exact h.2.2
  | .many .., h => h.elim

theorem rotated_massSq {R : Matrix (Fin 3) (Fin 3) ℝ} (hR : R * R.transpose = 1) {t : Particle} (h : Sound t) : (rotated R t).massSq = t.massSq := by
  rw [(sound_massive t h).2.1, (sound_massive _ (rotated_sound hR t h)).2.1, rotated_P, turned_msq hR]

/-- The frame of an event and of the rotated event differ by a rotation about the axis. -/
def Rel (R : Matrix (Fin 3) (Fin 3) ℝ) (a b : ℝ) (F F' : TransformSequence) : Prop := ∀ q, act F'.transforms (turned R q) = rz a b (act F.transforms q)

/-- The particle itself, behind the steps with one product. -/
def inner : Particle → Particle
  | .one _ d => inner d
  | t => t

theorem inner_frame (cfg : Config) : ∀ (t : Particle) (F : Option TransformSequence) (s : ℤ), frame cfg false t F s = frameOf cfg false (inner t) F s
  | .stable .., _, _ => rfl
  | .one _ d, F, s => inner_frame cfg d F s
  | .two .., _, _ => rfl
  | .many .., _, _ => rfl

theorem inner_P : ∀ t : Particle, (inner t).P = t.P
  | .stable .. => rfl
  | .one _ d => inner_P d
  | .two .. => rfl
  | .many .. => rfl

theorem inner_sound : ∀ t : Particle, Sound t → Sound (inner t)
  | .stable .., h => h
  | .one _ d, h => inner_sound d h.2
  | .two .., h => h
  | .many .., h => h

theorem inner_rotated (R : Matrix (Fin 3) (Fin 3) ℝ) : ∀ t : Particle, inner (rotated R t) = rotated R (inner t)
  | .stable .. => rfl
  | .one _ d => inner_rotated R d
  | .two .. => rfl
  | .many .. => rfl

theorem inner_own : ∀ (t : Particle) (F : TransformSequence), Sound t → act F.transforms (inner t).P = ![0, 0, 0, √(inner t).massSq] → Own t F
  | .stable pr i pol p, F, h, he => by
    have : √(inner (.stable pr i pol p)).massSq = pr.mass := by
      simp only [inner, Particle.massSq, Particle.isStable, if_true, Particle.props]
      exact Real.sqrt_mul_self h.2.1.1.le
    rw [this] at he
    exact he
  | .one _ d, F, h, he => inner_own d F h.2 he
  | .two .., _, _, _ => trivial
  | .many .., _, _, _ => trivial

/-- The frames of a decay product in an event. -/
theorem child_frame (cfg : Config) {t : Particle} (ht : Sound t) {F : TransformSequence} (hF : Good F) (hc : Clear (act F.transforms t.P)) {sgn : ℤ} (hs : sgn = 1 ∨ sgn = -1) :
    ∃ F1 c s f g, frame cfg false t (some F) sgn = some F1 ∧ Good F1 ∧ Own t F1 ∧ Angles (act F.transforms t.P) c s f g ∧
      ∀ q, act F1.transforms q = boostz (act F.transforms t.P 3 / √(inner t).massSq) (turn sgn c s f g (act F.transforms q)) := by
  rw [← inner_P] at hc ⊢
  obtain ⟨F1, c, s, f, g, h1, h2, h3, h4, h5⟩ := frame_spec cfg hF (sound_massive _ (inner_sound t ht)) hc hs
  exact ⟨F1, c, s, f, g, by rw [inner_frame, h1], h2, inner_own t F1 ht h5, h3, h4⟩

/-- The frames of a decay product in an event and in the rotated event. -/
theorem child_rel (cfg : Config) {R : Matrix (Fin 3) (Fin 3) ℝ} (hR : R * R.transpose = 1) {t : Particle} (ht : Sound t) {F F' : TransformSequence} (hF : Good F) (hF' : Good F')
    {a b : ℝ} (hab : a ^ 2 + b ^ 2 = 1) (hrel : Rel R a b F F') (hc : act F.transforms t.P 0 * act F.transforms t.P 0 + act F.transforms t.P 1 * act F.transforms t.P 1 > 1e-15)
    {sgn : ℤ} (hs : sgn = 1 ∨ sgn = -1) :
    ∃ F1 F1', frame cfg false t (some F) sgn = some F1 ∧ frame cfg false (rotated R t) (some F') sgn = some F1' ∧ Good F1 ∧ Good F1' ∧ Own t F1 ∧ Own (rotated R t) F1' ∧
      Rel R a (sgn * b) F1 F1' := by
  have hP : act F'.transforms (rotated R t).P = rz a b (act F.transforms t.P) := by rw [rotated_P]; exact hrel _
  have hc' : rz a b (act F.transforms t.P) 0 * rz a b (act F.transforms t.P) 0 + rz a b (act F.transforms t.P) 1 * rz a b (act F.transforms t.P) 1 > 1e-15 := by
    have : rz a b (act F.transforms t.P) 0 * rz a b (act F.transforms t.P) 0 + rz a b (act F.transforms t.P) 1 * rz a b (act F.transforms t.P) 1 =
        act F.transforms t.P 0 * act F.transforms t.P 0 + act F.transforms t.P 1 * act F.transforms t.P 1 := by
      simp [rz]
      linear_combination ((act F.transforms t.P 0) ^ 2 + (act F.transforms t.P 1) ^ 2) * hab
    rw [this]
    exact hc
  obtain ⟨F1, c, s, f, g, h1, h2, h3, h4, h5⟩ := child_frame cfg ht hF (Or.inl hc) hs
  obtain ⟨F1', c', s', f', g', k1, k2, k3, k4, k5⟩ := child_frame cfg (rotated_sound hR t ht) hF' (Or.inl (by rw [hP]; exact hc')) hs
  rw [hP] at k4 k5
  have hpos : (0 : ℝ) < 1e-15 := by norm_num
  obtain ⟨rfl, rfl, rfl, rfl⟩ := angles_rz hab h4 k4 (by linarith)
  refine ⟨F1, F1', h1, k1, h2, k2, h3, k3, fun q => ?_⟩
  rw [k5, h5, hrel, turn_rz hab hs, boostz_rz, inner_rotated, rotated_massSq hR (inner_sound t ht)]
  rfl

theorem away_act {F : TransformSequence} (hF : Good F) {p : Mom} (h : Away (some F) p) :
    act F.transforms p 0 * act F.transforms p 0 + act F.transforms p 1 * act F.transforms p 1 > 1e-15 := by
  refine h _ ?_
  rw [Option.bind_some, hF.apply]

theorem two_phase {w : ℂ} (hw : w * (starRingEnd ℂ) w = 1) {i j a a' b b' c c' : Nat} (h : (c : ℤ) - c' = ((a : ℤ) - a') - ((b : ℤ) - b')) :
    w ^ ((c : ℤ) - i) * (starRingEnd ℂ) (w ^ ((c' : ℤ) - j)) * (w ^ ((a' : ℤ) - a) * ((starRingEnd ℂ) w) ^ ((b' : ℤ) - b)) = w ^ ((j : ℤ) - i) := by
  have h0 : w ≠ 0 := left_ne_zero_of_mul_eq_one hw
  have hc : (starRingEnd ℂ) w = w⁻¹ := eq_inv_of_mul_eq_one_right hw
  rw [map_zpow₀, hc, inv_zpow', inv_zpow', ← zpow_add₀ h0, ← zpow_add₀ h0, ← zpow_add₀ h0]
  congr 1
  omega

theorem stable_gram (cfg : Config) (hb : cfg.basis = .dirac) {pr : Properties} {idx : Nat} {pol : Int} {p : Mom} (hs : Sound (.stable pr idx pol p)) {F : TransformSequence}
    (hF : Good F) (ho : act F.transforms p = ![0, 0, 0, pr.mass]) : Defined cfg (.stable pr idx pol p) F ∧
      ∀ i ≤ pr.twoSpin, ∀ j ≤ pr.twoSpin, gram cfg (.stable pr idx pol p) F i j = if i = j then 1 else 0 := by
  obtain ⟨h1, h2⟩ := leaf_unitary cfg hb hF hs.1 hs.2.1 hs.2.2.1 ho
  refine ⟨?_, fun i hi j hj => ?_⟩
  · intro t' ht' i hi
    rw [polarised, List.mem_map] at ht'
    obtain ⟨s, hs', rfl⟩ := ht'
    exact h1 s hs' i hi
  · rw [← h2 i j hi hj]
    unfold gram S
    rw [polarised, List.map_map]
    rfl

/-- **The sums over polarisations in the rotated event.** -/
theorem gram_rel (cfg : Config) (hb : cfg.basis = .dirac) {R : Matrix (Fin 3) (Fin 3) ℝ} (hR : R * R.transpose = 1) : ∀ (t : Particle), Sound t →
    ∀ (F F' : TransformSequence) (a b : ℝ), a ^ 2 + b ^ 2 = 1 → Good F → Good F' → Rel R a b F F' → Own t F → Own (rotated R t) F' → OffAxis cfg t (some F) →
      Defined cfg t F ∧ Defined cfg (rotated R t) F' ∧
      ∀ i ≤ t.props.twoSpin, ∀ j ≤ t.props.twoSpin, gram cfg (rotated R t) F' i j = (a + I * b) ^ ((j : ℤ) - i) * gram cfg t F i j
  | .stable pr idx pol p, hs, F, F', a, b, hab, hF, hF', hrel, ho, ho', hoff => by
    obtain ⟨h1, h2⟩ := stable_gram cfg hb hs hF ho
    obtain ⟨k1, k2⟩ := stable_gram cfg hb (rotated_sound hR _ hs) hF' ho'
    refine ⟨h1, k1, fun i hi j hj => ?_⟩
    rw [h2 i hi j hj]
    refine (k2 i hi j hj).trans ?_
    by_cases h : i = j
    · subst h
      simp
    · simp [h]
  | .one pr d, hs, F, F', a, b, hab, hF, hF', hrel, ho, ho', hoff => by
    obtain ⟨h1, h2, h3⟩ := gram_rel cfg hb hR d hs.2 F F' a b hab hF hF' hrel ho ho' hoff
    have key : ∀ (e : Particle) (G : TransformSequence), pr.twoSpin = e.props.twoSpin → Defined cfg e G →
        Defined cfg (.one pr e) G ∧ ∀ i j, gram cfg (.one pr e) G i j = gram cfg e G i j := by
      intro e G he hd
      have hA : ∀ x ∈ polarised e, ∀ i, A cfg (.one pr x) G i = A cfg x G i := by
        intro x hx i
        unfold A
        rw [value, Particle.props, (polarised_same e x hx).1, he]
      refine ⟨?_, fun i j => ?_⟩
      · intro t' ht' i hi
        rw [polarised, List.mem_map] at ht'
        obtain ⟨x, hx, rfl⟩ := ht'
        rw [hA x hx, value]
        simp only [Particle.props] at hi ⊢
        rw [he] at hi ⊢
        exact hd x hx i hi
      · unfold gram
        rw [polarised]
        unfold S
        rw [List.map_map]
        congr 1
        refine List.map_congr_left fun x hx => ?_
        simp only [Function.comp, hA x hx]
    obtain ⟨k1, k2⟩ := key d F hs.1 h1
    obtain ⟨l1, l2⟩ := key (rotated R d) F' (by rw [(rotated_props R d).1]; exact hs.1) h2
    refine ⟨k1, l1, fun i hi j hj => ?_⟩
    simp only [Particle.props] at hi hj
    rw [hs.1] at hi hj
    rw [k2]
    refine (l2 i j).trans ?_
    exact h3 i hi j hj
  | .two pr L S' ha d1 d2, hs, F, F', a, b, hab, hF, hF', hrel, ho, ho', hoff => by
    obtain ⟨cs, hcs, hco⟩ := sound_couples hs
    obtain ⟨hs1, hs2, -⟩ := hs
    obtain ⟨o1, o2, o3, o4⟩ := hoff
    have o1 := away_act hF o1
    have o2 := away_act hF o2
    obtain ⟨F1, F1', e1, e1', g1, g1', n1, n1', r1⟩ := child_rel cfg hR hs1 hF hF' hab hrel o1 (Or.inl rfl)
    obtain ⟨F2, F2', e2, e2', g2, g2', n2, n2', r2⟩ := child_rel cfg hR hs2 hF hF' hab hrel o2 (Or.inr rfl)
    rw [e1] at o3
    rw [e2] at o4
    simp only [Int.cast_one, one_mul] at r1
    simp only [Int.cast_neg, Int.cast_one, neg_mul, one_mul] at r2
    obtain ⟨D1, D1', G1⟩ := gram_rel cfg hb hR d1 hs1 F1 F1' a b hab g1 g1' r1 n1 n1' o3
    obtain ⟨D2, D2', G2⟩ := gram_rel cfg hb hR d2 hs2 F2 F2' a (-b) (by linarith [neg_sq b]) g2 g2' r2 n2 n2' o4
    have hpos : (0 : ℝ) < 1e-15 := by norm_num
    have hq0 : act F.transforms d1.P 0 * act F.transforms d1.P 0 + act F.transforms d1.P 1 * act F.transforms d1.P 1 ≠ 0 := by linarith
    have hP : act F'.transforms (rotated R d1).P = rz a b (act F.transforms d1.P) := by rw [rotated_P]; exact hrel _
    have hq0' : rz a b (act F.transforms d1.P) 0 * rz a b (act F.transforms d1.P) 0 + rz a b (act F.transforms d1.P) 1 * rz a b (act F.transforms d1.P) 1 ≠ 0 := by
      have : rz a b (act F.transforms d1.P) 0 * rz a b (act F.transforms d1.P) 0 + rz a b (act F.transforms d1.P) 1 * rz a b (act F.transforms d1.P) 1 =
          act F.transforms d1.P 0 * act F.transforms d1.P 0 + act F.transforms d1.P 1 * act F.transforms d1.P 1 := by
        simp [rz]
        linear_combination ((act F.transforms d1.P 0) ^ 2 + (act F.transforms d1.P 1) ^ 2) * hab
      rw [this]
      exact hq0
    obtain ⟨T, TG⟩ := two_gram cfg (L := L) (S' := S') hcs hco hF rfl hq0 e1 e2 D1 D2
    obtain ⟨p1, -⟩ := rotated_props R d1
    obtain ⟨p2, -⟩ := rotated_props R d2
    obtain ⟨T', TG'⟩ := two_gram cfg (d1 := rotated R d1) (d2 := rotated R d2) (pr := pr) (ha := ha) (cs := cs) (L := L) (S' := S') (by rw [p1, p2]; exact hcs) (by rw [p1, p2]; exact hco) hF' hP hq0' e1' e2' D1' D2'
    refine ⟨T, T', fun i hi j hj => ?_⟩
    rw [TG]
    refine (TG' i j).trans ?_
    rw [p1, p2, ← S_mul]
    refine S_congr fun k hk => ?_
    rw [← S_mul]
    refine S_congr fun k' hk' => ?_
    obtain ⟨i1, i2, i3, m1, m2, m3⟩ := couples_index hco (List.mem_of_mem_filter hk)
    obtain ⟨i1', i2', i3', m1', m2', m3'⟩ := couples_index hco (List.mem_of_mem_filter hk')
    have hphase : ((ic pr k : ℕ) : ℤ) - (ic pr k' : ℕ) = (((ia d1.props k : ℕ) : ℤ) - (ia d1.props k' : ℕ)) - (((ib d2.props k : ℕ) : ℤ) - (ib d2.props k' : ℕ)) := by
      have : ((ic pr k : ℕ) : ℝ) - (ic pr k' : ℕ) = (((ia d1.props k : ℕ) : ℝ) - (ia d1.props k' : ℕ)) - (((ib d2.props k : ℕ) : ℝ) - (ib d2.props k' : ℕ)) := by linarith
      exact_mod_cast this
    have hw : ((a : ℂ) + I * b) * (starRingEnd ℂ) ((a : ℂ) + I * b) = 1 := by
      rw [mul_conj]
      have : normSq ((a : ℂ) + I * b) = 1 := by
        rw [normSq_apply]; simp; linarith
      rw [this]; simp
    have hw' : ((a : ℂ) + I * (-b : ℝ)) = (starRingEnd ℂ) ((a : ℂ) + I * b) := by
      simp
    have := two_phase hw (i := i) (j := j) hphase
    rw [rotD_rz hab, rotD_rz hab, G1 _ i1 _ i1', G2 _ i2 _ i2', hw', map_mul]
    generalize ((a : ℂ) + I * b) ^ (((ic pr k : ℕ) : ℤ) - i) = u1 at *
    generalize (starRingEnd ℂ) (((a : ℂ) + I * b) ^ (((ic pr k' : ℕ) : ℤ) - j)) = u2 at *
    generalize ((a : ℂ) + I * b) ^ (((ia d1.props k' : ℕ) : ℤ) - (ia d1.props k : ℕ)) = u3 at *
    generalize ((starRingEnd ℂ) ((a : ℂ) + I * b)) ^ (((ib d2.props k' : ℕ) : ℤ) - (ib d2.props k : ℕ)) = u4 at *
    rw [← this]
    ring
  | .many .., hs, _, _, _, _, _, _, _, _, _, _, _ => hs.elim

end AmpGen.Helicity
