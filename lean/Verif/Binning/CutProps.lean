import Verif.Binning.CutModel
import Verif.Binning.CutSpec
import Mathlib.Tactic.Ring
import Mathlib.Tactic.Linarith
import Mathlib.Tactic.Positivity
import Mathlib.Algebra.Order.Ring.Rat
import Mathlib.Algebra.Order.Field.Basic
/-
The line search of the binnings finds the best cut (C162).
-/
namespace AmpGen.Binning
open Spec

variable {E : Type}

theorem foldl_sum (l : List ℚ) (a : ℚ) : l.foldl (· + ·) a = a + l.sum := by
  induction l generalizing a with
  | nil => simp
  | cons b l ih => rw [List.foldl_cons, ih, List.sum_cons, add_assoc]

theorem weightOf_sum (c : Config E) (l : List E) : weightOf c l = (l.map fun e => c.x e c.dim).sum := by
  rw [weightOf, foldl_sum, zero_add]

theorem weightOf_append (c : Config E) (l m : List E) : weightOf c (l ++ m) = weightOf c l + weightOf c m := by
  simp only [weightOf_sum, List.map_append, List.sum_append]

/-- A list in two parts, the first at or below a cut and the second above it. -/
theorem filter_parts (f : E → ℚ) (p : ℚ) (a b : List E) (ha : ∀ e ∈ a, f e ≤ p) (hb : ∀ e ∈ b, p < f e) : below f p (a ++ b) = a ∧ above f p (a ++ b) = b := by
  unfold below above
  rw [List.filter_append, List.filter_append]
  rw [List.filter_eq_self.mpr (by simpa using ha), List.filter_eq_nil_iff.mpr (by simpa using hb), List.filter_eq_nil_iff.mpr (by simpa using ha),
    List.filter_eq_self.mpr (by simpa using hb)]
  simp

theorem takeWhile_le (f : E → ℚ) (p : ℚ) (l : List E) : ∀ e ∈ l.takeWhile (fun e => f e ≤ p), f e ≤ p := by
  induction l with
  | nil => simp
  | cons d l ih =>
    intro e he
    by_cases h : f d ≤ p
    · rw [List.takeWhile_cons_of_pos (by simpa using h)] at he
      rcases List.mem_cons.mp he with rfl | he
      · exact h
      · exact ih e he
    · rw [List.takeWhile_cons_of_neg (by simpa using h)] at he
      cases he

theorem dropWhile_gt (f : E → ℚ) (p : ℚ) (l : List E) (hl : l.Pairwise fun a b => f a ≤ f b) : ∀ e ∈ l.dropWhile (fun e => f e ≤ p), p < f e := by
  induction l with
  | nil => simp
  | cons d l ih =>
    intro e he
    rw [List.pairwise_cons] at hl
    by_cases h : f d ≤ p
    · rw [List.dropWhile_cons_of_pos (by simpa using h)] at he
      exact ih hl.2 e he
    · rw [List.dropWhile_cons_of_neg (by simpa using h)] at he
      rw [not_le] at h
      rcases List.mem_cons.mp he with rfl | he
      · exact h
      · exact lt_of_lt_of_le h (hl.1 e he)

/-- The cut behind the event with number `i`. -/
def cutAt (c : Config E) (target : List E) (index i : Nat) : ℚ :=
  (((target[i]?).map fun e => c.x e index).getD 0 + ((target[i + 1]?).map fun e => c.x e index).getD 0) / 2

theorem target_parts {f : E → ℚ} {target : List E} (ht : target.Pairwise fun a b => f a < f b) {i : Nat} {a b : E} (ha : target[i]? = some a) (hb : target[i + 1]? = some b) :
    target = target.take i ++ a :: b :: target.drop (i + 2) ∧ target.take (i + 1) = target.take i ++ [a] ∧ (∀ e ∈ target.take (i + 1), f e ≤ f a) ∧ (∀ e ∈ target.drop (i + 1), f b ≤ f e) ∧
      f a < f b := by
  obtain ⟨hi, rfl⟩ := List.getElem?_eq_some_iff.mp ha
  obtain ⟨hj, rfl⟩ := List.getElem?_eq_some_iff.mp hb
  have e1 : target.drop i = target[i] :: target.drop (i + 1) := List.drop_eq_getElem_cons hi
  have e2 : target.drop (i + 1) = target[i + 1] :: target.drop (i + 2) := List.drop_eq_getElem_cons hj
  have hlt := List.pairwise_iff_getElem.mp ht
  refine ⟨?_, (List.take_concat_get' target i hi).symm, ?_, ?_, hlt i (i + 1) hi hj (by omega)⟩
  · rw [← e2, ← e1, List.take_append_drop]
  · intro e he
    obtain ⟨k, hk, rfl⟩ := List.mem_iff_getElem.mp he
    rw [List.length_take] at hk
    rw [List.getElem_take]
    rcases Nat.lt_or_ge k i with h | h
    · exact (hlt k i (by omega) hi h).le
    · have : k = i := by omega
      subst this
      exact le_refl _
  · intro e he
    obtain ⟨k, hk, rfl⟩ := List.mem_iff_getElem.mp he
    rw [List.length_drop] at hk
    rw [List.getElem_drop]
    rcases Nat.eq_zero_or_pos k with h | h
    · subst h
      exact le_refl _
    · exact (hlt (i + 1) (i + 1 + k) hj (by omega) (by omega)).le

section
variable (c : Config E) (ok : ℚ → Bool) (source target : List E) (index : Nat)

/-- The cut with number `i` satisfies the conditions. -/
def okAt (i : Nat) : Prop :=
  c.minEvents ≤ (below (fun e => c.x e index) (cutAt c target index i) source).length ∧ c.minEvents ≤ (above (fun e => c.x e index) (cutAt c target index i) source).length ∧
    ok (cutAt c target index i) = true

/-- The χ² of the cut with number `i`. -/
def chiAt (i : Nat) : ℚ := chi2 (fun e => c.x e index) (fun e => c.x e c.dim) source target (cutAt c target index i)

/-- What holds after the first `k` passes of the loop. -/
def ScanInv (k : Nat) (s : Scan E) : Prop :=
  s.tw1 = weightOf c (target.take (c.minEvents + k)) ∧
    (∃ done, done ++ s.rest = source ∧ s.sw1 = weightOf c done ∧ s.sp1 = done.length ∧
      ∀ j, c.minEvents + k ≤ j → j + 1 < target.length → ∀ e ∈ done, c.x e index ≤ cutAt c target index j) ∧
    ((s.opt = 0 ∧ s.maxChi2 = -9999 ∧ ∀ i, c.minEvents ≤ i → i < c.minEvents + k → ¬ okAt c ok source target index i) ∨
      ∃ i, c.minEvents ≤ i ∧ i < c.minEvents + k ∧ okAt c ok source target index i ∧ s.opt = cutAt c target index i ∧ s.maxChi2 = chiAt c source target index i ∧
        ∀ j, c.minEvents ≤ j → j < c.minEvents + k → okAt c ok source target index j → chiAt c source target index j ≤ s.maxChi2)

variable {c ok source target index}

theorem chi2_nonneg (f w : E → ℚ) (hs : ∀ e ∈ source, 0 < w e) (ht : ∀ e ∈ target, 0 < w e) (p : ℚ) : 0 ≤ chi2 f w source target p := by
  have hsum : ∀ l : List E, (∀ e ∈ l, 0 < w e) → 0 ≤ (l.map w).sum := by
    intro l hl
    apply List.sum_nonneg
    intro x hx
    obtain ⟨e, he, rfl⟩ := List.mem_map.mp hx
    exact (hl e he).le
  have h1 := hsum (below f p source) fun e he => hs e (List.mem_filter.mp he).1
  have h2 := hsum (below f p target) fun e he => ht e (List.mem_filter.mp he).1
  have h3 := hsum (above f p source) fun e he => hs e (List.mem_filter.mp he).1
  have h4 := hsum (above f p target) fun e he => ht e (List.mem_filter.mp he).1
  unfold chi2 pull
  exact add_nonneg (div_nonneg (sq_nonneg _) (add_nonneg h1 h2)) (div_nonneg (sq_nonneg _) (add_nonneg h3 h4))

theorem cutAt_value {i : Nat} {a b : E} (ha : target[i]? = some a) (hb : target[i + 1]? = some b) : cutAt c target index i = (c.x a index + c.x b index) / 2 := by
  simp [cutAt, ha, hb]

theorem cutAt_mono (ht : target.Pairwise fun a b => c.x a index < c.x b index) {i j : Nat} (hij : i ≤ j) (hj : j + 1 < target.length) : cutAt c target index i ≤ cutAt c target index j := by
  have hlt := List.pairwise_iff_getElem.mp ht
  have hle : ∀ a b (ha : a < target.length) (hb : b < target.length), a ≤ b → c.x target[a] index ≤ c.x target[b] index := by
    intro a b ha hb hab
    rcases Nat.lt_or_ge a b with h | h
    · exact (hlt a b ha hb h).le
    · have : a = b := by omega
      subst this
      exact le_refl _
  rw [cutAt_value (List.getElem?_eq_getElem (by omega : i < target.length)) (List.getElem?_eq_getElem (by omega : i + 1 < target.length)),
    cutAt_value (List.getElem?_eq_getElem (by omega : j < target.length)) (List.getElem?_eq_getElem (by omega : j + 1 < target.length))]
  have h1 := hle i j (by omega) (by omega) hij
  have h2 := hle (i + 1) (j + 1) (by omega) (by omega) (by omega)
  linarith

theorem scan_step (hs : source.Pairwise fun a b => c.x a index ≤ c.x b index) (ht : target.Pairwise fun a b => c.x a index < c.x b index) (ws : ∀ e ∈ source, 0 < c.x e c.dim)
    (wt : ∀ e ∈ target, 0 < c.x e c.dim) {k : Nat} {s : Scan E} (h : ScanInv c ok source target index k s) (hk : c.minEvents + k + 1 < target.length) :
    ∃ s', cutStep c ok source target index s (c.minEvents + k) = some s' ∧ ScanInv c ok source target index (k + 1) s' := by
  obtain ⟨a, ha⟩ : ∃ a, target[c.minEvents + k]? = some a := ⟨_, List.getElem?_eq_getElem (by omega)⟩
  obtain ⟨b, hb⟩ : ∃ b, target[c.minEvents + k + 1]? = some b := ⟨_, List.getElem?_eq_getElem (by omega)⟩
  obtain ⟨htw, ⟨done, hdone, hsw, hsp, hle⟩, hbest⟩ := h
  obtain ⟨p, hp⟩ : ∃ p, cutAt c target index (c.minEvents + k) = p := ⟨_, rfl⟩
  have hpv : 1 / 2 * (c.x a index + c.x b index) = p := by rw [← hp, cutAt_value ha hb]; ring
  obtain ⟨passed, hpassed⟩ : ∃ l, (s.rest.takeWhile fun e => c.x e index ≤ p) = l := ⟨_, rfl⟩
  obtain ⟨rest, hrest⟩ : ∃ l, (s.rest.dropWhile fun e => c.x e index ≤ p) = l := ⟨_, rfl⟩
  have hpr : passed ++ rest = s.rest := by rw [← hpassed, ← hrest, List.takeWhile_append_dropWhile]
  have hsrc : (done ++ passed) ++ rest = source := by rw [List.append_assoc, hpr, hdone]
  have hrs : s.rest.Pairwise fun a b => c.x a index ≤ c.x b index := by
    rw [← hdone] at hs
    exact (List.pairwise_append.mp hs).2.1
  have hlow : ∀ e ∈ done ++ passed, c.x e index ≤ p := by
    intro e he
    rcases List.mem_append.mp he with he | he
    · rw [← hp]
      exact hle _ (le_refl _) hk e he
    · rw [← hpassed] at he
      exact takeWhile_le (fun e => c.x e index) p _ e he
  have hhigh : ∀ e ∈ rest, p < c.x e index := by
    intro e he
    rw [← hrest] at he
    exact dropWhile_gt (fun e => c.x e index) p _ hrs e he
  obtain ⟨hbs, has⟩ := filter_parts (fun e => c.x e index) p _ _ hlow hhigh
  rw [hsrc] at hbs has
  obtain ⟨_, htake, htl, hth, hab⟩ := target_parts (f := fun e => c.x e index) ht ha hb
  have hpm : c.x a index < p ∧ p < c.x b index := by
    rw [← hpv]
    constructor <;> linarith
  obtain ⟨hbt, hat⟩ := filter_parts (fun e => c.x e index) p (target.take (c.minEvents + k + 1)) (target.drop (c.minEvents + k + 1)) (fun e he => le_trans (htl e he) hpm.1.le)
    (fun e he => lt_of_lt_of_le hpm.2 (hth e he))
  rw [List.take_append_drop] at hbt hat
  have htw' : s.tw1 + c.x a c.dim = weightOf c (target.take (c.minEvents + k + 1)) := by
    rw [htake, weightOf_append, ← htw]
    simp [weightOf]
  have hsw' : s.sw1 + weightOf c passed = weightOf c (done ++ passed) := by rw [weightOf_append, hsw]
  have hsp' : s.sp1 + passed.length = (done ++ passed).length := by rw [List.length_append, hsp]
  obtain ⟨S1, hS1⟩ : ∃ x, weightOf c (done ++ passed) = x := ⟨_, rfl⟩
  obtain ⟨T1, hT1⟩ : ∃ x, weightOf c (target.take (c.minEvents + k + 1)) = x := ⟨_, rfl⟩
  obtain ⟨S2, hS2⟩ : ∃ x, weightOf c rest = x := ⟨_, rfl⟩
  obtain ⟨T2, hT2⟩ : ∃ x, weightOf c (target.drop (c.minEvents + k + 1)) = x := ⟨_, rfl⟩
  have hst : weightOf c source = S1 + S2 := by rw [← hsrc, weightOf_append, hS1, hS2]
  have htt : weightOf c target = T1 + T2 := by
    conv_lhs => rw [← List.take_append_drop (c.minEvents + k + 1) target]
    rw [weightOf_append, hT1, hT2]
  have hchi : (S1 - T1) * (S1 - T1) / (S1 + T1) + (S1 + S2 - S1 - (T1 + T2) + T1) * (S1 + S2 - S1 - (T1 + T2) + T1) / (S1 + S2 - S1 + (T1 + T2) - T1) =
      chiAt c source target index (c.minEvents + k) := by
    unfold chiAt chi2 pull
    rw [hp, hbs, has, hbt, hat, ← weightOf_sum, ← weightOf_sum, ← weightOf_sum, ← weightOf_sum, hS1, hS2, hT1, hT2]
    have e1 : S1 + S2 - S1 - (T1 + T2) + T1 = S2 - T2 := by ring
    have e2 : S1 + S2 - S1 + (T1 + T2) - T1 = S2 + T2 := by ring
    rw [e1, e2, pow_two, pow_two]
  have hlen : source.length - (done ++ passed).length = rest.length := by
    rw [← hsrc, List.length_append]
    omega
  have hokAt : okAt c ok source target index (c.minEvents + k) ↔ (done ++ passed).length ≥ c.minEvents ∧ rest.length ≥ c.minEvents ∧ ok p = true := by
    unfold okAt
    rw [hp, hbs, has]
  have hinv2 : ∃ done', done' ++ rest = source ∧ S1 = weightOf c done' ∧ (done ++ passed).length = done'.length ∧
      ∀ j, c.minEvents + (k + 1) ≤ j → j + 1 < target.length → ∀ e ∈ done', c.x e index ≤ cutAt c target index j := by
    refine ⟨done ++ passed, hsrc, hS1.symm, rfl, ?_⟩
    intro j hj hjl e he
    refine le_trans (hlow e he) ?_
    rw [← hp]
    exact cutAt_mono ht (by omega) hjl
  have hpos : (-9999 : ℚ) < chiAt c source target index (c.minEvents + k) := lt_of_lt_of_le (by norm_num) (chi2_nonneg _ _ ws wt _)
  unfold cutStep
  simp only [ha, hb, Option.bind_eq_bind, Option.bind_some, hpv, hpassed, hrest, htw', hsw', hsp', hS1, hT1, hst, htt, hchi, hlen]
  by_cases hif : chiAt c source target index (c.minEvents + k) > s.maxChi2 ∧ (done ++ passed).length ≥ c.minEvents ∧ rest.length ≥ c.minEvents ∧ ok p = true
  · rw [if_pos hif]
    refine ⟨_, rfl, hT1.symm, hinv2, .inr ⟨c.minEvents + k, by omega, by omega, hokAt.mpr hif.2, hp.symm, rfl, ?_⟩⟩
    intro j hj1 hj2 hjo
    simp only
    by_cases hj : j = c.minEvents + k
    · rw [hj]
    · rcases hbest with ⟨_, _, hno⟩ | ⟨i, _, _, _, _, _, hmax⟩
      · exact absurd hjo (hno j hj1 (by omega))
      · exact le_trans (hmax j hj1 (by omega) hjo) hif.1.le
  · rw [if_neg hif]
    refine ⟨_, rfl, hT1.symm, hinv2, ?_⟩
    simp only
    rcases hbest with ⟨h1, h2, hno⟩ | ⟨i, hi1, hi2, hi3, hi4, hi5, hmax⟩
    · left
      refine ⟨h1, h2, ?_⟩
      intro i hi1 hi2
      by_cases hi : i = c.minEvents + k
      · rw [hi, hokAt]
        intro hc
        rw [h2] at hif
        exact hif ⟨hpos, hc⟩
      · exact hno i hi1 (by omega)
    · right
      refine ⟨i, hi1, by omega, hi3, hi4, hi5, ?_⟩
      intro j hj1 hj2 hjo
      by_cases hj : j = c.minEvents + k
      · rw [hj] at hjo ⊢
        by_contra hc
        rw [not_le] at hc
        exact hif ⟨hc, hokAt.mp hjo⟩
      · exact hmax j hj1 (by omega) hjo

theorem scan_all (hs : source.Pairwise fun a b => c.x a index ≤ c.x b index) (ht : target.Pairwise fun a b => c.x a index < c.x b index) (ws : ∀ e ∈ source, 0 < c.x e c.dim)
    (wt : ∀ e ∈ target, 0 < c.x e c.dim) (k : Nat) (hk : k = 0 ∨ c.minEvents + k < target.length) :
    ∃ s, (List.range' c.minEvents k).foldlM (cutStep c ok source target index) ⟨weightOf c (target.take c.minEvents), 0, -9999, 0, 0, source⟩ = some s ∧
      ScanInv c ok source target index k s := by
  induction k with
  | zero =>
    refine ⟨_, rfl, rfl, ⟨[], rfl, rfl, rfl, by simp⟩, .inl ⟨rfl, rfl, ?_⟩⟩
    intro i h1 h2
    omega
  | succ k ih =>
    obtain ⟨s, hs1, hs2⟩ := ih (by omega)
    obtain ⟨s', h1, h2⟩ := scan_step hs ht ws wt hs2 (by omega)
    refine ⟨s', ?_, h2⟩
    rw [List.range'_concat, List.foldlM_append, hs1]
    simp [h1]

/-- The cuts that may be chosen are those of the loop. -/
theorem allowed_iff (ht : target.Pairwise fun a b => c.x a index < c.x b index) (p : ℚ) :
    Allowed (fun e => c.x e index) c.minEvents (fun p => ok p = true) source target p ↔
      ∃ i, c.minEvents ≤ i ∧ i + c.minEvents < target.length ∧ i + 1 < target.length ∧ p = cutAt c target index i ∧ okAt c ok source target index i := by
  have key : ∀ i (hi : i + 1 < target.length), (below (fun e => c.x e index) (cutAt c target index i) target).length = i + 1 ∧
      (above (fun e => c.x e index) (cutAt c target index i) target).length = target.length - (i + 1) := by
    intro i hi
    obtain ⟨a, ha⟩ : ∃ a, target[i]? = some a := ⟨_, List.getElem?_eq_getElem (by omega)⟩
    obtain ⟨b, hb⟩ : ∃ b, target[i + 1]? = some b := ⟨_, List.getElem?_eq_getElem (by omega)⟩
    obtain ⟨_, _, htl, hth, hab⟩ := target_parts (f := fun e => c.x e index) ht ha hb
    have hpm : c.x a index < cutAt c target index i ∧ cutAt c target index i < c.x b index := by
      rw [cutAt_value ha hb]
      constructor <;> linarith
    obtain ⟨hbt, hat⟩ := filter_parts (fun e => c.x e index) (cutAt c target index i) (target.take (i + 1)) (target.drop (i + 1)) (fun e he => le_trans (htl e he) hpm.1.le)
      (fun e he => lt_of_lt_of_le hpm.2 (hth e he))
    rw [List.take_append_drop] at hbt hat
    rw [hbt, hat, List.length_take, List.length_drop]
    omega
  constructor
  · rintro ⟨⟨l, a, b, r, htar, hp⟩, h1, h2, h3, h4, h5⟩
    have hlen : l.length + 1 < target.length := by
      rw [htar]
      simp
    have hcut : p = cutAt c target index l.length := by
      rw [hp, cutAt_value (a := a) (b := b)]
      · rw [htar]; simp
      · rw [htar]; simp
    obtain ⟨k1, k2⟩ := key l.length hlen
    rw [hcut] at h1 h2 h3 h4 h5
    rw [k1] at h1
    rw [k2] at h2
    exact ⟨l.length, by omega, by omega, hlen, hcut, h3, h4, h5⟩
  · rintro ⟨i, hi1, hi2, hi3, rfl, h3, h4, h5⟩
    obtain ⟨a, ha⟩ : ∃ a, target[i]? = some a := ⟨_, List.getElem?_eq_getElem (by omega)⟩
    obtain ⟨b, hb⟩ : ∃ b, target[i + 1]? = some b := ⟨_, List.getElem?_eq_getElem (by omega)⟩
    obtain ⟨k1, k2⟩ := key i hi3
    refine ⟨⟨target.take i, a, b, target.drop (i + 2), (target_parts (f := fun e => c.x e index) ht ha hb).1, cutAt_value ha hb⟩, ?_, ?_, h3, h4, h5⟩
    · rw [k1]; omega
    · rw [k2]; omega

theorem scan_best (hs : source.Pairwise fun a b => c.x a index ≤ c.x b index) (ht : target.Pairwise fun a b => c.x a index < c.x b index) (ws : ∀ e ∈ source, 0 < c.x e c.dim)
    (wt : ∀ e ∈ target, 0 < c.x e c.dim) (hm : 0 < c.minEvents) :
    ∃ s, cutScan c ok source target index = some s ∧
      ((s.opt = 0 ∧ s.maxChi2 = -9999 ∧ ∀ p, ¬ Allowed (fun e => c.x e index) c.minEvents (fun p => ok p = true) source target p) ∨
        (Best (fun e => c.x e index) (fun e => c.x e c.dim) c.minEvents (fun p => ok p = true) source target s.opt ∧
          s.maxChi2 = chi2 (fun e => c.x e index) (fun e => c.x e c.dim) source target s.opt)) := by
  obtain ⟨s, h1, _, _, hbest⟩ := scan_all (ok := ok) hs ht ws wt (target.length - c.minEvents - c.minEvents) (by omega)
  refine ⟨s, h1, ?_⟩
  rcases hbest with ⟨ho, hx, hno⟩ | ⟨i, hi1, hi2, hi3, hi4, hi5, hmax⟩
  · left
    refine ⟨ho, hx, ?_⟩
    intro p hp
    obtain ⟨i, h1, h2, h3, _, h5⟩ := (allowed_iff ht p).mp hp
    exact hno i h1 (by omega) h5
  · right
    have hal : Allowed (fun e => c.x e index) c.minEvents (fun p => ok p = true) source target s.opt := (allowed_iff ht _).mpr ⟨i, hi1, by omega, by omega, hi4, hi3⟩
    refine ⟨⟨hal, ?_⟩, by rw [hi5, hi4]; rfl⟩
    intro q hq
    obtain ⟨j, h1, h2, h3, h4, h5⟩ := (allowed_iff ht q).mp hq
    have := hmax j h1 (by omega) h5
    rw [hi5] at this
    rw [h4, hi4]
    exact this

end

/-- The line search of `FastDT` returns the best cut that leaves enough events of both samples on both sides and is far enough from the first source event, with its χ²; it
returns the value -9999 only if there is none.  The coordinates of the target sample are distinct. -/
theorem line_search_partial (c : Config E) (minStep : Nat → ℚ) (first : E) (rest target : List E) (index : Nat) (hs : (first :: rest).Pairwise fun a b => c.x a index ≤ c.x b index)
    (ht : target.Pairwise fun a b => c.x a index < c.x b index) (ws : ∀ e ∈ first :: rest, 0 < c.x e c.dim) (wt : ∀ e ∈ target, 0 < c.x e c.dim) (hm : 0 < c.minEvents)
    (hn : c.minEvents ≤ target.length) :
    ∃ pos chi, bestCutFast c minStep (first :: rest) target index = some (pos, chi) ∧
      ((pos = 0 ∧ chi = -9999 ∧ ∀ p, ¬ Allowed (fun e => c.x e index) c.minEvents (fun p => minStep index < p - c.x first index) (first :: rest) target p) ∨
        (Best (fun e => c.x e index) (fun e => c.x e c.dim) c.minEvents (fun p => minStep index < p - c.x first index) (first :: rest) target pos ∧
          chi = chi2 (fun e => c.x e index) (fun e => c.x e c.dim) (first :: rest) target pos ∧ 0 ≤ chi)) := by
  obtain ⟨s, h1, h2⟩ := scan_best (ok := fun pos => decide (pos - c.x first index > minStep index)) hs ht ws wt hm
  refine ⟨s.opt, s.maxChi2, ?_, ?_⟩
  · unfold bestCutFast
    have hn' : ¬ target.length < c.minEvents := by omega
    simp only [List.getElem?_cons_zero, Option.bind_eq_bind, Option.bind_some]
    rw [if_neg hn', h1]
    rfl
  · simp only [decide_eq_true_eq, gt_iff_lt] at h2
    rcases h2 with h2 | ⟨h3, h4⟩
    · exact .inl h2
    · exact .inr ⟨h3, h4, by rw [h4]; exact chi2_nonneg _ _ ws wt _⟩

/-- The step of the loop in `bestCut`. -/
def slowStep (c : Config E) (source target : List E) (index : Nat) (s : ℚ × ℚ × ℚ × Nat × ℚ × List E) (i : Nat) : ℚ × ℚ × ℚ × Nat × ℚ × List E :=
  let w := fun e => c.x e c.dim
  let f := fun e => c.x e index
  let sum := fun (l : List E) => (l.map w).foldl (· + ·) 0
  let swt := sum source
  let twt := sum target
  let (tw1, sw1, maxChi2, sp1, opt, rest) := s
  match target[i]?, target[i + 1]? with
  | some a, some b =>
    let tw1 := tw1 + w a
    let pos := (f a + f b) / 2
    let passed := rest.takeWhile fun e => f e ≤ pos
    let rest := rest.dropWhile fun e => f e ≤ pos
    let sw1 := sw1 + sum passed
    let sp1 := sp1 + passed.length
    let chi2 := (sw1 - tw1) * (sw1 - tw1) / (sw1 + tw1) +
      (swt - sw1 - twt + tw1) * (swt - sw1 - twt + tw1) / (swt - sw1 + twt - tw1)
    if chi2 > maxChi2 ∧ sp1 ≥ c.minEvents ∧ source.length - sp1 ≥ c.minEvents then (tw1, sw1, chi2, sp1, pos, rest)
    else (tw1, sw1, maxChi2, sp1, opt, rest)
  | _, _ => s

theorem bestCut_fold (c : Config E) (source target : List E) (index : Nat) : bestCut c source target index =
    ((List.range' c.minEvents (target.length - c.minEvents - c.minEvents)).foldl (slowStep c source target index) (weightOf c (target.take c.minEvents), 0, -9999, 0, 0, source)).2.2.2.2.1 := rfl

theorem slow_fold (c : Config E) (source target : List E) (index : Nat) (is : List Nat) (s s' : Scan E) (h : is.foldlM (cutStep c (fun _ => true) source target index) s = some s') :
    is.foldl (slowStep c source target index) (s.tw1, s.sw1, s.maxChi2, s.sp1, s.opt, s.rest) = (s'.tw1, s'.sw1, s'.maxChi2, s'.sp1, s'.opt, s'.rest) := by
  induction is generalizing s with
  | nil =>
    cases h
    rfl
  | cons i is ih =>
    rw [List.foldlM_cons] at h
    obtain ⟨t, ht, hrest⟩ := Option.bind_eq_some_iff.mp h
    rw [List.foldl_cons, ← ih t hrest]
    congr 1
    unfold cutStep at ht
    obtain ⟨a, ha, ht⟩ := Option.bind_eq_some_iff.mp ht
    obtain ⟨b, hb, ht⟩ := Option.bind_eq_some_iff.mp ht
    have hpos : 1 / 2 * (c.x a index + c.x b index) = (c.x a index + c.x b index) / 2 := by ring
    simp only [hpos, and_true] at ht
    unfold slowStep
    simp only [ha, hb]
    split at ht
    · rename_i hc
      cases ht
      exact if_pos hc
    · rename_i hc
      cases ht
      exact if_neg hc

/-- The line search of `BinDT` returns the best cut that leaves enough events of both samples on both sides, or zero if there is none. -/
theorem line_search_slow_partial (c : Config E) (source target : List E) (index : Nat) (hs : source.Pairwise fun a b => c.x a index ≤ c.x b index)
    (ht : target.Pairwise fun a b => c.x a index < c.x b index) (ws : ∀ e ∈ source, 0 < c.x e c.dim) (wt : ∀ e ∈ target, 0 < c.x e c.dim) (hm : 0 < c.minEvents) :
    (bestCut c source target index = 0 ∧ ∀ p, ¬ Allowed (fun e => c.x e index) c.minEvents (fun _ => True) source target p) ∨
      Best (fun e => c.x e index) (fun e => c.x e c.dim) c.minEvents (fun _ => True) source target (bestCut c source target index) := by
  obtain ⟨s, h1, h2⟩ := scan_best (ok := fun _ => true) hs ht ws wt hm
  have hopt : bestCut c source target index = s.opt := by
    have := slow_fold c source target index _ _ _ h1
    rw [bestCut_fold]
    simp only [this]
  rw [hopt]
  simp only at h2
  rcases h2 with ⟨h2, _, h3⟩ | ⟨h3, _⟩
  · exact .inl ⟨h2, h3⟩
  · exact .inr h3

/-- Events with a coordinate and a weight, which are sorted already. -/
def pairs (minEvents : Nat) : Config (ℚ × ℚ) where
  dim := 1
  minEvents := minEvents
  maxDepth := 9
  ordering := [0]
  x := fun e i => if i = 0 then e.1 else e.2
  sort := fun _ l => l
  byVariance := fun _ => [0]

/-- With equal coordinates in the target sample the cut can leave no target events above it, and the χ² returned is not that of the cut.  Without source events, or with zero for the
smallest number of events, memory beyond the arrays is read. -/
theorem line_search_counterexample :
    (∃ pos chi, bestCutFast (pairs 1) (fun _ => 0) [(1, 1), (3, 1)] [(1, 1), (2, 1), (2, 1), (2, 1)] 0 = some (pos, chi) ∧
        above (fun e : ℚ × ℚ => e.1) pos [(1, 1), (2, 1), (2, 1), (2, 1)] = [] ∧
        chi ≠ chi2 (fun e : ℚ × ℚ => e.1) (fun e => e.2) [(1, 1), (3, 1)] [(1, 1), (2, 1), (2, 1), (2, 1)] pos) ∧
      bestCutFast (pairs 1) (fun _ => 0) [] [(1, 1), (2, 1)] 0 = none ∧ bestCutFast (pairs 0) (fun _ => 0) [(1, 1), (3, 1)] [(1, 1), (2, 1)] 0 = none := by
  refine ⟨⟨2, 1, ?_, ?_, ?_⟩, ?_, ?_⟩
  all_goals decide +kernel

/-- Two samples with a best cut. -/
example : bestCutFast (pairs 1) (fun _ => 0) [(1, 1), (2, 1), (3, 1), (7, 1)] [(1, 1), (4, 1), (5, 1), (6, 1)] 0 = some (9 / 2, 8 / 15) ∧
    Allowed (fun e : ℚ × ℚ => e.1) 1 (fun p => 0 < p - 1) [(1, 1), (2, 1), (3, 1), (7, 1)] [(1, 1), (4, 1), (5, 1), (6, 1)] (9 / 2) :=
  ⟨by decide +kernel, ⟨[(1, 1)], (4, 1), (5, 1), [(6, 1)], rfl, by norm_num⟩, by decide +kernel, by decide +kernel, by decide +kernel, by decide +kernel, by norm_num⟩

end AmpGen.Binning
