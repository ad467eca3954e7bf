import Verif.Cubature.LemmasLiteral
import Verif.Cubature.LemmasLoop
/-
The points at which the function is evaluated, the axis, and the places of the array: helper lemmas.
-/
namespace AmpGen.Cubature
open Spec
variable {n : ℕ}

/-! ### The points are in the box -/

theorem abs_le_box (l h : ℝ) (hl : |l| ≤ 1) (hh : 0 ≤ h) : -h ≤ l * h ∧ l * h ≤ h := by
  obtain ⟨h1, h2⟩ := abs_le.1 hl
  constructor <;> nlinarith

theorem update_mem (B : Box n) (hB : ∀ i, 0 ≤ B.half i) {x : Fin n → ℝ} (hx : x ∈ B.points) (j : Fin n) (l : ℝ) (hl : |l| ≤ 1)
    (hj : x j = B.mid j) : Function.update x j (x j + l * B.half j) ∈ B.points := by
  obtain ⟨g1, g2⟩ := abs_le_box l _ hl (hB j)
  refine ⟨fun i => ?_, fun i => ?_⟩
  · by_cases hi : i = j
    · subst hi; rw [Function.update_self, hj]; simp only [Pi.sub_apply]; linarith
    · rw [Function.update_of_ne hi]; exact hx.1 i
  · by_cases hi : i = j
    · subst hi; rw [Function.update_self, hj]; simp only [Pi.add_apply]; linarith
    · rw [Function.update_of_ne hi]; exact hx.2 i

theorem mid_mem (B : Box n) (hB : ∀ i, 0 ≤ B.half i) : B.mid ∈ B.points :=
  ⟨fun i => by have := hB i; simp only [Pi.sub_apply]; linarith, fun i => by have := hB i; simp only [Pi.add_apply]; linarith⟩

theorem rule_congr [NeZero n] (c : Consts) (h2 : |c.xl2| ≤ 1) (h4 : |c.xl4| ≤ 1) (h5 : |c.xl5| ≤ 1) (B : Box n) (hB : ∀ i, 0 ≤ B.half i)
    (F G : (Fin n → ℝ) → ℝ) (hFG : ∀ x ∈ B.points, F x = G x) : integrateFp c F B.mid B.half = integrateFp c G B.mid B.half := by
  have hmid := mid_mem B hB
  have n2 : |-c.xl2| ≤ 1 := by rwa [abs_neg]
  have n4 : |-c.xl4| ≤ 1 := by rwa [abs_neg]
  have e1 : sum1 F B.mid = sum1 G B.mid := hFG _ hmid
  have ef2 : f2 c F B.mid B.half = f2 c G B.mid B.half := by
    funext j
    unfold f2 eval
    rw [hFG _ (update_mem B hB hmid j _ n2 rfl), hFG _ (update_mem B hB hmid j _ h2 rfl)]
  have ef3 : f3 c F B.mid B.half = f3 c G B.mid B.half := by
    funext j
    unfold f3 eval
    rw [hFG _ (update_mem B hB hmid j _ n4 rfl), hFG _ (update_mem B hB hmid j _ h4 rfl)]
  have e4 : sum4 c F B.mid B.half = sum4 c G B.mid B.half := by
    unfold sum4 eval2
    refine Finset.sum_congr rfl fun j _ => Finset.sum_congr rfl fun k _ => ?_
    split
    · rename_i hjk
      have hk : ∀ l : ℝ, Function.update B.mid j l k = B.mid k := fun l => Function.update_of_ne (ne_of_gt hjk) _ _
      dsimp only
      rw [hFG _ (update_mem B hB (update_mem B hB hmid j _ h4 rfl) k _ h4 (hk _)), hFG _ (update_mem B hB (update_mem B hB hmid j _ h4 rfl) k _ n4 (hk _)),
        hFG _ (update_mem B hB (update_mem B hB hmid j _ n4 rfl) k _ h4 (hk _)), hFG _ (update_mem B hB (update_mem B hB hmid j _ n4 rfl) k _ n4 (hk _))]
    · rfl
  have e5 : sum5 c F B.mid B.half = sum5 c G B.mid B.half := by
    unfold sum5
    refine Finset.sum_congr rfl fun j _ => hFG _ ?_
    have : ∀ k : Fin n, |(if j.testBit k then 1 else -1) * c.xl5| ≤ 1 := by
      intro k
      split
      · rwa [one_mul]
      · rwa [neg_one_mul, abs_neg]
    refine ⟨fun k => ?_, fun k => ?_⟩
    · have := (abs_le_box _ _ (this k) (hB k)).1
      simp only [Pi.sub_apply]
      linarith
    · have := (abs_le_box _ _ (this k) (hB k)).2
      simp only [Pi.add_apply]
      linarith
  have e2 : sum2 c F B.mid B.half = sum2 c G B.mid B.half := by unfold sum2; rw [ef2]
  have e3 : sum3 c F B.mid B.half = sum3 c G B.mid B.half := by unfold sum3; rw [ef3]
  have ed : dif c F B.mid B.half = dif c G B.mid B.half := by funext j; unfold dif; rw [ef2, ef3, e1]
  unfold integrateFp rgnval rgncmp axis axisStep
  rw [e1, e2, e3, e4, e5, ed]

theorem literal_le : |literal.xl2| ≤ 1 ∧ |literal.xl4| ≤ 1 ∧ |literal.xl5| ≤ 1 := by
  refine ⟨?_, ?_, ?_⟩ <;> simp only [literal, xl2, xl4, xl5] <;> norm_num [abs_le]

/-! ### The axis -/

theorem foldl_axis (c : Consts) (F : (Fin n → ℝ) → ℝ) (ctr wth : Fin n → ℝ) : ∀ (l : List (Fin n)) (s : Fin n × ℝ) (seen : List (Fin n)),
    (∀ j ∈ seen, dif c F ctr wth j ≤ s.2) → (seen ≠ [] → s.2 = dif c F ctr wth s.1) → (seen = [] → s.2 = 0) →
    let r := l.foldl (axisStep c F ctr wth) s
    (∀ j ∈ seen ++ l, dif c F ctr wth j ≤ r.2) ∧ (seen ++ l ≠ [] → r.2 = dif c F ctr wth r.1) := by
  intro l
  induction l with
  | nil =>
    intro s seen h1 h2 h3
    simpa using ⟨h1, h2⟩
  | cons j l ih =>
    intro s seen h1 h2 h3
    have hs : (∀ i ∈ seen ++ [j], dif c F ctr wth i ≤ (axisStep c F ctr wth s j).2) ∧
        (axisStep c F ctr wth s j).2 = dif c F ctr wth (axisStep c F ctr wth s j).1 := by
      unfold axisStep
      by_cases h : s.2 ≤ dif c F ctr wth j
      · simp only [if_pos h, and_true]
        intro i hi
        rcases List.mem_append.1 hi with hi | hi
        · exact (h1 i hi).trans h
        · rw [List.mem_singleton.1 hi]
      · simp only [if_neg h]
        have hseen : seen ≠ [] := by
          intro hnil
          have := h3 hnil
          rw [this] at h
          exact h (abs_nonneg _)
        refine ⟨?_, h2 hseen⟩
        intro i hi
        rcases List.mem_append.1 hi with hi | hi
        · exact h1 i hi
        · rw [List.mem_singleton.1 hi]; exact (not_le.1 h).le
    have := ih (axisStep c F ctr wth s j) (seen ++ [j]) hs.1 (fun _ => hs.2) (fun h => by simp at h)
    simpa using this

theorem axis_max [NeZero n] (c : Consts) (F : (Fin n → ℝ) → ℝ) (ctr wth : Fin n → ℝ) (j : Fin n) :
    dif c F ctr wth j ≤ dif c F ctr wth (axis c F ctr wth) := by
  have h := foldl_axis c F ctr wth (List.finRange n) (0, 0) [] (by simp) (by simp) (by simp)
  dsimp only at h
  have hne : ([] : List (Fin n)) ++ List.finRange n ≠ [] := by
    intro h0
    have : (0 : Fin n) ∈ ([] : List (Fin n)) ++ List.finRange n := by simp
    rw [h0] at this
    cases this
  have := h.1 j (by simp)
  rw [h.2 hne] at this
  exact this

/-! ### The same loop for functions that agree -/

theorem adaptive_inside {rule : (Fin n → ℝ) → (Fin n → ℝ) → ℝ × ℝ × Fin n} {B : Box n} {S : Multiset (Piece n)} (h : Adaptive rule B S)
    (hB : ∀ i, 0 ≤ B.half i) : ∀ P ∈ S, (∀ i, 0 ≤ P.box.half i) ∧ P.box.points ⊆ B.points := by
  induction h with
  | start =>
    intro P hP
    rw [Multiset.mem_singleton] at hP
    subst hP
    exact ⟨hB, subset_rfl⟩
  | cut P S hA hmax ih =>
    obtain ⟨hP, hPB⟩ := ih P (Multiset.mem_cons_self _ _)
    have hh : ∀ i, 0 ≤ Function.update P.box.half P.axis (P.box.half P.axis / 2) i := by
      intro i
      by_cases hi : i = P.axis
      · rw [hi, Function.update_self]; have := hP P.axis; linarith
      · rw [Function.update_of_ne hi]; exact hP i
    have hb := hP P.axis
    intro Q hQ
    rw [Multiset.mem_cons, Multiset.mem_cons] at hQ
    rcases hQ with rfl | rfl | hQ
    · refine ⟨hh, fun x hx => hPB ⟨fun i => ?_, fun i => ?_⟩⟩
      · have := hx.1 i
        simp only [Box.piece, Box.lower, Pi.sub_apply] at this ⊢
        by_cases hi : i = P.axis
        · rw [hi] at this ⊢; rw [Function.update_self, Function.update_self] at this; linarith
        · rwa [Function.update_of_ne hi, Function.update_of_ne hi] at this
      · have := hx.2 i
        simp only [Box.piece, Box.lower, Pi.add_apply] at this ⊢
        by_cases hi : i = P.axis
        · rw [hi] at this ⊢; rw [Function.update_self, Function.update_self] at this; linarith
        · rwa [Function.update_of_ne hi, Function.update_of_ne hi] at this
    · refine ⟨hh, fun x hx => hPB ⟨fun i => ?_, fun i => ?_⟩⟩
      · have := hx.1 i
        simp only [Box.piece, Box.upper, Pi.sub_apply] at this ⊢
        by_cases hi : i = P.axis
        · rw [hi] at this ⊢; rw [Function.update_self, Function.update_self] at this; linarith
        · rwa [Function.update_of_ne hi, Function.update_of_ne hi] at this
      · have := hx.2 i
        simp only [Box.piece, Box.upper, Pi.add_apply] at this ⊢
        by_cases hi : i = P.axis
        · rw [hi] at this ⊢; rw [Function.update_self, Function.update_self] at this; linarith
        · rwa [Function.update_of_ne hi, Function.update_of_ne hi] at this
    · exact ih Q (Multiset.mem_cons_of_mem hQ)

theorem turn_congr {rule rule' : (Fin n → ℝ) → (Fin n → ℝ) → ℝ × ℝ × Fin n} (epsrel epsabs : ℝ) (s : State n)
    (h : rule (s.pi s.cur).a (s.pi s.cur).b = rule' (s.pi s.cur).a (s.pi s.cur).b) : turn rule epsrel epsabs s = turn rule' epsrel epsabs s := by
  unfold turn
  dsimp only
  rw [h]

theorem cur_inside {rule : (Fin n → ℝ) → (Fin n → ℝ) → ℝ × ℝ × Fin n} {B : Box n} (hB : ∀ i, 0 ≤ B.half i) {s : State n} (hi : Inv rule B s) :
    (∀ i, 0 ≤ (s.pi s.cur).b i) ∧ (Box.mk (s.pi s.cur).a (s.pi s.cur).b).points ⊆ B.points := by
  cases hi with
  | up m _ h1 h2 heap hA =>
    exact adaptive_inside hA hB _ (Multiset.mem_cons_self _ _)
  | down m C S _ h1 h2 hcur hm hole hrest ha hb hA =>
    rw [hcur, ha, hb]
    exact adaptive_inside hA hB _ (Multiset.mem_cons_self _ _)

theorem loop_congr {rule rule' : (Fin n → ℝ) → (Fin n → ℝ) → ℝ × ℝ × Fin n} {B : Box n} (hB : ∀ i, 0 ≤ B.half i) (epsrel epsabs : ℝ)
    (h : ∀ C : Box n, (∀ i, 0 ≤ C.half i) → C.points ⊆ B.points → rule C.mid C.half = rule' C.mid C.half) :
    ∀ (fuel : ℕ) (s : State n), Inv rule B s → loop rule epsrel epsabs fuel s = loop rule' epsrel epsabs fuel s := by
  intro fuel
  induction fuel with
  | zero => intro s _; rfl
  | succ fuel ih =>
    intro s hi
    obtain ⟨c1, c2⟩ := cur_inside hB hi
    unfold loop
    rw [← turn_congr epsrel epsabs s (h ⟨(s.pi s.cur).a, (s.pi s.cur).b⟩ c1 c2)]
    cases hl : s.ldv
    · rcases turn_up epsrel epsabs hl hi with ⟨s', e, hi', _⟩ | ⟨r, e, _⟩
      · rw [e]; exact ih s' hi'
      · rw [e]
    · obtain ⟨s', e, hi', _⟩ := turn_down epsrel epsabs hl hi
      rw [e]; exact ih s' hi'

/-! ### The places of the array -/

theorem arraySize_ge (hn : n ≤ 15) : 15 ≤ arraySize n := by
  unfold arraySize irlcls maxpts
  interval_cases n <;> decide

theorem irlcls_le (hn : n ≤ 15) : irlcls n ≤ maxpts := by
  unfold irlcls maxpts
  interval_cases n <;> decide

theorem inv_bounds {rule : (Fin n → ℝ) → (Fin n → ℝ) → ℝ × ℝ × Fin n} {B : Box n} (hn : n ≤ 15) {s : State n} (hi : Inv rule B s) :
    s.cur < arraySize n ∧ s.isbrgn < arraySize n ∧ s.isbrgs < arraySize n ∧ 1 ≤ s.isbrgn ∧ s.isbrgn ≤ s.isbrgs := by
  have h15 := arraySize_ge hn
  cases hi with
  | up m _ h1 h2 heap hA hr he hf hsz hcur =>
    have : m + 1 < arraySize n := by
      rcases Nat.eq_zero_or_pos m with h0 | h0
      · omega
      · have := (hsz (by omega)).1; omega
    refine ⟨?_, by omega, by omega, by omega, by omega⟩
    rcases hcur with h | h <;> omega
  | down m C S _ h1 h2 hcur hm hole hrest ha hb hA hr he hf hsz hmax =>
    exact ⟨by omega, by omega, by omega, by omega, by omega⟩

end AmpGen.Cubature
