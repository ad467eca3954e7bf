import Verif.Binning.Spec
import Mathlib.Data.List.Basic
import Mathlib.Algebra.Order.Field.Rat
import Mathlib.Tactic.Linarith
import Mathlib.Tactic.Ring
/-
Splitting a sample.
-/
namespace AmpGen.Binning

variable {E : Type} {c : Config E}

theorem Distinct.perm {l l' : List E} (h : Distinct c l) (hp : l'.Perm l) : Distinct c l' := by
  unfold Distinct at *
  exact (List.Perm.pairwise_iff (fun {a b} hab i hi => (hab i hi).symm) hp).mpr h

theorem splitEvents_spec (g : Good c) {evts : List E} (h2 : 2 ≤ evts.length) (index : Nat) :
    ∃ mid l r, splitEvents c evts index = some (mid, l, r) ∧ (l ++ r).Perm evts ∧ evts.length ≤ 2 * l.length + 1 ∧
      evts.length ≤ 2 * r.length + 1 ∧ (∀ e ∈ l, c.x e index ≤ mid) ∧ (∀ e ∈ r, mid ≤ c.x e index) ∧
      (Distinct c evts → index < c.dim → ∀ e ∈ l, c.x e index < mid) := by
  have hp := g.perm index evts
  have hs := g.sorted index evts
  have hd : Distinct c evts → index < c.dim → (c.sort index evts).Pairwise fun a b => c.x a index < c.x b index := by
    intro h hi
    have := h.perm hp
    unfold Distinct at this
    exact (hs.and this).imp fun {a b} hab => lt_of_le_of_ne hab.1 (hab.2 index hi)
  unfold splitEvents
  rw [← hp.length_eq] at h2 ⊢
  generalize c.sort index evts = s at *
  rw [List.pairwise_iff_getElem] at hs
  have hd' : Distinct c evts → index < c.dim → ∀ (i j : Nat) (hi : i < s.length) (hj : j < s.length), i < j → c.x s[i] index < c.x s[j] index := by
    intro h hi
    exact List.pairwise_iff_getElem.mp (hd h hi)
  have hle : ∀ (i j : Nat) (hi : i < s.length) (hj : j < s.length), i ≤ j → c.x s[i] index ≤ c.x s[j] index := by
    intro i j hi hj hij
    rcases Nat.lt_or_eq_of_le hij with h | h
    · exact hs i j hi hj h
    · subst h; exact le_rfl
  have hm1 : s.length / 2 - 1 < s.length := by omega
  have hm0 : s.length / 2 < s.length := by omega
  have hmn : ¬ s.length / 2 = 0 := by omega
  have key : ∀ (mid : ℚ) (m : Nat), m ≤ s.length → s.length ≤ 2 * m + 1 → s.length ≤ 2 * (s.length - m) + 1 →
      (∀ (i : Nat) (hi : i < s.length), i < m → c.x s[i] index ≤ mid) → (∀ (i : Nat) (hi : i < s.length), m ≤ i → mid ≤ c.x s[i] index) →
      (Distinct c evts → index < c.dim → ∀ (i : Nat) (hi : i < s.length), i < m → c.x s[i] index < mid) →
      ∃ mid' l r, some (mid, s.take m, s.drop m) = some (mid', l, r) ∧ (l ++ r).Perm evts ∧ s.length ≤ 2 * l.length + 1 ∧
      s.length ≤ 2 * r.length + 1 ∧ (∀ e ∈ l, c.x e index ≤ mid') ∧ (∀ e ∈ r, mid' ≤ c.x e index) ∧
      (Distinct c evts → index < c.dim → ∀ e ∈ l, c.x e index < mid') := by
    intro mid m hm k1 k2 k3 k4 k5
    refine ⟨mid, s.take m, s.drop m, rfl, by rw [List.take_append_drop]; exact hp, ?_, ?_, ?_, ?_, ?_⟩
    · rw [List.length_take]; omega
    · rw [List.length_drop]; omega
    · intro e he
      obtain ⟨i, hi, rfl⟩ := List.mem_iff_getElem.mp he
      rw [List.length_take] at hi
      rw [List.getElem_take]
      exact k3 i (by omega) (by omega)
    · intro e he
      obtain ⟨i, hi, rfl⟩ := List.mem_iff_getElem.mp he
      rw [List.length_drop] at hi
      rw [List.getElem_drop]
      exact k4 (m + i) (by omega) (by omega)
    · intro h1 h2 e he
      obtain ⟨i, hi, rfl⟩ := List.mem_iff_getElem.mp he
      rw [List.length_take] at hi
      rw [List.getElem_take]
      exact k5 h1 h2 i (by omega) (by omega)
  by_cases hev : s.length % 2 = 0
  · simp only [if_pos hev, if_neg hmn, List.getElem?_eq_getElem hm1, List.getElem?_eq_getElem hm0, Option.map_some, Option.bind_eq_bind,
      Option.bind_some, Option.pure_def]
    have hab := hle _ _ hm1 hm0 (by omega)
    have hnot : ¬ (c.x s[s.length / 2 - 1] index + c.x s[s.length / 2] index) / 2 > c.x s[s.length / 2] index := by
      intro h; linarith
    rw [if_neg hnot]
    refine key _ (s.length / 2) (by omega) (by omega) (by omega) ?_ ?_ ?_
    · intro i hi him
      have := hle i (s.length / 2 - 1) hi hm1 (by omega)
      linarith
    · intro i hi him
      have := hle (s.length / 2) i hm0 hi him
      linarith
    · intro h1 h2 i hi him
      have := hle i (s.length / 2 - 1) hi hm1 (by omega)
      have := hd' h1 h2 (s.length / 2 - 1) (s.length / 2) hm1 hm0 (by omega)
      linarith
  · have hm2 : s.length / 2 + 1 < s.length := by omega
    simp only [if_neg hev, if_neg hmn, List.getElem?_eq_getElem hm1, List.getElem?_eq_getElem hm0, List.getElem?_eq_getElem hm2, Option.map_some,
      Option.bind_eq_bind, Option.bind_some, Option.pure_def]
    have hab := hle _ _ hm1 hm0 (by omega)
    have hbd := hle _ _ hm0 hm2 (by omega)
    by_cases hgt : (c.x s[s.length / 2 + 1] index + c.x s[s.length / 2 - 1] index + c.x s[s.length / 2] index) / 3 > c.x s[s.length / 2] index
    · rw [if_pos hgt]
      refine key _ (s.length / 2 + 1) (by omega) (by omega) (by omega) ?_ ?_ ?_
      · intro i hi him
        have := hle i (s.length / 2) hi hm0 (by omega)
        linarith
      · intro i hi him
        have := hle (s.length / 2 + 1) i hm2 hi him
        linarith
      · intro _ _ i hi him
        have := hle i (s.length / 2) hi hm0 (by omega)
        linarith
    · rw [if_neg hgt]
      refine key _ (s.length / 2) (by omega) (by omega) (by omega) ?_ ?_ ?_
      · intro i hi him
        have := hle i (s.length / 2 - 1) hi hm1 (by omega)
        linarith
      · intro i hi him
        have := hle (s.length / 2) i hm0 hi him
        linarith
      · intro h1 h2 i hi him
        have := hle i (s.length / 2 - 1) hi hm1 (by omega)
        have := hd' h1 h2 (s.length / 2 - 1) (s.length / 2) hm1 hm0 (by omega)
        linarith

/-- A queue that can be used. -/
def Queue (c : Config E) (q : List Nat) : Prop := q ≠ [] ∧ ∀ i ∈ q, i < c.dim

theorem refreshQueue_spec (g : Good c) {evts : List E} (h2 : 2 ≤ evts.length) (depth : Nat) :
    ∃ q, refreshQueue c evts depth = some q ∧ Queue c q := by
  have key : ∀ q : List Nat, q.Perm (List.range c.dim) → Queue c q := by
    intro q hq
    refine ⟨?_, fun i hi => List.mem_range.mp (hq.mem_iff.mp hi)⟩
    intro h
    have := hq.length_eq
    rw [h, List.length_range] at this
    have := g.dim
    simp at *
    omega
  unfold refreshQueue
  split
  · exact ⟨_, rfl, key _ g.ordering⟩
  · rw [if_neg (by omega)]
    exact ⟨_, rfl, key _ (g.variance _)⟩

theorem next_queue (g : Good c) {evts : List E} (h2 : 2 ≤ evts.length) (depth : Nat) {index : Nat} {queue : List Nat}
    (hq : Queue c (index :: queue)) :
    ∃ q, (if queue = [] then refreshQueue c evts depth else some queue) = some q ∧ Queue c q := by
  split
  · exact refreshQueue_spec g h2 depth
  · exact ⟨queue, rfl, by assumption, fun i hi => hq.2 i (List.mem_cons_of_mem _ hi)⟩

theorem makeNodes_spec (g : Good c) : ∀ (r : Nat) (evts : List E) (queue : List Nat) (bins : List (List E)), Queue c queue →
    ∃ t new, makeNodes c r evts queue bins = some (t, bins ++ new) ∧ new.flatten.Perm evts ∧
      (∀ y, bins.length ≤ t.getBinNumber y ∧ t.getBinNumber y < (bins ++ new).length) ∧
      (c.minEvents ≤ evts.length → ∀ b ∈ new, c.minEvents ≤ b.length) ∧
      (Distinct c evts → ∀ i b, new[i]? = some b → ∀ e ∈ b, t.getBinNumber (c.x e) = bins.length + i) := by
  intro r
  have hleaf : ∀ (evts : List E) (bins : List (List E)), ∃ t new, some (Tree.leaf bins.length 999, bins ++ [evts]) = some (t, bins ++ new) ∧
      new.flatten.Perm evts ∧
      (∀ y, bins.length ≤ t.getBinNumber y ∧ t.getBinNumber y < (bins ++ new).length) ∧
      (c.minEvents ≤ evts.length → ∀ b ∈ new, c.minEvents ≤ b.length) ∧
      (Distinct c evts → ∀ i b, new[i]? = some b → ∀ e ∈ b, t.getBinNumber (c.x e) = bins.length + i) := by
    intro evts bins
    refine ⟨_, [evts], rfl, by simp, ?_, ?_, ?_⟩
    · intro y; exact ⟨le_rfl, by simp [Tree.getBinNumber, Tree.route]⟩
    · intro h b hb; rw [List.mem_singleton.mp hb]; exact h
    · intro _ i b hib e he
      have hi : i = 0 := by
        have := (List.getElem?_eq_some_iff.mp hib).1
        simpa using this
      subst hi; rfl
  induction r with
  | zero =>
    intro evts queue bins hq
    cases queue with
    | nil => exact absurd rfl hq.1
    | cons index queue => exact hleaf evts bins
  | succ r ih =>
    intro evts queue bins hq
    cases queue with
    | nil => exact absurd rfl hq.1
    | cons index queue =>
      rw [makeNodes]
      by_cases hlt : evts.length < 2 * c.minEvents
      · rw [if_pos hlt]; exact hleaf evts bins
      · rw [if_neg hlt]
        have hmin := g.minEvents
        have h2 : 2 ≤ evts.length := by omega
        obtain ⟨mid, l, rt, hsp, hperm, hl, hr, hle, hge, hstrict⟩ := splitEvents_spec g h2 index
        obtain ⟨q, hq1, hq2⟩ := next_queue g h2 (c.maxDepth + 1 - r) hq
        obtain ⟨tl, nl, m1, p1, b1, s1, d1⟩ := ih l q bins hq2
        obtain ⟨tr, nr, m2, p2, b2, s2, d2⟩ := ih rt q (bins ++ nl) hq2
        refine ⟨.node index mid tr tl, nl ++ nr, ?_, ?_, ?_, ?_, ?_⟩
        · by_cases hqe : queue = []
          · rw [if_pos hqe] at hq1
            simp only [hsp, Option.bind_eq_bind, Option.bind_some, if_pos hqe, hq1, m1, m2, Option.pure_def, List.append_assoc]
          · rw [if_neg hqe, Option.some.injEq] at hq1
            subst hq1
            simp only [hsp, Option.bind_eq_bind, Option.bind_some, if_neg hqe, m1, m2, Option.pure_def, List.append_assoc]
        · rw [List.flatten_append]
          exact (p1.append p2).trans hperm
        · intro y
          have c1 := b1 y
          have c2 := b2 y
          simp only [List.length_append] at *
          unfold Tree.getBinNumber at *
          rw [Tree.route]
          split <;> constructor <;> omega
        · intro _ b hb
          rcases List.mem_append.mp hb with h | h
          · exact s1 (by omega) b h
          · exact s2 (by omega) b h
        · intro hd i b hib e he
          have hdp : Distinct c (l ++ rt) := hd.perm hperm
          unfold Distinct at hdp
          rw [List.pairwise_append] at hdp
          have hidx : index < c.dim := hq.2 index (by simp)
          by_cases hi : i < nl.length
          · rw [List.getElem?_append_left hi] at hib
            have hel : e ∈ l := p1.mem_iff.mp (List.mem_flatten.mpr ⟨b, List.mem_of_getElem? hib, he⟩)
            have := d1 hdp.1 i b hib e he
            unfold Tree.getBinNumber at *
            rw [Tree.route, if_pos (hstrict hd hidx e hel)]
            exact this
          · rw [List.getElem?_append_right (by omega)] at hib
            have her : e ∈ rt := p2.mem_iff.mp (List.mem_flatten.mpr ⟨b, List.mem_of_getElem? hib, he⟩)
            have := d2 hdp.2.1 _ b hib e he
            unfold Tree.getBinNumber at *
            rw [Tree.route, if_neg (not_lt.mpr (hge e her)), this, List.length_append]
            omega

theorem takeWhile_sorted {s : List E} {i : Nat} {p : ℚ → Bool} (hp : ∀ a b, a ≤ b → p b = true → p a = true)
    (hs : s.Pairwise fun a b => c.x a i ≤ c.x b i) :
    (∀ e ∈ s.takeWhile fun e => p (c.x e i), p (c.x e i) = true) ∧ (∀ e ∈ s.dropWhile fun e => p (c.x e i), p (c.x e i) = false) := by
  refine ⟨fun e he => List.all_eq_true.mp (List.all_takeWhile) e he, ?_⟩
  induction s with
  | nil => intro e he; simp at he
  | cons a s ih =>
    rw [List.pairwise_cons] at hs
    intro e he
    rw [List.dropWhile_cons] at he
    split at he
    · exact ih hs.2 e he
    · rename_i hn
      rcases List.mem_cons.mp he with rfl | h
      · simpa using hn
      · have := hs.1 e h
        by_contra hc
        exact hn (hp _ _ this (by simpa using hc))

end AmpGen.Binning
