import Verif.Discrete.Model
import Mathlib.Algebra.BigOperators.Group.List.Basic
import Mathlib.Algebra.Order.BigOperators.Group.List
import Mathlib.Tactic.Ring
import Mathlib.Tactic.FieldSimp
import Mathlib.Tactic.Linarith
import Mathlib.Tactic.Positivity
/-
Invariants of the construction of the buckets.
-/
namespace AmpGen.Discrete

open Classical

/-- Length of the part of `[j/N, (j+1)/N)` on which bucket `b` yields `k`. -/
noncomputable def share (N : Nat) (j : Nat) (b : Bucket) (k : Nat) : ℝ :=
  let a := (j : ℝ) / N
  let e := ((j : ℝ) + 1) / N
  let c := max a (min b.2.2 e)
  (if b.1 = k then c - a else 0) + (if b.2.1 = k then e - c else 0)

/-- Total over a list of buckets. -/
noncomputable def shares (N : Nat) (bs : List Bucket) (k : Nat) : ℝ :=
  (bs.zipIdx.map fun x => share N x.2 x.1 k).sum

/-- What the pieces carry of outcome `k`, and in total. -/
noncomputable def val (l : List Piece) (k : Nat) : ℝ := (l.map fun x => if x.2 = k then x.1 else 0).sum
noncomputable def tot (l : List Piece) : ℝ := (l.map Prod.fst).sum

theorem shares_snoc (N : Nat) (bs : List Bucket) (b : Bucket) (k : Nat) :
    shares N (bs ++ [b]) k = shares N bs k + share N bs.length b k := by
  unfold shares
  rw [List.zipIdx_append]
  simp

theorem share_pure (N j n : Nat) (t : ℝ) (k : Nat) (hN : 0 < N) :
    share N j (n, n, t) k = if n = k then 1 / (N : ℝ) else 0 := by
  unfold share
  have : (0 : ℝ) < N := Nat.cast_pos.mpr hN
  simp only
  split
  · field_simp; ring
  · simp

theorem shares_pure (N : Nat) (hN : 0 < N) (l : List Piece) (k : Nat) : ∀ bs : List Bucket,
    shares N (bs ++ l.map fun x => (x.2, x.2, 0)) k =
      shares N bs k + (l.map fun x => if x.2 = k then 1 / (N : ℝ) else 0).sum := by
  induction l with
  | nil => simp
  | cons x l ih =>
    intro bs
    rw [List.map_cons, show bs ++ (x.2, x.2, (0 : ℝ)) :: (l.map fun x => (x.2, x.2, (0 : ℝ))) =
      (bs ++ [(x.2, x.2, (0 : ℝ))]) ++ (l.map fun x => (x.2, x.2, (0 : ℝ))) by simp, ih, shares_snoc,
      share_pure N _ _ _ _ hN]
    simp [add_assoc]

theorem share_mixed (N j : Nat) (hN : 0 < N) (s : ℝ) (hs0 : 0 ≤ s) (hs1 : s < 1 / (N : ℝ)) (a b k : Nat) :
    share N j (a, b, s + (j : ℝ) / N) k = (if a = k then s else 0) + (if b = k then 1 / (N : ℝ) - s else 0) := by
  unfold share
  have hN' : (0 : ℝ) < N := Nat.cast_pos.mpr hN
  have e : ((j : ℝ) + 1) / N = (j : ℝ) / N + 1 / N := by rw [add_div]
  have hc : max ((j : ℝ) / N) (min (s + (j : ℝ) / N) (((j : ℝ) + 1) / N)) = s + (j : ℝ) / N := by
    rw [e, min_eq_left (by linarith), max_eq_right (by linarith)]
  simp only [hc]
  simp only [e]
  congr 1
  · split
    · ring
    · rfl
  · split
    · ring
    · rfl

/-- Invariant of the loop. -/
structure Inv (N : Nat) (p : Nat → ℝ) (small large : List Piece) (i : Nat) (bs : List Bucket) : Prop where
  pos : 0 < N
  len : bs.length = i
  count : small.length + large.length + i = N
  sml : ∀ x ∈ small, 0 ≤ x.1 ∧ x.1 < 1 / (N : ℝ)
  lrg : ∀ x ∈ large, 1 / (N : ℝ) ≤ x.1
  total : tot small + tot large = ((small.length + large.length : Nat) : ℝ) / N
  mass : ∀ k, shares N bs k + val small k + val large k = p k
  idxS : ∀ x ∈ small, x.2 < N
  idxL : ∀ x ∈ large, x.2 < N
  idxB : ∀ b ∈ bs, b.1 < N ∧ b.2.1 < N

theorem inv_step {N : Nat} {p : Nat → ℝ} {s l : Piece} {small large : List Piece} {i : Nat} {bs : List Bucket}
    (h : Inv N p (s :: small) (l :: large) i bs) :
    (s.1 + l.1 - 1 / (N : ℝ) < 1 / (N : ℝ) →
      Inv N p ((s.1 + l.1 - 1 / (N : ℝ), l.2) :: small) large (i + 1) (bs ++ [(s.2, l.2, s.1 + (i : ℝ) / N)])) ∧
    (¬ s.1 + l.1 - 1 / (N : ℝ) < 1 / (N : ℝ) →
      Inv N p small ((s.1 + l.1 - 1 / (N : ℝ), l.2) :: large) (i + 1) (bs ++ [(s.2, l.2, s.1 + (i : ℝ) / N)])) := by
  have hs := h.sml s List.mem_cons_self
  have hl := h.lrg l List.mem_cons_self
  have hcount := h.count
  have htot := h.total
  have hN' : (0 : ℝ) < N := Nat.cast_pos.mpr h.pos
  simp only [List.length_cons, tot, List.map_cons, List.sum_cons] at hcount htot
  push_cast at htot
  have hmass : ∀ k, shares N (bs ++ [(s.2, l.2, s.1 + (i : ℝ) / N)]) k + val small k + val large k +
      (if l.2 = k then s.1 + l.1 - 1 / (N : ℝ) else 0) = p k := by
    intro k
    have h1 := h.mass k
    rw [shares_snoc, h.len, share_mixed N i h.pos s.1 hs.1 hs.2, ← h1]
    simp only [val, List.map_cons, List.sum_cons]
    split <;> split <;> ring
  have hidx : ∀ b ∈ bs ++ [(s.2, l.2, s.1 + (i : ℝ) / N)], b.1 < N ∧ b.2.1 < N := by
    intro b hb
    rcases List.mem_append.mp hb with hb | hb
    · exact h.idxB b hb
    · rw [List.mem_singleton.mp hb]
      exact ⟨h.idxS s List.mem_cons_self, h.idxL l List.mem_cons_self⟩
  constructor
  · intro hlt
    refine ⟨h.pos, by simp [h.len], by simp; omega, ?_, fun x hx => h.lrg x (List.mem_cons_of_mem _ hx), ?_, ?_, ?_,
      fun x hx => h.idxL x (List.mem_cons_of_mem _ hx), hidx⟩
    · intro x hx
      rcases List.mem_cons.mp hx with rfl | hx
      · exact ⟨by simp only; linarith, hlt⟩
      · exact h.sml x (List.mem_cons_of_mem _ hx)
    · simp only [tot, List.map_cons, List.sum_cons, List.length_cons]
      push_cast
      have : ((small.length : ℝ) + 1 + large.length) / N =
        (small.length + 1 + (large.length + 1)) / N - 1 / N := by ring
      rw [this, ← htot]; ring
    · intro k
      rw [← hmass k]
      simp only [val, List.map_cons, List.sum_cons]
      ring
    · intro x hx
      rcases List.mem_cons.mp hx with rfl | hx
      · exact h.idxL l List.mem_cons_self
      · exact h.idxS x (List.mem_cons_of_mem _ hx)
  · intro hge
    refine ⟨h.pos, by simp [h.len], by simp; omega, fun x hx => h.sml x (List.mem_cons_of_mem _ hx), ?_, ?_, ?_,
      fun x hx => h.idxS x (List.mem_cons_of_mem _ hx), ?_, hidx⟩
    · intro x hx
      rcases List.mem_cons.mp hx with rfl | hx
      · exact not_lt.mp hge
      · exact h.lrg x (List.mem_cons_of_mem _ hx)
    · simp only [tot, List.map_cons, List.sum_cons, List.length_cons]
      push_cast
      have : ((small.length : ℝ) + (large.length + 1)) / N =
        (small.length + 1 + (large.length + 1)) / N - 1 / N := by ring
      rw [this, ← htot]; ring
    · intro k
      rw [← hmass k]
      simp only [val, List.map_cons, List.sum_cons]
      ring
    · intro x hx
      rcases List.mem_cons.mp hx with rfl | hx
      · exact h.idxL l List.mem_cons_self
      · exact h.idxL x (List.mem_cons_of_mem _ hx)

theorem mix_inv {N : Nat} {p : Nat → ℝ} (small large : List Piece) (i : Nat) (bs : List Bucket)
    (h : Inv N p small large i bs) :
    ∃ i', Inv N p (mix N small large i bs).1 (mix N small large i bs).2.1 i' (mix N small large i bs).2.2 ∧
      ((mix N small large i bs).1 = [] ∨ (mix N small large i bs).2.1 = []) := by
  match small, large with
  | s :: small', l :: large' =>
    obtain ⟨h1, h2⟩ := inv_step h
    rw [mix]
    split
    · rename_i hc
      exact mix_inv _ _ _ _ (h1 hc)
    · rename_i hc
      exact mix_inv _ _ _ _ (h2 hc)
  | [], large =>
    rw [mix]
    · exact ⟨i, h, Or.inl rfl⟩
    · intros; simp_all
  | s :: small', [] =>
    rw [mix]
    · exact ⟨i, h, Or.inr rfl⟩
    · intros; simp_all
termination_by small.length + large.length

theorem tot_ge {c : ℝ} : ∀ {l : List Piece}, (∀ x ∈ l, c ≤ x.1) → (l.length : ℝ) * c ≤ tot l
  | [], _ => by simp [tot]
  | x :: l, h => by
    have ih := tot_ge (fun y hy => h y (List.mem_cons_of_mem _ hy))
    have := h x List.mem_cons_self
    simp only [tot, List.map_cons, List.sum_cons, List.length_cons] at *
    push_cast
    linarith

theorem tot_lt {c : ℝ} : ∀ {l : List Piece}, l ≠ [] → (∀ x ∈ l, x.1 < c) → tot l < (l.length : ℝ) * c
  | [], h, _ => absurd rfl h
  | [x], _, h => by simpa [tot] using h x List.mem_cons_self
  | x :: y :: l, _, h => by
    have ih := tot_lt (l := y :: l) (by simp) (fun z hz => h z (List.mem_cons_of_mem _ hz))
    have := h x List.mem_cons_self
    simp only [tot, List.map_cons, List.sum_cons, List.length_cons] at *
    push_cast at *
    linarith

theorem eq_of_tot {c : ℝ} : ∀ {l : List Piece}, (∀ x ∈ l, c ≤ x.1) → tot l = (l.length : ℝ) * c → ∀ x ∈ l, x.1 = c
  | [], _, _ => by simp
  | x :: l, h, ht => by
    have h1 := h x List.mem_cons_self
    have h2 := tot_ge (fun y hy => h y (List.mem_cons_of_mem _ hy))
    simp only [tot, List.map_cons, List.sum_cons, List.length_cons] at *
    push_cast at ht
    have hx : x.1 = c := by linarith
    intro y hy
    rcases List.mem_cons.mp hy with rfl | hy
    · exact hx
    · exact eq_of_tot (fun z hz => h z (List.mem_cons_of_mem _ hz)) (by simp only [tot]; linarith) y hy

/-- At the end of the loop the small stack is empty and each remaining piece is exactly `1/N`. -/
theorem inv_end {N : Nat} {p : Nat → ℝ} {small large : List Piece} {i : Nat} {bs : List Bucket}
    (h : Inv N p small large i bs) (he : small = [] ∨ large = []) :
    small = [] ∧ ∀ x ∈ large, x.1 = 1 / (N : ℝ) := by
  have hs : small = [] := by
    rcases he with he | he
    · exact he
    · by_contra hne
      have h1 := tot_lt hne (fun x hx => (h.sml x hx).2)
      have h2 := h.total
      subst he
      simp only [tot, List.map_nil, List.sum_nil, add_zero, List.length_nil] at h1 h2
      rw [h2] at h1
      rw [mul_one_div] at h1
      exact lt_irrefl _ h1
  refine ⟨hs, ?_⟩
  subst hs
  apply eq_of_tot h.lrg
  have := h.total
  simp only [tot, List.map_nil, List.sum_nil, zero_add, List.length_nil] at this ⊢
  rw [this, mul_one_div]

theorem val_nil (k : Nat) : val [] k = 0 := rfl

theorem split_inv (N : Nat) (hN : 0 < N) : ∀ (ps done : List ℝ) (small large : List Piece),
    small.length + large.length = done.length → done.length + ps.length = N →
    (∀ x ∈ small, 0 ≤ x.1 ∧ x.1 < 1 / (N : ℝ)) → (∀ x ∈ large, 1 / (N : ℝ) ≤ x.1) →
    (∀ x ∈ ps, 0 ≤ x) → tot small + tot large = done.sum →
    (∀ k, val small k + val large k = done.getD k 0) →
    (∀ x ∈ small, x.2 < N) → (∀ x ∈ large, x.2 < N) → (done ++ ps).sum = 1 →
    Inv N (fun k => (done ++ ps).getD k 0) (ps.foldl (splitStep N) (small, large)).1
      (ps.foldl (splitStep N) (small, large)).2 0 [] := by
  intro ps
  induction ps with
  | nil =>
    intro done small large h1 h2 h3 h4 _ h6 h7 h8 h9 h10
    simp only [List.foldl_nil, List.append_nil] at *
    refine ⟨hN, rfl, by simp at h2; omega, h3, h4, ?_, ?_, h8, h9, by simp⟩
    · rw [h6, h10, h1]
      rw [List.length_nil, Nat.add_zero] at h2
      rw [h2, div_self (Nat.cast_ne_zero.mpr (by omega))]
    · intro k
      rw [← h7 k]; simp [shares]
  | cons p ps ih =>
    intro done small large h1 h2 h3 h4 h5 h6 h7 h8 h9 h10
    rw [List.foldl_cons]
    have hp := h5 p List.mem_cons_self
    have happ : done ++ p :: ps = (done ++ [p]) ++ ps := by simp
    rw [happ] at h10 ⊢
    have hget : ∀ k, (done ++ [p]).getD k 0 = done.getD k 0 + if done.length = k then p else 0 := by
      intro k
      simp only [List.getD_eq_getElem?_getD]
      rcases Nat.lt_trichotomy k done.length with hk | hk | hk
      · rw [List.getElem?_append_left hk, if_neg (by omega), add_zero]
      · subst hk; simp
      · rw [List.getElem?_eq_none (by simp; omega), List.getElem?_eq_none (by omega), if_neg (by omega)]; simp
    simp only [List.length_cons] at h2
    unfold splitStep
    split
    · rename_i hlt
      apply ih
      · simp; omega
      · simp; omega
      · intro x hx
        rcases List.mem_cons.mp hx with rfl | hx
        · exact ⟨hp, hlt⟩
        · exact h3 x hx
      · exact h4
      · exact fun x hx => h5 x (List.mem_cons_of_mem _ hx)
      · simp only [tot, List.map_cons, List.sum_cons, List.sum_append, List.sum_nil] at *
        linarith
      · intro k
        rw [hget, ← h7 k]
        simp only [val, List.map_cons, List.sum_cons, h1]
        ring
      · intro x hx
        rcases List.mem_cons.mp hx with rfl | hx
        · simp only; omega
        · exact h8 x hx
      · exact h9
      · exact h10
    · rename_i hge
      apply ih
      · simp; omega
      · simp; omega
      · exact h3
      · intro x hx
        rcases List.mem_cons.mp hx with rfl | hx
        · exact not_lt.mp hge
        · exact h4 x hx
      · exact fun x hx => h5 x (List.mem_cons_of_mem _ hx)
      · simp only [tot, List.map_cons, List.sum_cons, List.sum_append, List.sum_nil] at *
        linarith
      · intro k
        rw [hget, ← h7 k]
        simp only [val, List.map_cons, List.sum_cons, h1]
        ring
      · exact h8
      · intro x hx
        rcases List.mem_cons.mp hx with rfl | hx
        · simp only; omega
        · exact h9 x hx
      · exact h10

/-- The buckets: one per outcome, all referring to outcomes, and each outcome gets its probability. -/
theorem createBuckets_spec {ps : List ℝ} (hne : ps ≠ []) (h0 : ∀ x ∈ ps, 0 ≤ x) (h1 : ps.sum = 1) :
    (createBuckets ps).length = ps.length ∧ (∀ b ∈ createBuckets ps, b.1 < ps.length ∧ b.2.1 < ps.length) ∧
    ∀ k, shares ps.length (createBuckets ps) k = ps.getD k 0 := by
  have hN : 0 < ps.length := List.length_pos_iff.mpr hne
  have hI := split_inv ps.length hN ps [] [] [] rfl (by simp) (by simp) (by simp) h0 (by simp [tot])
    (by intro k; simp [val]) (by simp) (by simp) (by simpa using h1)
  rw [List.nil_append] at hI
  obtain ⟨i', hI', he⟩ := mix_inv _ _ 0 [] hI
  obtain ⟨hs, hl⟩ := inv_end hI' he
  have hc : createBuckets ps = (mix ps.length (ps.foldl (splitStep ps.length) ([], [])).1
      (ps.foldl (splitStep ps.length) ([], [])).2 0 []).2.2 ++
      (mix ps.length (ps.foldl (splitStep ps.length) ([], [])).1
      (ps.foldl (splitStep ps.length) ([], [])).2 0 []).2.1.map (fun l => (l.2, l.2, 0)) := by
    unfold createBuckets
    simp only
    rw [if_neg (by omega), hs]
    simp
  rw [hc]
  generalize mix ps.length (ps.foldl (splitStep ps.length) ([], [])).1
      (ps.foldl (splitStep ps.length) ([], [])).2 0 [] = m at *
  refine ⟨?_, ?_, ?_⟩
  · have := hI'.count
    rw [hs] at this
    simp only [List.length_append, List.length_map, hI'.len]
    simp at this; omega
  · intro b hb
    rcases List.mem_append.mp hb with hb | hb
    · exact hI'.idxB b hb
    · obtain ⟨x, hx, rfl⟩ := List.mem_map.mp hb
      exact ⟨hI'.idxL x hx, hI'.idxL x hx⟩
  · intro k
    rw [shares_pure ps.length hN, ← hI'.mass k, hs, val_nil, add_zero]
    congr 1
    unfold val
    congr 1
    apply List.map_congr_left
    intro x hx
    rw [hl x hx]

end AmpGen.Discrete
