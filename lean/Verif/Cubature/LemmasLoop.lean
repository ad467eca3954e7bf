import Verif.Cubature.LemmasHeap
import Verif.Cubature.Spec
import Mathlib.Algebra.BigOperators.Group.Multiset.Basic
import Mathlib.Tactic.Ring
/-
The loop goes through the collections of an adaptive integration: helper lemmas.
-/
namespace AmpGen.Cubature
open Spec
variable {n : ℕ}

/-- A region of the array as a piece. -/
def Region.piece (r : Region n) : Piece n := ⟨⟨r.a, r.b⟩, r.value, r.var, r.index⟩

/-- The pieces in the places `1..m`. -/
def pieces (S : Multiset (Region n)) : Multiset (Piece n) := S.map Region.piece

variable (rule : (Fin n → ℝ) → (Fin n → ℝ) → ℝ × ℝ × Fin n) (B : Box n)

/-- What holds before a turn of the loop. -/
inductive Inv : State n → Prop where
  | up (s : State n) (m : ℕ) : s.ldv = false → s.isbrgn = m + 1 → s.isbrgs = m + 1 → Heap s.pi m →
      Adaptive rule B (Box.piece rule ⟨(s.pi s.cur).a, (s.pi s.cur).b⟩ ::ₘ pieces (all s.pi m)) →
      s.result = ((pieces (all s.pi m)).map Piece.value).sum → s.abserr = ((pieces (all s.pi m)).map Piece.error).sum →
      s.ifncls = irlcls n * (2 * m) → (m ≠ 0 → m + 1 ≤ arraySize n - 1 ∧ irlcls n * (2 * m + 1) ≤ maxpts) → (s.cur = 0 ∨ s.cur = m + 1) → Inv s
  | down (s : State n) (m : ℕ) (C : Box n) (S : Multiset (Region n)) : s.ldv = true → s.isbrgn = 1 → s.isbrgs = m → s.cur = 1 → 1 ≤ m →
      Hole s.pi m 1 → rest s.pi m 1 = S →
      (s.pi 1).a = (C.lower s.idvax0).mid → (s.pi 1).b = (C.lower s.idvax0).half →
      Adaptive rule B ((C.lower s.idvax0).piece rule ::ₘ (C.upper s.idvax0).piece rule ::ₘ pieces S) →
      s.result = ((pieces S).map Piece.value).sum → s.abserr = ((pieces S).map Piece.error).sum →
      s.ifncls = irlcls n * (2 * m - 1) → m < arraySize n - 1 → irlcls n * (2 * m + 1) ≤ maxpts → Inv s

/-- What the loop returns: the sum over a collection, and why it stopped. -/
def Outcome (epsrel epsabs r : ℝ) : Prop :=
  ∃ S, Adaptive rule B S ∧ r = (S.map Piece.value).sum ∧ irlcls n * (2 * S.card - 1) ≤ max (irlcls n) maxpts ∧
    (let e := (S.map Piece.error).sum
     let rel := if |r| = 0 then e else e / |r|
     ((rel < epsrel ∧ |r| < epsabs) ∨ ((rel < epsrel ∨ e < epsabs) ∧ 2 ≤ S.card)) ∨
      (arraySize n - 1 ≤ S.card ∨ maxpts < irlcls n * (2 * S.card + 1)))

theorem card_all (pi : ℕ → Region n) (m : ℕ) : (pieces (all pi m)).card = m := by
  simp [pieces, all]

variable {rule B}

theorem turn_down {s : State n} (epsrel epsabs : ℝ) (h : s.ldv = true) (hi : Inv rule B s) :
    ∃ s', turn rule epsrel epsabs s = .go s' ∧ Inv rule B s' ∧ s'.ifncls = s.ifncls + irlcls n ∧ s'.isbrgs = s.isbrgs + 1 := by
  cases hi with
  | up m h' => rw [h] at h'; cases h'
  | down m C S _ h1 h2 hcur hm hole hrest ha hb hA hr he hf hsz hmax =>
    obtain ⟨tmp, htmp⟩ : ∃ tmp : Region n, tmp = ⟨(rule (s.pi 1).a (s.pi 1).b).1, (rule (s.pi 1).a (s.pi 1).b).2.1, (rule (s.pi 1).a (s.pi 1).b).2.2,
      (s.pi 1).a, (s.pi 1).b⟩ := ⟨_, rfl⟩
    have hsp := siftDown_spec (n := n) (rule (s.pi 1).a (s.pi 1).b).2.1 m (m - 1) 1 s.pi rfl le_rfl hm hole (by omega)
    obtain ⟨q, hq⟩ : ∃ q, siftDown (rule (s.pi 1).a (s.pi 1).b).2.1 m s.pi 1 = q := ⟨_, rfl⟩
    rw [hq] at hsp
    obtain ⟨e1, e2, e3, e4, e5⟩ := hsp
    have hmem : q.2 ∈ Finset.Icc 1 m := Finset.mem_Icc.2 ⟨e1, e2⟩
    have hpiece : tmp.piece = (C.lower s.idvax0).piece rule := by
      rw [htmp]
      unfold Region.piece Box.piece
      simp only [ha, hb]
    unfold turn
    simp only [h, hcur, h1, h2, if_true, hq]
    refine ⟨_, rfl, ?_, rfl, rfl⟩
    have hall : all (Function.update (Function.update q.1 q.2 tmp) (m + 1) tmp) m = tmp ::ₘ S := by
      rw [all_succ_update, all_update _ _ _ _ hmem, e3, hrest]
    have hgen : ∀ x : Region n, all (Function.update (Function.update q.1 q.2 tmp) (m + 1) x) m = tmp ::ₘ S := by
      intro x
      rw [all_succ_update, all_update _ _ _ _ hmem, e3, hrest]
    refine Inv.up _ m rfl rfl rfl ?_ ?_ ?_ ?_ ?_ ?_ ?_
    · have hh := e4 tmp (by rw [htmp])
      intro k hk hkm
      dsimp only
      rw [← htmp, Function.update_of_ne (by omega : k ≠ m + 1), Function.update_of_ne (by omega : k / 2 ≠ m + 1)]
      exact hh k hk hkm
    · simp only [← htmp, hgen, Function.update_self]
      have e : Box.piece rule ⟨Function.update tmp.a s.idvax0 (tmp.a s.idvax0 + 2 * tmp.b s.idvax0), tmp.b⟩ = (C.upper s.idvax0).piece rule := by
        congr 1
        rw [htmp]
        unfold Box.upper
        simp only [ha, hb, Box.lower]
        ext i
        · by_cases hk : i = s.idvax0
          · subst hk
            simp only [Function.update_self]
            ring
          · simp only [Function.update_of_ne hk]
        · rfl
      rw [e]
      unfold pieces at hA ⊢
      rw [Multiset.map_cons, hpiece, Multiset.cons_swap]
      exact hA
    · simp only [← htmp, hgen]
      unfold pieces at hr ⊢
      rw [Multiset.map_cons, Multiset.map_cons, Multiset.sum_cons, hr]
      rw [add_comm]
      congr 1
      rw [htmp]; rfl
    · simp only [← htmp, hgen]
      unfold pieces at he ⊢
      rw [Multiset.map_cons, Multiset.map_cons, Multiset.sum_cons, he]
      rw [add_comm]
      congr 1
      rw [htmp]; rfl
    · simp only
      rw [hf, ← Nat.mul_succ]
      congr 1
      omega
    · intro _
      exact ⟨by omega, hmax⟩
    · exact .inr rfl

theorem turn_up {s : State n} (epsrel epsabs : ℝ) (h : s.ldv = false) (hi : Inv rule B s) :
    (∃ s', turn rule epsrel epsabs s = .go s' ∧ Inv rule B s' ∧ s'.ifncls = s.ifncls + irlcls n ∧ s'.ldv = true ∧
      s'.ifncls + 2 * irlcls n ≤ maxpts ∧ s'.isbrgs = s.isbrgs) ∨
    ∃ r, turn rule epsrel epsabs s = .stop r ∧ Outcome rule B epsrel epsabs r := by
  cases hi with
  | down m C S h' => rw [h] at h'; cases h'
  | up m _ h1 h2 heap hA hr he hf hsz hcur =>
    obtain ⟨c, hc⟩ : ∃ c, s.pi s.cur = c := ⟨_, rfl⟩
    rw [hc] at hA
    obtain ⟨tmp, htmp⟩ : ∃ tmp : Region n, tmp = ⟨(rule c.a c.b).1, (rule c.a c.b).2.1, (rule c.a c.b).2.2, c.a, c.b⟩ := ⟨_, rfl⟩
    have hole : Hole s.pi (m + 1) (m + 1) := by
      constructor
      · intro k hk hkm hne _
        exact heap k hk (by omega)
      · intro k hk hk2 _
        omega
    have hsp := siftUp_spec (n := n) (rule c.a c.b).2.1 (m + 1) (m + 1) s.pi (by omega) le_rfl hole (fun k hk hk2 => by omega)
    obtain ⟨q, hq⟩ : ∃ q, siftUp (rule c.a c.b).2.1 s.pi (m + 1) = q := ⟨_, rfl⟩
    rw [hq] at hsp
    obtain ⟨e1, e2, e3, e4, e5⟩ := hsp
    have hmem : q.2 ∈ Finset.Icc 1 (m + 1) := Finset.mem_Icc.2 ⟨e1, e2⟩
    have hpiece : tmp.piece = Box.piece rule ⟨c.a, c.b⟩ := by rw [htmp]; rfl
    obtain ⟨pi, hpi⟩ : ∃ pi, Function.update q.1 q.2 tmp = pi := ⟨_, rfl⟩
    have hheap : Heap pi (m + 1) := by rw [← hpi]; exact e4 tmp (by rw [htmp])
    have hall : all pi (m + 1) = tmp ::ₘ all s.pi m := by
      rw [← hpi, all_update _ _ _ _ hmem, e3, rest_last]
    have hA' : Adaptive rule B (pieces (all pi (m + 1))) := by
      rw [hall]
      unfold pieces at hA ⊢
      rw [Multiset.map_cons, hpiece]
      exact hA
    have hr' : s.result + (rule c.a c.b).1 = ((pieces (all pi (m + 1))).map Piece.value).sum := by
      rw [hall, hr]
      unfold pieces
      rw [Multiset.map_cons, Multiset.map_cons, Multiset.sum_cons, add_comm]
      congr 1
      rw [htmp]; rfl
    have he' : s.abserr + (rule c.a c.b).2.1 = ((pieces (all pi (m + 1))).map Piece.error).sum := by
      rw [hall, he]
      unfold pieces
      rw [Multiset.map_cons, Multiset.map_cons, Multiset.sum_cons, add_comm]
      congr 1
      rw [htmp]; rfl
    have hf' : s.ifncls + irlcls n = irlcls n * (2 * m + 1) := by rw [hf]; ring
    have hcard : (pieces (all pi (m + 1))).card = m + 1 := card_all _ _
    have hpos : 1 ≤ irlcls n := Nat.le_add_left 1 _
    have hcost : irlcls n * (2 * (pieces (all pi (m + 1))).card - 1) ≤ max (irlcls n) maxpts := by
      rw [hcard]
      rcases Nat.eq_zero_or_pos m with h0 | h0
      · subst h0; simp
      · exact le_max_of_le_right (by have := (hsz (by omega)).2; rwa [show 2 * (m + 1) - 1 = 2 * m + 1 by omega])
    unfold turn
    simp only [h, h1, h2, hc, Bool.false_eq_true, if_false, hq, ← htmp, hpi]
    obtain ⟨rel, hrel⟩ : ∃ rel, (if |s.result + (rule c.a c.b).1| = 0 then s.abserr + (rule c.a c.b).2.1
      else (s.abserr + (rule c.a c.b).2.1) / |s.result + (rule c.a c.b).1|) = rel := ⟨_, rfl⟩
    simp only [hrel]
    split
    · rename_i hcond
      refine .inr ⟨_, rfl, _, hA', hr', hcost, .inl ?_⟩
      rw [← he']
      simp only [hrel]
      rcases hcond with hcond | hcond
      · exact .inl hcond
      · refine .inr ⟨hcond.1, ?_⟩
        rw [hcard]
        have := hcond.2
        rw [hf'] at this
        by_contra hlt
        have : m = 0 := by omega
        subst this
        simp at *
    · split
      · rename_i hcond
        refine .inr ⟨_, rfl, _, hA', hr', hcost, .inr ?_⟩
        rw [hcard]
        rcases hcond with hcond | hcond
        · exact .inl (by omega)
        · refine .inr ?_
          rw [hf'] at hcond
          calc maxpts < irlcls n * (2 * m + 1) + 2 * irlcls n := hcond
            _ = irlcls n * (2 * (m + 1) + 1) := by ring
      · rename_i hcond
        rw [not_or, not_le, not_lt] at hcond
        refine .inl ⟨_, rfl, ?_, rfl, rfl, hcond.2, rfl⟩
        have hroot : all pi (m + 1) = pi 1 ::ₘ rest pi (m + 1) 1 := all_eq _ _ _ (Finset.mem_Icc.2 ⟨le_rfl, by omega⟩)
        refine Inv.down _ (m + 1) ⟨(pi 1).a, (pi 1).b⟩ (rest pi (m + 1) 1) rfl rfl rfl rfl (by omega) ?_ ?_ ?_ ?_ ?_ ?_ ?_ ?_ ?_ ?_
        · constructor
          · intro k hk hkm hk1 hk2
            dsimp only
            rw [Function.update_of_ne hk1, Function.update_of_ne hk2]
            exact hheap k hk hkm
          · intro k hk hk2 h2
            omega
        · exact rest_update _ _ _ _
        · simp only [Function.update_self, Box.lower]
          congr 1
          ring
        · simp only [Function.update_self, Box.lower]
          congr 1
          ring
        · have := Adaptive.cut (pi 1).piece (pieces (rest pi (m + 1) 1)) (by
            have := hA'
            rw [hroot] at this
            unfold pieces at this ⊢
            rwa [Multiset.map_cons] at this) (by
            intro Q hQ
            unfold pieces rest at hQ
            obtain ⟨r, hr, rfl⟩ := Multiset.mem_map.1 hQ
            obtain ⟨k, hk, rfl⟩ := Multiset.mem_map.1 hr
            have hk0 : k ∈ (Finset.Icc 1 (m + 1)).erase 1 := hk
            have hk' := Finset.mem_Icc.1 (Finset.mem_of_mem_erase hk0)
            exact hheap.root k hk'.1 hk'.2)
          exact this
        · simp only
          rw [hr', hroot]
          unfold pieces
          rw [Multiset.map_cons, Multiset.map_cons, Multiset.sum_cons]
          simp only [Region.piece]
          ring
        · simp only
          rw [he', hroot]
          unfold pieces
          rw [Multiset.map_cons, Multiset.map_cons, Multiset.sum_cons]
          simp only [Region.piece]
          ring
        · simp only
          rw [hf']
          congr 1
        · omega
        · have := hcond.2
          rw [hf'] at this
          calc irlcls n * (2 * (m + 1) + 1) = irlcls n * (2 * m + 1) + 2 * irlcls n := by ring
            _ ≤ maxpts := this

theorem loop_inv (epsrel epsabs : ℝ) : ∀ (fuel : ℕ) (s : State n), Inv rule B s → (s.ldv = true → s.ifncls + 2 * irlcls n ≤ maxpts) →
    (s.ldv = false → s.ifncls ≤ maxpts) → maxpts + 2 ≤ fuel + s.ifncls → ∃ r, loop rule epsrel epsabs fuel s = some r ∧ Outcome rule B epsrel epsabs r := by
  intro fuel
  have hpos : 1 ≤ irlcls n := Nat.le_add_left 1 _
  induction fuel with
  | zero =>
    intro s hi h1 h2 hfuel
    cases hl : s.ldv
    · have := h2 hl; omega
    · have := h1 hl; omega
  | succ fuel ih =>
    intro s hi h1 h2 hfuel
    unfold loop
    cases hl : s.ldv
    · rcases turn_up epsrel epsabs hl hi with ⟨s', e, hi', hf, hl', hb, _⟩ | ⟨r, e, hr⟩
      · rw [e]
        exact ih s' hi' (fun _ => hb) (fun h => by rw [hl'] at h; cases h) (by omega)
      · rw [e]
        exact ⟨r, rfl, hr⟩
    · obtain ⟨s', e, hi', hf, _⟩ := turn_down epsrel epsabs hl hi
      rw [e]
      have := h1 hl
      refine ih s' hi' (fun h => ?_) (fun _ => by omega) (by omega)
      -- the turn after a cut is not a cut
      unfold turn at e
      simp only [hl, if_true] at e
      cases e
      cases h

theorem start_inv [NeZero n] (pi0 : ℕ → Region n) (xmin xmax : Fin n → ℝ) :
    Inv rule (between xmin xmax) (start pi0 xmin xmax) := by
  refine Inv.up _ 0 rfl rfl rfl (fun k hk hk0 => by omega) ?_ ?_ ?_ rfl (fun h => absurd rfl h) (.inl rfl)
  · have : pieces (all (start pi0 xmin xmax).pi 0) = 0 := by simp [pieces, all]
    rw [this]
    simp only [start, Function.update_self]
    have e : (⟨fun j => (xmax j + xmin j) * 0.5, fun j => (xmax j - xmin j) * 0.5⟩ : Box n) = between xmin xmax := by
      ext j <;> simp only [between] <;> ring
    rw [e]
    exact Adaptive.start
  · simp [pieces, all, start]
  · simp [pieces, all, start]

end AmpGen.Cubature
