import Verif.Cubature.LemmasBox
/-
The content of the array before the loop does not matter: helper lemmas.
-/
namespace AmpGen.Cubature
open Spec
variable {n : ℕ}

/-- The arrays agree in the places `1..m` other than `i`. -/
def Match (m i : ℕ) (pi pi' : ℕ → Region n) : Prop := ∀ k, 1 ≤ k → k ≤ m → k ≠ i → pi k = pi' k

theorem siftUp_match (err : ℝ) (m : ℕ) : ∀ (i : ℕ) (pi pi' : ℕ → Region n), 1 ≤ i → i ≤ m → Match m i pi pi' →
    (siftUp err pi i).2 = (siftUp err pi' i).2 ∧ Match m (siftUp err pi i).2 (siftUp err pi i).1 (siftUp err pi' i).1 := by
  intro i
  induction i using Nat.strong_induction_on with
  | _ i ih =>
    intro pi pi' h1 hm h
    by_cases h2 : i / 2 ≥ 1
    · have e : pi (i / 2) = pi' (i / 2) := h _ h2 (by omega) (by omega)
      by_cases hc : err > (pi (i / 2)).var
      · rw [siftUp, dif_pos ⟨h2, hc⟩, siftUp.eq_1 err pi' i, dif_pos (by rw [← e]; exact ⟨h2, hc⟩)]
        refine ih (i / 2) (by omega) _ _ h2 (by omega) ?_
        intro k hk1 hkm hki
        by_cases hk : k = i
        · subst hk; rw [Function.update_self, Function.update_self, e]
        · rw [Function.update_of_ne hk, Function.update_of_ne hk]; exact h k hk1 hkm hk
      · rw [siftUp, dif_neg (fun hh => hc hh.2), siftUp.eq_1 err pi' i, dif_neg (by rw [← e]; exact fun hh => hc hh.2)]
        exact ⟨rfl, h⟩
    · rw [siftUp, dif_neg (fun hh => h2 hh.1), siftUp.eq_1 err pi' i, dif_neg (fun hh => h2 hh.1)]
      exact ⟨rfl, h⟩

theorem siftDown_match (err : ℝ) (m : ℕ) : ∀ (d i : ℕ) (pi pi' : ℕ → Region n), m - i = d → 1 ≤ i → i ≤ m → Match m i pi pi' →
    (siftDown err m pi i).2 = (siftDown err m pi' i).2 ∧ Match m (siftDown err m pi i).2 (siftDown err m pi i).1 (siftDown err m pi' i).1 := by
  intro d
  induction d using Nat.strong_induction_on with
  | _ d ih =>
    intro i pi pi' hd h1 hm h
    have hi0 : i ≠ 0 := by omega
    by_cases h2 : 2 * i > m
    · rw [siftDown, dif_neg hi0, dif_pos h2, siftDown.eq_1 err m pi' i, dif_neg hi0, dif_pos h2]
      exact ⟨rfl, h⟩
    · have e0 : pi (2 * i) = pi' (2 * i) := h _ (by omega) (by omega) (by omega)
      obtain ⟨t, ht⟩ : ∃ t, (if 2 * i < m ∧ (pi (2 * i)).var < (pi (2 * i + 1)).var then 2 * i + 1 else 2 * i) = t := ⟨_, rfl⟩
      have ht' : (if 2 * i < m ∧ (pi' (2 * i)).var < (pi' (2 * i + 1)).var then 2 * i + 1 else 2 * i) = t := by
        rw [← ht]
        by_cases hlt : 2 * i < m
        · rw [e0, h (2 * i + 1) (by omega) (by omega) (by omega)]
        · rw [if_neg (fun hh => hlt hh.1), if_neg (fun hh => hlt hh.1)]
      have hb : i < t ∧ t ≤ m := by
        rw [← ht]
        split
        · rename_i hh; omega
        · omega
      have e : pi t = pi' t := h _ (by omega) hb.2 (by omega)
      rw [siftDown, dif_neg hi0, dif_neg h2, siftDown.eq_1 err m pi' i, dif_neg hi0, dif_neg h2]
      simp only [ht, ht', ← e]
      by_cases hc : err ≥ (pi t).var
      · rw [if_pos hc, if_pos hc]
        exact ⟨rfl, h⟩
      · rw [if_neg hc, if_neg hc]
        refine ih (m - t) (by omega) t _ _ rfl (by omega) hb.2 ?_
        intro k hk1 hkm hkt
        by_cases hk : k = i
        · subst hk; rw [Function.update_self, Function.update_self]
        · rw [Function.update_of_ne hk, Function.update_of_ne hk]; exact h k hk1 hkm hk

/-- Two states that differ only in places of the array that have not been filled. -/
structure Same (s s' : State n) : Prop where
  isbrgn : s.isbrgn = s'.isbrgn
  isbrgs : s.isbrgs = s'.isbrgs
  cur : s.cur = s'.cur
  ldv : s.ldv = s'.ldv
  result : s.result = s'.result
  abserr : s.abserr = s'.abserr
  ifncls : s.ifncls = s'.ifncls
  idvax0 : s.idvax0 = s'.idvax0
  pi : Match s.isbrgs s.isbrgn s.pi s'.pi
  a : (s.pi s.cur).a = (s'.pi s.cur).a
  b : (s.pi s.cur).b = (s'.pi s.cur).b

/-- What a turn gives in two such states. -/
inductive SameTurn : Turn n → Turn n → Prop where
  | go (s s' : State n) : Same s s' → SameTurn (.go s) (.go s')
  | stop (r : ℝ) : SameTurn (.stop r) (.stop r)

theorem turn_same (rule : (Fin n → ℝ) → (Fin n → ℝ) → ℝ × ℝ × Fin n) (epsrel epsabs : ℝ) {s s' : State n} (h : Same s s')
    (h1 : 1 ≤ s.isbrgn) (h2 : s.isbrgn ≤ s.isbrgs) : SameTurn (turn rule epsrel epsabs s) (turn rule epsrel epsabs s') := by
  obtain ⟨q1, q2, q3, q4, q5, q6, q7, q8, q9, q10, q11⟩ := h
  obtain ⟨pi, isbrgn, isbrgs, cur, ldv, result, abserr, ifncls, idvax0⟩ := s
  obtain ⟨pi', isbrgn', isbrgs', cur', ldv', result', abserr', ifncls', idvax0'⟩ := s'
  dsimp only at *
  subst q1 q2 q3 q4 q5 q6 q7 q8
  unfold turn
  dsimp only
  rw [← q10, ← q11]
  obtain ⟨r, hr⟩ : ∃ r, rule (pi cur).a (pi cur).b = r := ⟨_, rfl⟩
  obtain ⟨tmp, htmp⟩ : ∃ tmp : Region n, tmp = ⟨r.1, r.2.1, r.2.2, (pi cur).a, (pi cur).b⟩ := ⟨_, rfl⟩
  rw [hr, ← htmp]
  have hfull : ∀ (p : ℕ) (x x' : ℕ → Region n) (y : Region n), Match isbrgs p x x' → ∀ k, 1 ≤ k → k ≤ isbrgs →
      Function.update x p y k = Function.update x' p y k := by
    intro p x x' y hx k hk1 hk2
    by_cases hk : k = p
    · subst hk; rw [Function.update_self, Function.update_self]
    · rw [Function.update_of_ne hk, Function.update_of_ne hk]; exact hx k hk1 hk2 hk
  cases ldv with
  | true =>
    simp only [if_true]
    obtain ⟨e1, e2⟩ := siftDown_match r.2.1 isbrgs _ isbrgn pi pi' rfl h1 h2 q9
    rw [← e1]
    obtain ⟨p, hp⟩ : ∃ p, (siftDown r.2.1 isbrgs pi isbrgn).2 = p := ⟨_, rfl⟩
    rw [hp] at e2 ⊢
    have := hfull p _ _ tmp e2
    rw [Function.update_self, Function.update_self]
    refine SameTurn.go _ _ ⟨rfl, rfl, rfl, rfl, rfl, rfl, rfl, rfl, ?_, ?_, ?_⟩
    · intro k hk1 hk2 hk3
      dsimp only at hk1 hk2 hk3 ⊢
      rw [Function.update_of_ne hk3, Function.update_of_ne hk3]
      exact this k hk1 (by omega)
    · simp only [Function.update_self]
    · simp only [Function.update_self]
  | false =>
    simp only [Bool.false_eq_true, if_false]
    obtain ⟨e1, e2⟩ := siftUp_match r.2.1 isbrgs isbrgn pi pi' h1 h2 q9
    rw [← e1]
    obtain ⟨p, hp⟩ : ∃ p, (siftUp r.2.1 pi isbrgn).2 = p := ⟨_, rfl⟩
    rw [hp] at e2 ⊢
    have := hfull p _ _ tmp e2
    have hone := this 1 le_rfl (by omega)
    rw [← hone]
    obtain ⟨rel, hrel⟩ : ∃ rel, (if |result + r.1| = 0 then abserr + r.2.1 else (abserr + r.2.1) / |result + r.1|) = rel := ⟨_, rfl⟩
    simp only [hrel]
    split
    · exact SameTurn.stop _
    · split
      · exact SameTurn.stop _
      · refine SameTurn.go _ _ ⟨rfl, rfl, rfl, rfl, rfl, rfl, rfl, rfl, ?_, ?_, ?_⟩
        · intro k hk1 hk2 hk3
          dsimp only at hk1 hk2 hk3 ⊢
          rw [Function.update_of_ne hk3, Function.update_of_ne hk3]
          exact this k hk1 hk2
        · simp only [Function.update_self]
        · simp only [Function.update_self]

theorem inv_places {rule : (Fin n → ℝ) → (Fin n → ℝ) → ℝ × ℝ × Fin n} {B : Box n} {s : State n} (hi : Inv rule B s) :
    1 ≤ s.isbrgn ∧ s.isbrgn ≤ s.isbrgs := by
  cases hi with
  | up m _ h1 h2 => omega
  | down m C S _ h1 h2 hcur hm => omega

theorem loop_same {rule : (Fin n → ℝ) → (Fin n → ℝ) → ℝ × ℝ × Fin n} {B : Box n} (epsrel epsabs : ℝ) : ∀ (fuel : ℕ) (s s' : State n),
    Inv rule B s → Same s s' → loop rule epsrel epsabs fuel s = loop rule epsrel epsabs fuel s' := by
  intro fuel
  induction fuel with
  | zero => intro s s' _ _; rfl
  | succ fuel ih =>
    intro s s' hi hs
    obtain ⟨p1, p2⟩ := inv_places hi
    have ht := turn_same rule epsrel epsabs hs p1 p2
    unfold loop
    cases hl : s.ldv
    · rcases turn_up epsrel epsabs hl hi with ⟨t, e, hi', _⟩ | ⟨r, e, _⟩
      · rw [e] at ht ⊢
        generalize turn rule epsrel epsabs s' = T at ht
        cases ht with
        | go _ t' htt => exact ih t t' hi' htt
      · rw [e] at ht ⊢
        generalize turn rule epsrel epsabs s' = T at ht
        cases ht with
        | stop => rfl
    · obtain ⟨t, e, hi', _⟩ := turn_down epsrel epsabs hl hi
      rw [e] at ht ⊢
      generalize turn rule epsrel epsabs s' = T at ht
      cases ht with
      | go _ t' htt => exact ih t t' hi' htt

end AmpGen.Cubature
