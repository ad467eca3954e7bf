import Verif.Cubature.Model
import Mathlib.Data.Multiset.MapFold
import Mathlib.Order.Interval.Finset.Nat
import Mathlib.Tactic.Linarith
/-
The array of regions is a heap: helper lemmas.
-/
namespace AmpGen.Cubature
variable {n : ℕ}

/-- The regions in the places `1..m`. -/
def all (pi : ℕ → Region n) (m : ℕ) : Multiset (Region n) := (Finset.Icc 1 m).val.map pi

/-- The regions in the places `1..m` but for `i`. -/
def rest (pi : ℕ → Region n) (m i : ℕ) : Multiset (Region n) := ((Finset.Icc 1 m).erase i).val.map pi

theorem map_congr_of {s : Finset ℕ} {f g : ℕ → Region n} (h : ∀ k ∈ s, f k = g k) : s.val.map f = s.val.map g :=
  Multiset.map_congr rfl fun k hk => h k hk

theorem all_eq (pi : ℕ → Region n) (m i : ℕ) (h : i ∈ Finset.Icc 1 m) : all pi m = pi i ::ₘ rest pi m i := by
  unfold all rest
  rw [← Multiset.map_cons, ← Finset.insert_val_of_notMem (Finset.notMem_erase _ _), Finset.insert_erase h]

theorem rest_move (pi : ℕ → Region n) (m i p : ℕ) (hi : i ∈ Finset.Icc 1 m) (hp : p ∈ Finset.Icc 1 m) (hne : p ≠ i) :
    rest (Function.update pi i (pi p)) m p = rest pi m i := by
  unfold rest
  have hi' : i ∈ (Finset.Icc 1 m).erase p := Finset.mem_erase.2 ⟨hne.symm, hi⟩
  have hp' : p ∈ (Finset.Icc 1 m).erase i := Finset.mem_erase.2 ⟨hne, hp⟩
  rw [← Finset.insert_erase hi', ← Finset.insert_erase hp', Finset.insert_val_of_notMem (Finset.notMem_erase _ _),
    Finset.insert_val_of_notMem (Finset.notMem_erase _ _), Multiset.map_cons, Multiset.map_cons, Finset.erase_right_comm, Function.update_self]
  congr 1
  refine map_congr_of fun k hk => ?_
  rw [Function.update_of_ne (Finset.ne_of_mem_erase (Finset.mem_of_mem_erase hk))]

theorem all_update (pi : ℕ → Region n) (m i : ℕ) (t : Region n) (hi : i ∈ Finset.Icc 1 m) :
    all (Function.update pi i t) m = t ::ₘ rest pi m i := by
  rw [all_eq _ m i hi, Function.update_self]
  congr 1
  refine map_congr_of fun k hk => ?_
  rw [Function.update_of_ne (Finset.ne_of_mem_erase hk)]

theorem rest_last (pi : ℕ → Region n) (m : ℕ) : rest pi (m + 1) (m + 1) = all pi m := by
  unfold rest all
  congr 2
  ext k
  simp only [Finset.mem_erase, Finset.mem_Icc]
  omega

theorem all_succ_update (pi : ℕ → Region n) (m : ℕ) (t : Region n) : all (Function.update pi (m + 1) t) m = all pi m := by
  refine map_congr_of fun k hk => ?_
  rw [Finset.mem_Icc] at hk
  rw [Function.update_of_ne (by omega)]

theorem rest_update (pi : ℕ → Region n) (m i : ℕ) (t : Region n) : rest (Function.update pi i t) m i = rest pi m i := by
  refine map_congr_of fun k hk => ?_
  rw [Function.update_of_ne (Finset.ne_of_mem_erase hk)]

/-- A heap of the regions in the places `1..m`. -/
def Heap (pi : ℕ → Region n) (m : ℕ) : Prop := ∀ k, 2 ≤ k → k ≤ m → (pi k).var ≤ (pi (k / 2)).var

theorem Heap.root {pi : ℕ → Region n} {m : ℕ} (h : Heap pi m) : ∀ k, 1 ≤ k → k ≤ m → (pi k).var ≤ (pi 1).var := by
  intro k
  induction k using Nat.strong_induction_on with
  | _ k ih =>
    intro h1 hm
    rcases Nat.lt_or_ge k 2 with hk | hk
    · have : k = 1 := by omega
      rw [this]
    · exact (h k hk hm).trans (ih (k / 2) (by omega) (by omega) (by omega))

/-- A heap with a hole at `i`. -/
structure Hole (pi : ℕ → Region n) (m i : ℕ) : Prop where
  away : ∀ k, 2 ≤ k → k ≤ m → k ≠ i → k / 2 ≠ i → (pi k).var ≤ (pi (k / 2)).var
  across : ∀ k, k ≤ m → k / 2 = i → 2 ≤ i → (pi k).var ≤ (pi (i / 2)).var

theorem Hole.fill {pi : ℕ → Region n} {m i : ℕ} (h : Hole pi m i) (t : Region n) (h1 : ∀ k, 1 ≤ i → k ≤ m → k / 2 = i → (pi k).var ≤ t.var)
    (h2 : 2 ≤ i → t.var ≤ (pi (i / 2)).var) : Heap (Function.update pi i t) m := by
  intro k hk hm
  by_cases hki : k = i
  · subst hki
    rw [Function.update_self, Function.update_of_ne (by omega)]
    exact h2 hk
  · rw [Function.update_of_ne hki]
    by_cases hp : k / 2 = i
    · rw [hp, Function.update_self]
      exact h1 k (by omega) hm hp
    · rw [Function.update_of_ne hp]
      exact h.away k hk hm hki hp

theorem siftUp_spec (err : ℝ) (m : ℕ) (i : ℕ) : ∀ (pi : ℕ → Region n), 1 ≤ i → i ≤ m → Hole pi m i → (∀ k, k ≤ m → k / 2 = i → (pi k).var ≤ err) →
    1 ≤ (siftUp err pi i).2 ∧ (siftUp err pi i).2 ≤ m ∧ rest (siftUp err pi i).1 m (siftUp err pi i).2 = rest pi m i ∧
      (∀ t : Region n, t.var = err → Heap (Function.update (siftUp err pi i).1 (siftUp err pi i).2 t) m) ∧
      (∀ k, m < k → (siftUp err pi i).1 k = pi k) := by
  induction i using Nat.strong_induction_on with
  | _ i ih =>
    intro pi h1 hm hole hch
    rw [siftUp]
    split
    · rename_i hc
      obtain ⟨hc1, hc2⟩ := hc
      set p := i / 2 with hp
      have hpi : p < i := by omega
      have up_i : (Function.update pi i (pi p)) i = pi p := Function.update_self ..
      have up_ne : ∀ k, k ≠ i → (Function.update pi i (pi p)) k = pi k := fun k hk => Function.update_of_ne hk ..
      have hole' : Hole (Function.update pi i (pi p)) m p := by
        constructor
        · intro k hk hkm hkp hk2
          by_cases hki : k = i
          · subst hki; exact absurd rfl hk2
          · rw [up_ne k hki]
            by_cases hk2i : k / 2 = i
            · rw [hk2i, up_i]
              exact hole.across k hkm hk2i (by omega)
            · rw [up_ne _ hk2i]
              exact hole.away k hk hkm hki hk2i
        · intro k hkm hkp hp2
          have hpp : (pi p).var ≤ (pi (p / 2)).var := hole.away p hp2 (by omega) (by omega) (by omega)
          rw [up_ne (p / 2) (by omega)]
          by_cases hki : k = i
          · rw [hki, up_i]; exact hpp
          · rw [up_ne k hki]
            refine le_trans ?_ hpp
            have := hole.away k (by omega) hkm hki (by omega)
            rwa [hkp] at this
      have hch' : ∀ k, k ≤ m → k / 2 = p → (Function.update pi i (pi p) k).var ≤ err := by
        intro k hkm hkp
        by_cases hki : k = i
        · rw [hki, up_i]; exact hc2.le
        · rw [up_ne k hki]
          refine le_trans ?_ hc2.le
          rcases Nat.lt_or_ge k 2 with h | h
          · omega
          · have := hole.away k h hkm hki (by omega)
            rwa [hkp] at this
      obtain ⟨e1, e2, e3, e4, e5⟩ := ih p hpi (Function.update pi i (pi p)) hc1 (by omega) hole' hch'
      refine ⟨e1, e2, ?_, e4, ?_⟩
      · rw [e3, rest_move pi m i p (Finset.mem_Icc.2 ⟨h1, hm⟩) (Finset.mem_Icc.2 ⟨hc1, by omega⟩) (by omega)]
      · intro k hk
        rw [e5 k hk, up_ne k (by omega)]
    · rename_i hc
      refine ⟨h1, hm, rfl, ?_, fun k _ => rfl⟩
      intro t ht
      refine hole.fill t (fun k _ hk hki => by rw [ht]; exact hch k hk hki) (fun h2 => ?_)
      rw [ht]
      by_contra hlt
      exact hc ⟨by omega, not_le.1 hlt⟩

theorem siftDown_spec (err : ℝ) (m : ℕ) (d : ℕ) : ∀ (i : ℕ) (pi : ℕ → Region n), m - i = d → 1 ≤ i → i ≤ m → Hole pi m i →
    (2 ≤ i → err ≤ (pi (i / 2)).var) →
    1 ≤ (siftDown err m pi i).2 ∧ (siftDown err m pi i).2 ≤ m ∧ rest (siftDown err m pi i).1 m (siftDown err m pi i).2 = rest pi m i ∧
      (∀ t : Region n, t.var = err → Heap (Function.update (siftDown err m pi i).1 (siftDown err m pi i).2 t) m) ∧
      (∀ k, m < k → (siftDown err m pi i).1 k = pi k) := by
  induction d using Nat.strong_induction_on with
  | _ d ih =>
    intro i pi hd h1 hm hole hpar
    rw [siftDown, dif_neg (by omega : ¬ i = 0)]
    split
    · rename_i hc
      refine ⟨h1, hm, rfl, ?_, fun k _ => rfl⟩
      intro t ht
      exact hole.fill t (fun k _ hk hki => by omega) (fun h2 => by rw [ht]; exact hpar h2)
    · rename_i hc
      obtain ⟨t, ht⟩ : ∃ t, (if 2 * i < m ∧ (pi (2 * i)).var < (pi (2 * i + 1)).var then 2 * i + 1 else 2 * i) = t := ⟨_, rfl⟩
      have hmax : t / 2 = i ∧ t ≤ m ∧ ∀ k, k ≤ m → k / 2 = i → (pi k).var ≤ (pi t).var := by
        split at ht
        · rename_i hlt
          subst ht
          refine ⟨by omega, by omega, ?_⟩
          intro k hk hki
          have : k = 2 * i ∨ k = 2 * i + 1 := by omega
          rcases this with h | h
          · rw [h]; exact hlt.2.le
          · rw [h]
        · rename_i hlt
          subst ht
          refine ⟨by omega, by omega, ?_⟩
          intro k hk hki
          have : k = 2 * i ∨ k = 2 * i + 1 := by omega
          rcases this with h | h
          · rw [h]
          · rw [h]
            by_contra hcon
            exact hlt ⟨by omega, not_le.1 hcon⟩
      obtain ⟨ht2, htm, hbig⟩ := hmax
      simp only [ht]
      split
      · rename_i hge
        refine ⟨h1, hm, rfl, ?_, fun k _ => rfl⟩
        intro s hs
        exact hole.fill s (fun k _ hk hki => by rw [hs]; exact (hbig k hk hki).trans hge) (fun h2 => by rw [hs]; exact hpar h2)
      · rename_i hlt
        have up_i : (Function.update pi i (pi t)) i = pi t := Function.update_self ..
        have up_ne : ∀ k, k ≠ i → (Function.update pi i (pi t)) k = pi k := fun k hk => Function.update_of_ne hk ..
        have hole' : Hole (Function.update pi i (pi t)) m t := by
          constructor
          · intro k hk hkm hkt hk2
            by_cases hki : k = i
            · subst hki
              rw [up_i, up_ne _ (by omega)]
              exact hole.across t htm ht2 hk
            · rw [up_ne k hki]
              by_cases hk2i : k / 2 = i
              · rw [hk2i, up_i]
                exact hbig k hkm hk2i
              · rw [up_ne _ hk2i]
                exact hole.away k hk hkm hki hk2i
          · intro k hkm hkt h2
            rw [ht2, up_i, up_ne k (by omega)]
            have := hole.away k (by omega) hkm (by omega) (by omega)
            rwa [hkt] at this
        obtain ⟨e1, e2, e3, e4, e5⟩ := ih (m - t) (by omega) t (Function.update pi i (pi t)) rfl (by omega) htm hole' (fun _ => by
          rw [ht2, up_i]; exact (not_le.1 hlt).le)
        refine ⟨e1, e2, ?_, e4, ?_⟩
        · rw [e3, rest_move pi m i t (Finset.mem_Icc.2 ⟨h1, hm⟩) (Finset.mem_Icc.2 ⟨by omega, htm⟩) (by omega)]
        · intro k hk
          rw [e5 k hk, up_ne k (by omega)]

end AmpGen.Cubature
