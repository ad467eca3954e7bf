import Verif.Tensor.LemmasA
import Mathlib.Data.List.Nodup
/-
Contraction.
-/
namespace AmpGen.Tensor

/-- The index names summed over, in the order of the second factor. -/
def shared (i1 i2 : List Index) : List Nat := (names i2).filter (· ∈ names i1)

/-- Sign attached to a repeated index. -/
def sg (i1 i2 : List Index) (x : Nat) : Int :=
  if ∃ a ∈ i1, ∃ b ∈ i2, a.name = x ∧ b.name = x ∧ a.upper ≠ b.upper then -1 else 1

theorem metric_eq (i1 i2 : List Index) (x v : Nat) : metric x i1 i2 v = if v = 3 then 1 else sg i1 i2 x := by
  unfold metric sg
  by_cases h : v = 3 <;> simp [h]

theorem nodup_unique {l : List Index} (h : (names l).Nodup) {a b : Index} (ha : a ∈ l) (hb : b ∈ l)
    (hab : a.name = b.name) : a = b := by
  unfold names at h
  exact List.inj_on_of_nodup_map h ha hb hab

/-- What the list of pairs holds. -/
def Pairs (i1 i2 : List Index) (x : Nat) (c : Contractor) : Prop :=
  (names i1)[c.i]? = some x ∧ (names i2)[c.j]? = some x ∧ c.sgn = sg i1 i2 x

theorem contractions_aux {i1 i2 : List Index} (h1 : (names i1).Nodup) (h2 : (names i2).Nodup) : ∀ (l : List Index) (k : Nat),
    i2.drop k = l → List.Forall₂ (Pairs i1 i2) ((names l).filter (· ∈ names i1))
      ((List.range' k l.length).filterMap fun j =>
        (i2[j]?).bind fun b =>
          (i1.findIdx? fun a => a.name == b.name).map fun i =>
            (⟨i, j, if b.upper != ((i1[i]?).map Index.upper).getD b.upper then -1 else 1⟩ : Contractor)) := by
  intro l
  induction l with
  | nil => intro k _; exact List.Forall₂.nil
  | cons b l ih =>
    intro k hk
    have hb : i2[k]? = some b := by
      have : (i2.drop k)[0]? = some b := by rw [hk]; rfl
      rwa [List.getElem?_drop, Nat.add_zero] at this
    have hk' : i2.drop (k + 1) = l := by
      rw [← List.drop_drop, hk]; rfl
    have hrest := ih (k + 1) hk'
    rw [List.length_cons, List.range'_succ]
    simp only [names, List.map_cons]
    rw [List.filterMap_cons, List.filter_cons]
    simp only [hb, Option.bind_some]
    cases hf : i1.findIdx? (fun a => a.name == b.name) with
    | none =>
      have hnot : b.name ∉ names i1 := by
        intro hmem
        obtain ⟨a, ha, hab⟩ := List.mem_map.mp hmem
        rw [List.findIdx?_eq_none_iff] at hf
        have := hf a ha
        simp [hab] at this
      simp only [Option.map_none]
      rw [if_neg (by simpa [names] using hnot)]
      exact hrest
    | some i =>
      rw [List.findIdx?_eq_some_iff_getElem] at hf
      obtain ⟨hi, hin, _⟩ := hf
      have hin' : i1[i].name = b.name := by simpa using hin
      have hmem : b.name ∈ names i1 := by rw [← hin']; exact List.mem_map_of_mem (List.getElem_mem hi)
      simp only [Option.map_some]
      rw [if_pos (by simpa [names] using hmem)]
      refine List.Forall₂.cons ⟨?_, ?_, ?_⟩ hrest
      · simp [names, List.getElem?_eq_getElem hi, hin']
      · simp [names, hb]
      · simp only [List.getElem?_eq_getElem hi, Option.map_some, Option.getD_some]
        unfold sg
        have hbm : b ∈ i2 := List.mem_of_getElem? hb
        have ham : i1[i] ∈ i1 := List.getElem_mem hi
        by_cases hu : i1[i].upper = b.upper
        · rw [if_neg (by simp [hu]), if_neg]
          rintro ⟨a, ha, b', hb', e1, e2, e3⟩
          have := nodup_unique h1 ha ham (by rw [e1, hin'])
          have := nodup_unique h2 hb' hbm e2
          subst_vars
          exact e3 hu
        · rw [if_pos (by simpa using fun h => hu h.symm), if_pos]
          exact ⟨_, ham, b, hbm, hin', rfl, hu⟩

theorem contractions_spec {i1 i2 : List Index} (h1 : (names i1).Nodup) (h2 : (names i2).Nodup) :
    List.Forall₂ (Pairs i1 i2) (shared i1 i2) (contractions i1 i2) := by
  have := contractions_aux h1 h2 i2 0 (by simp)
  rw [← List.range_eq_range'] at this
  exact this

/-! ### Free coordinates -/

theorem filter_take_get {p : Nat → Bool} : ∀ {l : List Nat} {n x : Nat}, l[n]? = some x → p x = true →
    (l.filter p)[((l.take n).filter p).length]? = some x := by
  intro l
  induction l with
  | nil => intro n x h; simp at h
  | cons y l ih =>
    intro n x h hp
    cases n with
    | zero =>
      simp only [List.getElem?_cons_zero, Option.some.injEq] at h
      subst h
      simp [List.filter_cons, hp]
    | succ n =>
      rw [List.getElem?_cons_succ] at h
      have := ih h hp
      rw [List.take_succ_cons, List.filter_cons, List.filter_cons]
      split
      · rw [List.length_cons, List.getElem?_cons_succ]; exact this
      · exact this

theorem distribute_spec {N : List Nat} {free : Nat → Bool} {summed : Nat → Bool} {f : Nat → Nat} {pre post : List Nat}
    (hs : ∀ (i x : Nat), N[i]? = some x → summed i = !free x) :
    let c := (distribute summed (pre ++ ((N.filter free).map f) ++ post) N.length pre.length).1
    c.length = N.length ∧ ∀ (i x : Nat), N[i]? = some x → free x = true → c[i]? = some (f x) := by
  intro c
  have key : ∀ n, n ≤ N.length →
      let s := (List.range n).foldl (fun (s : List Nat × Nat) i => if summed i then s else
        (s.1.set i ((pre ++ ((N.filter free).map f) ++ post).getD s.2 0), s.2 + 1)) (List.replicate N.length 0, pre.length)
      s.1.length = N.length ∧ s.2 = pre.length + ((N.take n).filter free).length ∧
      ∀ (i x : Nat), i < n → N[i]? = some x → free x = true → s.1[i]? = some (f x) := by
    intro n
    induction n with
    | zero => intro _; simp
    | succ n ih =>
      intro hn
      obtain ⟨i1, i2, i3⟩ := ih (by omega)
      rw [List.range_succ, List.foldl_append, List.foldl_cons, List.foldl_nil]
      have hget : N[n]? = some N[n] := List.getElem?_eq_getElem (by omega)
      have htake : (N.take (n + 1)).filter free = (N.take n).filter free ++ [N[n]].filter free := by
        rw [List.take_succ, hget, Option.toList_some, List.filter_append]
      generalize (List.range n).foldl (fun (s : List Nat × Nat) i => if summed i then s else
        (s.1.set i ((pre ++ ((N.filter free).map f) ++ post).getD s.2 0), s.2 + 1)) (List.replicate N.length 0, pre.length) = s at *
      have hsn := hs n _ hget
      cases hf : free N[n] with
      | false =>
        rw [hf] at hsn
        simp only [hsn, Bool.not_false, if_true]
        refine ⟨i1, ?_, ?_⟩
        · rw [i2, htake]; simp [hf]
        · intro i x hi hx hfx
          rcases Nat.lt_succ_iff_lt_or_eq.mp hi with h | rfl
          · exact i3 i x h hx hfx
          · rw [hget, Option.some.injEq] at hx
            rw [← hx, hf] at hfx; simp at hfx
      | true =>
        rw [hf] at hsn
        simp only [hsn, Bool.not_true, Bool.false_eq_true, if_false]
        refine ⟨by simpa using i1, ?_, ?_⟩
        · rw [i2, htake]; simp [hf]; omega
        · intro i x hi hx hfx
          rcases Nat.lt_succ_iff_lt_or_eq.mp hi with h | rfl
          · rw [List.getElem?_set_ne (by omega)]
            exact i3 i x h hx hfx
          · rw [List.getElem?_set_self (by omega)]
            rw [hget, Option.some.injEq] at hx
            have hg := filter_take_get (p := free) hget hf
            have hv : (pre ++ ((N.filter free).map f) ++ post).getD s.2 0 = f N[i] := by
              rw [i2, List.append_assoc, List.getD_eq_getElem?_getD, List.getElem?_append_right (by omega), Nat.add_sub_cancel_left,
                List.getElem?_append_left, List.getElem?_map, hg]
              · rfl
              · rw [List.length_map]
                exact (List.getElem?_eq_some_iff.mp hg).1
            rw [hv, hx]
  obtain ⟨k1, _, k3⟩ := key N.length le_rfl
  exact ⟨k1, fun i x hx hf => k3 i x (List.getElem?_eq_some_iff.mp hx).1 hx hf⟩

/-! ### Summed coordinates -/

/-- Give the listed names the listed values. -/
def updAll : List Nat → List Nat → (Nat → Nat) → (Nat → Nat)
  | x :: xs, v :: vs, f => updAll xs vs (Function.update f x v)
  | _, _, f => f

theorem updAll_of_notMem : ∀ (xs vs : List Nat) (f : Nat → Nat) (y : Nat), y ∉ xs → updAll xs vs f y = f y := by
  intro xs
  induction xs with
  | nil => intros; rfl
  | cons x xs ih =>
    intro vs f y hy
    cases vs with
    | nil => rfl
    | cons v vs =>
      simp only [List.mem_cons, not_or] at hy
      rw [updAll, ih _ _ _ hy.2, Function.update_of_ne hy.1]

/-- The coordinates `c` agree with the values `g` on every name not in `rest`. -/
def Agree (N : List Nat) (c : List Nat) (g : Nat → Nat) (rest : List Nat) : Prop :=
  c.length = N.length ∧ ∀ (i x : Nat), N[i]? = some x → x ∉ rest → c[i]? = some (g x)

theorem Agree.set {N c : List Nat} {g : Nat → Nat} {x : Nat} {rest : List Nat} (hN : N.Nodup) (h : Agree N c g (x :: rest))
    {i : Nat} (hi : N[i]? = some x) (v : Nat) : Agree N (c.set i v) (Function.update g x v) rest := by
  obtain ⟨h1, h2⟩ := h
  refine ⟨by simpa using h1, ?_⟩
  intro k y hk hy
  have hik := (List.getElem?_eq_some_iff.mp hi).1
  by_cases hyx : y = x
  · subst hyx
    have : k = i := by
      have e := hk.trans hi.symm
      exact (List.Nodup.getElem_inj_iff hN (hi := (List.getElem?_eq_some_iff.mp hk).1) (hj := hik)).mp (by
        rw [List.getElem?_eq_getElem (List.getElem?_eq_some_iff.mp hk).1, List.getElem?_eq_getElem hik] at e
        exact Option.some.inj e)
    subst this
    rw [List.getElem?_set_self (by omega), Function.update_self]
  · have hne : i ≠ k := by
      rintro rfl
      rw [hi] at hk
      exact hyx (Option.some.inj hk).symm
    rw [List.getElem?_set_ne hne, Function.update_of_ne hyx]
    exact h2 k y hk (by simp [hyx, hy])

theorem Agree.full {N c : List Nat} {g : Nat → Nat} (h : Agree N c g []) : c = N.map g := by
  apply List.ext_getElem?
  intro k
  rw [List.getElem?_map]
  cases hk : N[k]? with
  | none =>
    rw [List.getElem?_eq_none_iff] at hk
    rw [Option.map_none, List.getElem?_eq_none_iff, h.1]; exact hk
  | some x => rw [h.2 k x hk (by simp)]; rfl

theorem Agree.weaken {N c : List Nat} {g g' : Nat → Nat} {rest : List Nat} (h : Agree N c g []) (hg : ∀ x, x ∉ rest → g x = g' x) :
    Agree N c g' rest := ⟨h.1, fun i x hi hx => by rw [h.2 i x hi (by simp), hg x hx]⟩

theorem assign_spec {i1 i2 : List Index} (h1 : (names i1).Nodup) (h2 : (names i2).Nodup) : ∀ {xs : List Nat} {cs : List Contractor},
    List.Forall₂ (Pairs i1 i2) xs cs → xs.Nodup → ∀ {vs : List Nat}, vs.length = xs.length →
    ∀ {c1 c2 : List Nat} {g : Nat → Nat} {sign : Int}, Agree (names i1) c1 g xs → Agree (names i2) c2 g xs →
    let r := assign cs vs (c1, c2, sign)
    Agree (names i1) r.1 (updAll xs vs g) [] ∧ Agree (names i2) r.2.1 (updAll xs vs g) [] ∧
    r.2.2 = sign * (xs.map fun x => metric x i1 i2 (updAll xs vs g x)).prod := by
  intro xs cs h
  induction h with
  | nil =>
    intro _ vs _ c1 c2 g sign a1 a2
    cases vs <;> simp_all [assign, updAll]
  | @cons x c xs cs hp h ih =>
    intro hnd vs hlen c1 c2 g sign a1 a2
    cases vs with
    | nil => simp at hlen
    | cons v vs =>
      rw [List.nodup_cons] at hnd
      simp only [List.length_cons, Nat.add_right_cancel_iff] at hlen
      obtain ⟨p1, p2, p3⟩ := hp
      obtain ⟨r1, r2, r3⟩ := ih hnd.2 hlen (a1.set h1 p1 v) (a2.set h2 p2 v) (sign := sign * (if v = 3 then 1 else c.sgn))
      refine ⟨r1, r2, ?_⟩
      show (assign cs vs (c1.set c.i v, c2.set c.j v, sign * (if v = 3 then 1 else c.sgn))).2.2 = _
      rw [r3, List.map_cons, List.prod_cons]
      rw [updAll, updAll_of_notMem xs vs _ x hnd.1, Function.update_self, metric_eq, p3]
      ring

theorem sum_updAll {K : Type} [CommRing K] (D : Nat → Nat) (H : (Nat → Nat) → K) : ∀ (xs : List Nat) (f : Nat → Nat),
    ∑ m ∈ Finset.range (xs.map D).prod, H (updAll xs (indexToCoordinates m (xs.map D)) f) =
      sumOver (xs.map fun x => (x, D x)) f H := by
  intro xs
  induction xs with
  | nil => intro f; simp [sumOver, updAll]
  | cons x xs ih =>
    intro f
    rw [List.map_cons, sum_coords (D x) (xs.map D) (fun vs => H (updAll (x :: xs) vs f)), List.map_cons, sumOver]
    apply Finset.sum_congr rfl
    intro v _
    rw [← ih]
    rfl

theorem elementSum_spec {K : Type} [CommRing K] (poison : K) (a b : Tensor K) {i1 i2 : List Index} (h1 : (names i1).Nodup)
    (h2 : (names i2).Nodup) (D f : Nat → Nat) {c1 c2 : List Nat} (a1 : Agree (names i1) c1 f (shared i1 i2))
    (a2 : Agree (names i2) c2 f (shared i1 i2)) :
    (elementSum poison a b (contractions i1 i2) ((shared i1 i2).map D) c1 c2 ((shared i1 i2).map D).prod).2.2 =
      sumOver ((shared i1 i2).map fun x => (x, D x)) f (fun g =>
        (((shared i1 i2).map fun x => metric x i1 i2 (g x)).prod : Int) * a.at poison ((names i1).map g) *
          b.at poison ((names i2).map g)) := by
  rw [← sum_updAll]
  set S := shared i1 i2 with hS
  have hSnd : S.Nodup := h2.filter _
  have hcs := contractions_spec h1 h2
  unfold elementSum
  have key : ∀ n, 
      let s := (List.range n).foldl (fun (s : List Nat × List Nat × K) m =>
        let r := assign (contractions i1 i2) (indexToCoordinates m (S.map D)) (s.1, s.2.1, 1)
        (r.1, r.2.1, s.2.2 + (r.2.2 : K) * a.at poison r.1 * b.at poison r.2.1)) (c1, c2, 0)
      Agree (names i1) s.1 f S ∧ Agree (names i2) s.2.1 f S ∧
      s.2.2 = ∑ m ∈ Finset.range n, ((S.map fun x => metric x i1 i2 (updAll S (indexToCoordinates m (S.map D)) f x)).prod : Int) *
        a.at poison ((names i1).map (updAll S (indexToCoordinates m (S.map D)) f)) *
        b.at poison ((names i2).map (updAll S (indexToCoordinates m (S.map D)) f)) := by
    intro n
    induction n with
    | zero => exact ⟨a1, a2, by simp⟩
    | succ n ih =>
      obtain ⟨k1, k2, k3⟩ := ih
      rw [List.range_succ, List.foldl_append, List.foldl_cons, List.foldl_nil]
      generalize (List.range n).foldl (fun (s : List Nat × List Nat × K) m =>
        let r := assign (contractions i1 i2) (indexToCoordinates m (S.map D)) (s.1, s.2.1, 1)
        (r.1, r.2.1, s.2.2 + (r.2.2 : K) * a.at poison r.1 * b.at poison r.2.1)) (c1, c2, 0) = s at *
      obtain ⟨r1, r2, r3⟩ := assign_spec h1 h2 hcs hSnd (vs := indexToCoordinates n (S.map D))
        (by rw [toCoords_length, List.length_map]) k1 k2 (sign := 1)
      rw [← hS] at r1 r2 r3
      refine ⟨r1.weaken (fun x hx => updAll_of_notMem _ _ _ _ hx), r2.weaken (fun x hx => updAll_of_notMem _ _ _ _ hx), ?_⟩
      simp only
      rw [Finset.sum_range_succ, k3, ← r1.full, ← r2.full, r3, one_mul]
  exact (key _).2.2

end AmpGen.Tensor
