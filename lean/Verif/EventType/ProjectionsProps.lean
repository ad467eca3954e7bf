import Verif.EventType.ProjectionsModel
import Verif.EventType.PropsRange
import Verif.Comb.Props
/-
Property C172: the default projections of an event type.
-/
namespace AmpGen.EventType
open AmpGen.Strings AmpGen.Kinematics Spec

/-- The observable of a group of particles: the square of its invariant mass, or the mass. -/
noncomputable def Observable.value (o : Observable) (e : Event) (c : List Nat) : ℝ :=
  match o with
  | .mass2 => (total e c).Dot (total e c)
  | .mass => √((total e c).Dot (total e c))
  | .other => 0

/-- The groups of sizes `rs`, all of them once. -/
theorem groups_of_sizes (n : Nat) : ∀ rs : List Nat, rs.Nodup → (∀ r ∈ rs, r ≤ n) →
    ∃ N G, (∀ fuel, N ≤ fuel → (rs.mapM fun r => Comb.nCr fuel n r) = some G) ∧ G.flatten.Nodup ∧
      ∀ c, c ∈ G.flatten ↔ c.Pairwise (· < ·) ∧ c.length ∈ rs ∧ ∀ i ∈ c, i < n
  | [], _, _ => ⟨0, [], fun _ _ => rfl, by simp, by simp⟩
  | r :: rs, hn, hr => by
    obtain ⟨N, R, h1, h2, _, _, h3⟩ := Comb.nCr_enumerates n r (hr r (by simp))
    obtain ⟨M, G, g1, g2, g3⟩ := groups_of_sizes n rs (List.nodup_cons.1 hn).2 fun q hq => hr q (by simp [hq])
    refine ⟨max N M, R :: G, fun fuel hf => ?_, ?_, fun c => ?_⟩
    · rw [List.mapM_cons, h1 fuel (le_trans (le_max_left _ _) hf), g1 fuel (le_trans (le_max_right _ _) hf)]
      rfl
    · rw [List.flatten_cons, List.nodup_append]
      refine ⟨h2, g2, ?_⟩
      rintro a ha b hb rfl
      have e1 := ((h3 a).1 ha).2.1
      have e2 := ((g3 a).1 hb).2.1
      rw [e1] at e2
      exact (List.nodup_cons.1 hn).1 e2
    · rw [List.flatten_cons, List.mem_append, h3, g3, List.mem_cons]
      constructor
      · rintro (⟨a, b, d⟩ | ⟨a, b, d⟩)
        · exact ⟨a, Or.inl b, d⟩
        · exact ⟨a, Or.inr b, d⟩
      · rintro ⟨a, b | b, d⟩
        · exact Or.inl ⟨a, b, d⟩
        · exact Or.inr ⟨a, b, d⟩

/-- **C172**, the projections.  There is one projection for each group of at least two particles that are not all, each group once; its function is
the observable of the group, and its number of bins the one asked for. -/
theorem default_projections (t : EventType ℝ) (nBins : Nat) (o : Observable) (ho : o ≠ .other) : ∃ N, ∃ G : List (List Nat), ∃ P : List Axis,
    (∀ fuel, N ≤ fuel → defaultProjections t nBins o fuel = some (P.map some)) ∧
    G.Nodup ∧ (∀ c, c ∈ G ↔ c.Pairwise (· < ·) ∧ 2 ≤ c.length ∧ c.length < t.size ∧ ∀ i ∈ c, i < t.size) ∧
    List.Forall₂ (fun c a => (∀ e, a.func e = o.value e c) ∧ a.nBins = nBins) G P := by
  obtain ⟨N, G, h1, h2, h3⟩ := groups_of_sizes t.size (List.range' 2 (t.size - 2)) (List.nodup_range') fun r hr => by
    rw [List.mem_range'_1] at hr
    omega
  have hp : ∀ c, ∃ a, projection t nBins c o = some a ∧ (∀ e, a.func e = o.value e c) ∧ a.nBins = nBins := by
    intro c
    cases o with
    | mass2 => exact ⟨_, rfl, fun e => s_eq e c, rfl⟩
    | mass => exact ⟨_, rfl, fun e => congrArg Real.sqrt (s_eq e c), rfl⟩
    | other => exact absurd rfl ho
  choose a ha hf using hp
  refine ⟨N, G.flatten, G.flatten.map a, fun fuel hfu => ?_, h2, fun c => ?_, ?_⟩
  · rw [defaultProjections, h1 fuel hfu]
    simp only [ha, Option.map_some, Option.some.injEq, List.map_map]
    rfl
  · rw [h3, List.mem_range'_1]
    constructor
    · rintro ⟨x, y, z⟩
      exact ⟨x, by omega, by omega, z⟩
    · rintro ⟨x, y, y', z⟩
      exact ⟨x, by omega, z⟩
  · rw [List.forall₂_map_right_iff]
    exact List.forall₂_same.2 fun c _ => hf c

/-- Four particles of mass 1 from a mother of mass 5. -/
noncomputable def fourBody : EventType ℝ := ⟨[], 5, [[], [], [], []], [], [1, 1, 1, 1], false, [], false⟩

/-- The pairs and triples of four particles. -/
example : ∃ G : List (List Nat), [0, 3] ∈ G ∧ [1, 2, 3] ∈ G ∧ [0, 1, 2, 3] ∉ G ∧ ∃ P : List Axis, P.length = G.length ∧ ∃ fuel, defaultProjections fourBody 100 .mass2 fuel = some (P.map some) := by
  obtain ⟨N, G, P, h1, _, h3, h4⟩ := default_projections fourBody 100 .mass2 (by simp)
  exact ⟨G, (h3 _).2 (by simp [fourBody, EventType.size]), (h3 _).2 (by simp [fourBody, EventType.size]), fun h => by
    have := ((h3 _).1 h).2.2.1
    simp [fourBody, EventType.size] at this, P, h4.length_eq.symm, N, h1 N le_rfl⟩

/-- **C172**, the range.  In every event in which the particles have their masses and together the mass of the mother, the observable of a group of
different particles is in the range of its histogram, which does not include its upper end. -/
theorem projection_range (t : EventType ℝ) (nBins : Nat) (o : Observable) (c : List Nat) (a : Axis) (ha : projection t nBins c o = some a) (e : Event)
    (hI : c.Nodup) (hb : ∀ i ∈ c, i < t.size) (hon : ∀ i < t.size, OnShell (momentum e i) (t.masses.getD i 0))
    (hM : 0 ≤ t.motherMass) (htot : (total e (List.range t.size)).Dot (total e (List.range t.size)) = t.motherMass * t.motherMass) :
    a.min ≤ o.value e c ∧ o.value e c < a.max := by
  obtain ⟨h1, h2, h3⟩ := mass_range t e c hI hb hon hM htot
  rw [s_eq] at h1 h2 h3
  have h0 : 0 ≤ (minmax t c).1 := by
    unfold minmax
    simp only [fold_min, zero_add]
    refine List.sum_nonneg fun x hx => ?_
    obtain ⟨i, hi, rfl⟩ := List.mem_map.1 hx
    exact (hon i (hb i hi)).2.1
  have hs := Real.sqrt_nonneg ((total e c).Dot (total e c))
  have hq := Real.mul_self_sqrt h3
  cases o with
  | mass2 =>
    cases ha
    simp only [Observable.value]
    constructor <;> nlinarith
  | mass =>
    cases ha
    simp only [Observable.value]
    refine ⟨?_, by linarith⟩
    split <;> linarith
  | other => cases ha

/-- The mass of the first two of three particles at rest. -/
example (e : Event) (he : e = ⟨12, fun i => if i % 4 = 3 then 1 else 0⟩) : ∃ a, projection ⟨[], 3, [[], [], []], [], [1, 1, 1], false, [], false⟩ 10 [0, 1] .mass = some a ∧
    a.min ≤ Observable.mass.value e [0, 1] ∧ Observable.mass.value e [0, 1] < a.max := by
  subst he
  refine ⟨_, rfl, projection_range _ 10 .mass [0, 1] _ rfl _ (by simp) (by simp [EventType.size]) ?_ (by norm_num) ?_⟩
  · intro i hi
    have : i = 0 ∨ i = 1 ∨ i = 2 := by simp [EventType.size] at hi; omega
    rcases this with rfl | rfl | rfl <;> refine ⟨?_, ?_, ?_⟩ <;> simp [momentum, P4.Dot]
  · simp [EventType.size, List.range_succ, total, momentum, P4.add, P4.Dot]
    norm_num

theorem indexString_inj : ∀ c d : List Nat, (∀ i ∈ c, i < 10) → (∀ i ∈ d, i < 10) → indexString c = indexString d → c = d
  | [], [], _, _, _ => rfl
  | [], j :: d, _, hd, h => by
    simp [indexString, Nat.toDigits_of_lt_base (hd j (by simp))] at h
  | i :: c, [], hc, _, h => by
    simp [indexString, Nat.toDigits_of_lt_base (hc i (by simp))] at h
  | i :: c, j :: d, hc, hd, h => by
    have hi := hc i (by simp)
    have hj := hd j (by simp)
    simp only [indexString, List.flatMap_cons, Nat.toDigits_of_lt_base hi, Nat.toDigits_of_lt_base hj, List.cons_append, List.nil_append, List.cons.injEq] at h
    have e : i = j := by
      have key : ∀ i : Nat, i < 10 → ∀ j : Nat, j < 10 → i.digitChar = j.digitChar → i = j := by decide
      exact key i hi j hj h.1
    rw [e, indexString_inj c d (fun k hk => hc k (by simp [hk])) (fun k hk => hd k (by simp [hk])) h.2]

/-- **C172**, the names (partial).  Projections of different groups, or of different observables, have different names, for **at most ten particles**.
Missing: more particles, see `projection_names_counterexample`. -/
theorem projection_names_partial (t : EventType ℝ) (ht : t.size ≤ 10) (n n' : Nat) (o o' : Observable) (c c' : List Nat) (a a' : Axis)
    (hc : ∀ i ∈ c, i < t.size) (hc' : ∀ i ∈ c', i < t.size) (ha : projection t n c o = some a) (ha' : projection t n' c' o' = some a') (hn : a.name = a'.name) :
    c = c' ∧ o = o' := by
  have key := indexString_inj c c' (fun i hi => lt_of_lt_of_le (hc i hi) ht) fun i hi => lt_of_lt_of_le (hc' i hi) ht
  cases o <;> cases o' <;> cases ha <;> cases ha' <;> simp at hn
  · exact ⟨key hn, rfl⟩
  · exact ⟨key hn, rfl⟩

example (a a' : Axis) (h : projection fourBody 10 [0, 1] .mass2 = some a) (h' : projection fourBody 10 [0, 2] .mass2 = some a') : a.name ≠ a'.name := fun hn => by
  have := (projection_names_partial fourBody (by simp [fourBody, EventType.size]) 10 10 .mass2 .mass2 [0, 1] [0, 2] a a' (by simp [fourBody, EventType.size]) (by simp [fourBody, EventType.size]) h h' hn).1
  simp at this

/-- **C172**, the names of thirteen particles: the first three, and the first with the last, have the same name. -/
theorem projection_names_counterexample (t : EventType ℝ) : ∃ a a', projection t 100 [0, 1, 2] .mass2 = some a ∧ projection t 100 [0, 12] .mass2 = some a' ∧ a.name = a'.name :=
  ⟨_, _, rfl, rfl, by simp only [List.cons.injEq, true_and]; decide +kernel⟩

end AmpGen.EventType
