import Verif.Recursive.Spec
import Verif.PhaseSpace.Props
import Verif.Kinematics.Lemmas
/-
Lemmas on decays in several steps.
-/
namespace AmpGen.Recursive

open AmpGen.Kinematics (P4)

/-! ### Boosts -/

theorem boostTo_eq (p k : P4) : boostTo p k =
    Kinematics.boostP p.x p.y p.z (√(p.x * p.x + p.y * p.y + p.z * p.z) / p.E) k := rfl

theorem P4.ext' {p q : P4} (hx : p.x = q.x) (hy : p.y = q.y) (hz : p.z = q.z) (hE : p.E = q.E) : p = q := by
  cases p; cases q; simp_all

theorem boostTo_zero (p : P4) : boostTo p zero = zero := by
  rw [boostTo_eq, Kinematics.boostP_eq]; exact Kinematics.boostU_zero _ _ _ _ _

theorem plus_zero (p : P4) : plus p zero = p := by simp [plus, zero]
theorem zero_plus (p : P4) : plus zero p = p := by simp [plus, zero]

theorem sum4_nil : sum4 [] = zero := by simp [sum4, zero]
theorem sum4_cons (p : P4) (l : List P4) : sum4 (p :: l) = plus p (sum4 l) := by simp [sum4, plus]
theorem sum4_append (l l' : List P4) : sum4 (l ++ l') = plus (sum4 l) (sum4 l') := by simp [sum4, plus]

theorem boostTo_plus (p k l : P4) : boostTo p (plus k l) = plus (boostTo p k) (boostTo p l) := by
  simp only [boostTo_eq, Kinematics.boostP_eq]
  exact Kinematics.boostU_add _ _ _ _ _ _ _

theorem boostTo_sum4 (p : P4) (l : List P4) : boostTo p (sum4 l) = sum4 (l.map (boostTo p)) := by
  induction l with
  | nil => simp only [List.map_nil, sum4_nil, boostTo_zero]
  | cons k l ih => rw [List.map_cons, sum4_cons, sum4_cons, boostTo_plus, ih]

/-- The ingredients of the boost along a momentum of a massive particle that moves. -/
theorem boost_data {p : P4} {m : ℝ} (hm : 0 < m) (hp : OnShell m p) (h0 : ¬ (p.x = 0 ∧ p.y = 0 ∧ p.z = 0)) :
    0 < √(p.x * p.x + p.y * p.y + p.z * p.z) ∧
    √(p.x * p.x + p.y * p.y + p.z * p.z) * √(p.x * p.x + p.y * p.y + p.z * p.z) = p.x * p.x + p.y * p.y + p.z * p.z ∧ 0 < p.E ∧
    1 / √(1 - √(p.x * p.x + p.y * p.y + p.z * p.z) / p.E * (√(p.x * p.x + p.y * p.y + p.z * p.z) / p.E)) = p.E / m := by
  have hnn : 0 ≤ p.x * p.x + p.y * p.y + p.z * p.z := add_nonneg (add_nonneg (mul_self_nonneg _) (mul_self_nonneg _)) (mul_self_nonneg _)
  have hpos : 0 < p.x * p.x + p.y * p.y + p.z * p.z := by
    refine lt_of_le_of_ne hnn fun h => h0 ?_
    have hx := mul_self_nonneg p.x
    have hy := mul_self_nonneg p.y
    have hz := mul_self_nonneg p.z
    exact ⟨mul_self_eq_zero.1 (by linarith), mul_self_eq_zero.1 (by linarith), mul_self_eq_zero.1 (by linarith)⟩
  have hE : 0 < p.E := by
    refine lt_of_le_of_ne hp.2 fun h => ?_
    have := hp.1
    rw [← h] at this
    nlinarith [sq_pos_of_pos hm]
  have hs := Real.mul_self_sqrt hnn
  refine ⟨Real.sqrt_pos.2 hpos, hs, hE, ?_⟩
  have h1 : 1 - √(p.x * p.x + p.y * p.y + p.z * p.z) / p.E * (√(p.x * p.x + p.y * p.y + p.z * p.z) / p.E) = (m / p.E) ^ 2 := by
    rw [div_mul_div_comm, hs, div_pow, eq_div_iff (pow_pos hE 2).ne', sub_mul, one_mul, ← sq p.E, div_mul_cancel₀ _ (pow_pos hE 2).ne']
    linarith [hp.1]
  rw [h1, Real.sqrt_sq (div_pos hm hE).le, one_div, inv_div]

theorem boostTo_rest {p : P4} {m : ℝ} (hm : 0 < m) (hp : OnShell m p) (h0 : ¬ (p.x = 0 ∧ p.y = 0 ∧ p.z = 0)) :
    boostTo p ⟨0, 0, 0, m⟩ = p := by
  obtain ⟨hr, _, hE, hg⟩ := boost_data hm hp h0
  simp only [boostTo, hg]
  generalize √(p.x * p.x + p.y * p.y + p.z * p.z) = r at *
  have hr' := hr.ne'
  have hE' := hE.ne'
  have hm' := hm.ne'
  apply P4.ext' <;> simp only [] <;> field_simp <;> ring

theorem boostTo_onShell {p k : P4} {m n : ℝ} (hm : 0 < m) (hp : OnShell m p) (h0 : ¬ (p.x = 0 ∧ p.y = 0 ∧ p.z = 0)) (hk : OnShell n k) :
    OnShell n (boostTo p k) := by
  obtain ⟨hr, hrr, hE, hg⟩ := boost_data hm hp h0
  have hpp := hp.1
  constructor
  · rw [boostTo_eq, Kinematics.boostP_eq]
    have hgE : p.E / m * (p.E / m) * (1 - √(p.x * p.x + p.y * p.y + p.z * p.z) / p.E * (√(p.x * p.x + p.y * p.y + p.z * p.z) / p.E)) = 1 := by
      rw [div_mul_div_comm (√_), hrr]
      have hm' := hm.ne'
      have hE' := hE.ne'
      field_simp
      linarith
    have hu : p.x / √(p.x * p.x + p.y * p.y + p.z * p.z) * (p.x / √(p.x * p.x + p.y * p.y + p.z * p.z)) +
        p.y / √(p.x * p.x + p.y * p.y + p.z * p.z) * (p.y / √(p.x * p.x + p.y * p.y + p.z * p.z)) +
        p.z / √(p.x * p.x + p.y * p.y + p.z * p.z) * (p.z / √(p.x * p.x + p.y * p.y + p.z * p.z)) = 1 := by
      rw [div_mul_div_comm, div_mul_div_comm, div_mul_div_comm, ← add_div, ← add_div, hrr, div_self]
      rw [← hrr]; exact (mul_pos hr hr).ne'
    have := Kinematics.boostU_dot hu (hg ▸ hgE) k k
    simp only [P4.Dot] at this
    have hk1 := hk.1
    linear_combination this + hk1
  · have hk1 := hk.1
    simp only [boostTo, hg]
    refine mul_nonneg (div_pos hE hm).le ?_
    generalize √(p.x * p.x + p.y * p.y + p.z * p.z) = r at *
    have e : r / p.E * (k.x * p.x + k.y * p.y + k.z * p.z) / r = (k.x * p.x + k.y * p.y + k.z * p.z) / p.E := by
      have hr' := hr.ne'
      field_simp
    rw [e]
    have hc : (k.x * p.x + k.y * p.y + k.z * p.z) ^ 2 ≤ (k.E * p.E) ^ 2 := by
      have h1 : (k.x * p.x + k.y * p.y + k.z * p.z) ^ 2 ≤ (k.x ^ 2 + k.y ^ 2 + k.z ^ 2) * (p.x ^ 2 + p.y ^ 2 + p.z ^ 2) := by
        nlinarith [sq_nonneg (k.x * p.y - k.y * p.x), sq_nonneg (k.x * p.z - k.z * p.x), sq_nonneg (k.y * p.z - k.z * p.y)]
      refine h1.trans ?_
      rw [mul_pow]
      refine mul_le_mul (by nlinarith [sq_nonneg n]) (by nlinarith [sq_nonneg m]) (by positivity) (by positivity)
    have h2 := abs_le_of_sq_le_sq hc (mul_nonneg hk.2 hE.le)
    have h3 : -k.E ≤ (k.x * p.x + k.y * p.y + k.z * p.z) / p.E := by
      rw [le_div_iff₀ hE]; linarith [(abs_le.1 h2).1]
    linarith

/-! ### Shapes of generators -/

mutual
def Gen.shape : Gen → Chain
  | .leaf name _ => .mk name []
  | .decay name gs => .mk name (shapeList gs)
def shapeList : List Gen → List Chain
  | [] => []
  | g :: gs => g.shape :: shapeList gs
end

mutual
def Gen.leaves : Gen → List (String × Option Nat)
  | .leaf name sink => [(name, sink)]
  | .decay _ gs => leavesList gs
def leavesList : List Gen → List (String × Option Nat)
  | [] => []
  | g :: gs => g.leaves ++ leavesList gs
end

mutual
def Gen.Good (mass : String → ℝ) : Gen → Prop
  | .leaf _ _ => True
  | .decay name gs => PhaseSpace.Allowed (mass name) (gs.map fun g => mass g.name) ∧ GoodList mass gs
def GoodList (mass : String → ℝ) : List Gen → Prop
  | [] => True
  | g :: gs => g.Good mass ∧ GoodList mass gs
end

theorem shape_name : ∀ g : Gen, g.shape.name = g.name
  | .leaf _ _ => by simp [Gen.shape, Chain.name, Gen.name]
  | .decay _ _ => by simp [Gen.shape, Chain.name, Gen.name]

mutual
theorem finals_shape (mass : String → ℝ) : ∀ g : Gen, g.Good mass → g.shape.finals = g.leaves.map Prod.fst
  | .leaf _ _, _ => by simp [Gen.shape, Chain.finals, Gen.leaves]
  | .decay name [], h => by
    have := h.1.bodies
    simp at this
  | .decay name (g :: gs), h => by
    have h1 := finals_shape mass g h.2.1
    have h2 := finalsList_shape mass gs h.2.2
    simp only [Gen.shape, shapeList, Chain.finals, Gen.leaves, leavesList, List.map_append, h1, h2]
theorem finalsList_shape (mass : String → ℝ) : ∀ gs : List Gen, GoodList mass gs → finalsList (shapeList gs) = (leavesList gs).map Prod.fst
  | [], _ => by simp [shapeList, finalsList, leavesList]
  | g :: gs, h => by
    have h1 := finals_shape mass g h.1
    have h2 := finalsList_shape mass gs h.2
    simp only [shapeList, finalsList, leavesList, List.map_append, h1, h2]
end

mutual
theorem particles_subset : ∀ (c : Chain) (l : List Nat), ∀ q ∈ c.particles l, ∀ i ∈ q.2, i ∈ l
  | .mk name ds, l, q, hq, i, hi => by
    simp only [Chain.particles, List.mem_cons] at hq
    rcases hq with rfl | hq
    · exact hi
    · exact particlesList_subset ds l q hq i hi
theorem particlesList_subset : ∀ (ds : List Chain) (l : List Nat), ∀ q ∈ particlesList ds l, ∀ i ∈ q.2, i ∈ l
  | [], l, q, hq, i, hi => by simp [particlesList] at hq
  | d :: ds, l, q, hq, i, hi => by
    simp only [particlesList, List.mem_append] at hq
    rcases hq with hq | hq
    · exact List.mem_of_mem_take (particles_subset d _ q hq i hi)
    · exact List.mem_of_mem_drop (particlesList_subset ds _ q hq i hi)
end

/-! ### Assignment of sinks -/

def assignFlat (types : List String) : List Nat → List (String × Option Nat) → List (String × Option Nat) × List Nat
  | used, [] => ([], used)
  | used, (name, sink) :: l =>
    match findSink types used name with
    | some i => ((name, some i) :: (assignFlat types (i :: used) l).1, (assignFlat types (i :: used) l).2)
    | none => ((name, sink) :: (assignFlat types used l).1, (assignFlat types used l).2)

theorem assignFlat_append (types : List String) (used : List Nat) (l l' : List (String × Option Nat)) :
    assignFlat types used (l ++ l') =
      ((assignFlat types used l).1 ++ (assignFlat types (assignFlat types used l).2 l').1, (assignFlat types (assignFlat types used l).2 l').2) := by
  induction l generalizing used with
  | nil => simp [assignFlat]
  | cons a l ih =>
    obtain ⟨name, sink⟩ := a
    simp only [List.cons_append, assignFlat]
    cases findSink types used name <;> simp [ih]

mutual
theorem assign_leaves (types : List String) : ∀ (used : List Nat) (g : Gen),
    ((assign types used g).1.leaves, (assign types used g).2) = assignFlat types used g.leaves
  | used, .leaf name sink => by
    simp only [assign, Gen.leaves, assignFlat]
    cases findSink types used name <;> simp [Gen.leaves]
  | used, .decay name gs => by
    have := assignList_leaves types used gs
    simp only [assign, Gen.leaves, this]
theorem assignList_leaves (types : List String) : ∀ (used : List Nat) (gs : List Gen),
    (leavesList (assignList types used gs).1, (assignList types used gs).2) = assignFlat types used (leavesList gs)
  | used, [] => by simp [assignList, leavesList, assignFlat]
  | used, g :: gs => by
    have h1 := assign_leaves types used g
    have h2 := assignList_leaves types (assign types used g).2 gs
    simp only [assignList, leavesList, assignFlat_append, ← h1, ← h2]
end

mutual
theorem assign_shape (types : List String) : ∀ (used : List Nat) (g : Gen), (assign types used g).1.shape = g.shape
  | used, .leaf name sink => by
    simp only [assign]
    cases findSink types used name <;> simp [Gen.shape]
  | used, .decay name gs => by
    have := assignList_shape types used gs
    simp only [assign, Gen.shape, this]
theorem assignList_shape (types : List String) : ∀ (used : List Nat) (gs : List Gen), shapeList (assignList types used gs).1 = shapeList gs
  | used, [] => by simp [assignList]
  | used, g :: gs => by
    have h1 := assign_shape types used g
    have h2 := assignList_shape types (assign types used g).2 gs
    simp only [assignList, shapeList, h1, h2]
end

mutual
theorem build_shape (types : List String) : ∀ c : Chain, (build types c).shape = c
  | .mk name [] => by simp [build, Gen.shape]
  | .mk name (d :: ds) => by
    have h1 := build_shape types d
    have h2 := buildList_shape types ds
    simp only [build, assign_shape, Gen.shape, shapeList, h1, h2]
theorem buildList_shape (types : List String) : ∀ cs : List Chain, shapeList (buildList types cs) = cs
  | [] => by simp [buildList, shapeList]
  | d :: ds => by
    have h1 := build_shape types d
    have h2 := buildList_shape types ds
    simp only [buildList, shapeList, h1, h2]
end

/-- Only chains that decay are generators. -/
theorem build_decay (types : List String) (name : String) (d : Chain) (ds : List Chain) :
    ∃ g gs, build types (.mk name (d :: ds)) = .decay name (g :: gs) := by
  simp only [build, assign, assignList]
  exact ⟨_, _, rfl⟩

mutual
def Gen.Proper : Gen → Prop
  | .leaf _ _ => True
  | .decay _ gs => gs ≠ [] ∧ ProperList gs
def ProperList : List Gen → Prop
  | [] => True
  | g :: gs => g.Proper ∧ ProperList gs
end

mutual
theorem assign_proper (types : List String) : ∀ (used : List Nat) (g : Gen), g.Proper → (assign types used g).1.Proper
  | used, .leaf name sink, _ => by
    simp only [assign]
    cases findSink types used name <;> simp [Gen.Proper]
  | used, .decay name [], h => absurd rfl h.1
  | used, .decay name (g :: gs), h => by
    have h1 := assign_proper types used g h.2.1
    have h2 := assignList_proper types (assign types used g).2 gs h.2.2
    simp only [assign, assignList, Gen.Proper, ProperList]
    exact ⟨by simp, h1, h2⟩
theorem assignList_proper (types : List String) : ∀ (used : List Nat) (gs : List Gen), ProperList gs → ProperList (assignList types used gs).1
  | used, [], _ => by simp [assignList, ProperList]
  | used, g :: gs, h => by
    have h1 := assign_proper types used g h.1
    have h2 := assignList_proper types (assign types used g).2 gs h.2
    simp only [assignList, ProperList]
    exact ⟨h1, h2⟩
end

mutual
theorem build_proper (types : List String) : ∀ c : Chain, (build types c).Proper
  | .mk name [] => by simp [build, Gen.Proper]
  | .mk name (d :: ds) => by
    have h1 := build_proper types d
    have h2 := buildList_proper types ds
    simp only [build]
    apply assign_proper
    simp only [Gen.Proper, ProperList]
    exact ⟨by simp, h1, h2⟩
theorem buildList_proper (types : List String) : ∀ cs : List Chain, ProperList (buildList types cs)
  | [] => by simp [buildList, ProperList]
  | d :: ds => by
    have h1 := build_proper types d
    have h2 := buildList_proper types ds
    simp only [buildList, ProperList]
    exact ⟨h1, h2⟩
end

theorem shapeList_map (gs : List Gen) (mass : String → ℝ) : ((shapeList gs).map fun c => mass c.name) = gs.map fun g => mass g.name := by
  induction gs with
  | nil => simp [shapeList]
  | cons g gs ih => simp only [shapeList, List.map_cons, ih, shape_name]

mutual
theorem good_of_allowed (mass : String → ℝ) : ∀ g : Gen, g.Proper → g.shape.Allowed mass → g.Good mass
  | .leaf _ _, _, _ => by simp [Gen.Good]
  | .decay name [], h, _ => absurd rfl h.1
  | .decay name (g :: gs), h, ha => by
    simp only [Gen.shape, shapeList, Chain.Allowed] at ha
    have h1 := good_of_allowed mass g h.2.1 ha.2.1
    have h2 := goodList_of_allowed mass gs h.2.2 ha.2.2
    have h3 := ha.1
    rw [← shapeList, shapeList_map] at h3
    exact ⟨h3, h1, h2⟩
theorem goodList_of_allowed (mass : String → ℝ) : ∀ gs : List Gen, ProperList gs → AllowedList mass (shapeList gs) → GoodList mass gs
  | [], _, _ => by simp [GoodList]
  | g :: gs, h, ha => by
    simp only [shapeList, AllowedList] at ha
    have h1 := good_of_allowed mass g h.1 ha.1
    have h2 := goodList_of_allowed mass gs h.2 ha.2
    exact ⟨h1, h2⟩
end

/-- The first-unused search matches each final state if names and places agree up to order. -/
theorem assignFlat_perm (types : List String) (l : List (String × Option Nat)) : ∀ (used free : List Nat), free.Nodup →
    (∀ i, i ∈ free ↔ i < types.length ∧ i ∉ used) → (l.map fun a => some a.1).Perm (free.map fun i => types[i]?) →
    ∃ s : List Nat, (assignFlat types used l).1 = List.zip (l.map Prod.fst) (s.map some) ∧ s.Perm free ∧ s.map (fun i => types[i]?) = l.map fun a => some a.1 := by
  induction l with
  | nil =>
    intro used free _ _ hp
    have : free = [] := by simpa using hp
    exact ⟨[], by simp [assignFlat], by simp [this], rfl⟩
  | cons a l ih =>
    obtain ⟨name, sink⟩ := a
    intro used free hn hf hp
    have hmem : some name ∈ free.map fun i => types[i]? := hp.subset (by simp)
    obtain ⟨i, hi, hti⟩ := List.mem_map.1 hmem
    have hfind : ∃ j, findSink types used name = some j := by
      rw [← Option.isSome_iff_exists, findSink, List.find?_isSome]
      exact ⟨i, List.mem_range.2 ((hf i).1 hi).1, by simp [hti, ((hf i).1 hi).2]⟩
    obtain ⟨j, hj⟩ := hfind
    have hj' := hj
    unfold findSink at hj'
    have hj1 := List.find?_some hj'
    have hj2 := List.mem_range.1 (List.mem_of_find?_eq_some hj')
    simp only [Bool.and_eq_true, Bool.not_eq_true', List.contains_eq_mem, decide_eq_false_iff_not, beq_iff_eq] at hj1
    have hjf : j ∈ free := (hf j).2 ⟨hj2, hj1.1⟩
    have hp' : (l.map fun a => some a.1).Perm ((free.erase j).map fun i => types[i]?) := by
      have h1 := (List.perm_cons_erase hjf).map fun i => types[i]?
      rw [List.map_cons, hj1.2] at h1
      have h2 := hp.trans h1
      rw [List.map_cons] at h2
      exact List.Perm.cons_inv h2
    obtain ⟨s, hs1, hs2, hs3⟩ := ih (j :: used) (free.erase j) (hn.erase j) (fun i => by
      rw [hn.mem_erase_iff, hf i, List.mem_cons]; tauto) hp'
    refine ⟨j :: s, ?_, ?_, ?_⟩
    · simp only [assignFlat, hj, hs1, List.map_cons, List.zip_cons_cons]
    · exact (List.Perm.cons j hs2).trans (List.perm_cons_erase hjf).symm
    · simp only [List.map_cons, hs3, hj1.2]

theorem build_sinks (types : List String) (mass : String → ℝ) (name : String) (d : Chain) (ds : List Chain)
    (hgood : (build types (.mk name (d :: ds))).Good mass)
    (hperm : (Chain.mk name (d :: ds)).finals.Perm types) :
    ∃ s : List Nat, (build types (.mk name (d :: ds))).leaves = List.zip (Chain.mk name (d :: ds)).finals (s.map some) ∧
      s.Perm (List.range types.length) ∧ s.map (fun i => types[i]?) = (Chain.mk name (d :: ds)).finals.map some := by
  have hfin := finals_shape mass _ hgood
  rw [build_shape] at hfin
  have hl := assign_leaves types [] (.decay name (build types d :: buildList types ds))
  have hb : build types (.mk name (d :: ds)) = (assign types [] (.decay name (build types d :: buildList types ds))).1 := by simp only [build]
  obtain ⟨l, hlv⟩ : ∃ l, (Gen.decay name (build types d :: buildList types ds)).leaves = l := ⟨_, rfl⟩
  rw [hlv] at hl
  have hl1 : (build types (.mk name (d :: ds))).leaves = (assignFlat types [] l).1 := by rw [hb, ← hl]
  have hnames : ∀ (used : List Nat) (l : List (String × Option Nat)), (assignFlat types used l).1.map Prod.fst = l.map Prod.fst := by
    intro used l
    induction l generalizing used with
    | nil => simp [assignFlat]
    | cons a l ih =>
      obtain ⟨n, s⟩ := a
      simp only [assignFlat]
      cases findSink types used n <;> simp [ih]
  have hfl : (Chain.mk name (d :: ds)).finals = l.map Prod.fst := by rw [hfin, hl1, hnames]
  obtain ⟨s, h1, h2, h3⟩ := assignFlat_perm types l [] (List.range types.length) List.nodup_range (by simp) (by
    have : (List.range types.length).map (fun i => types[i]?) = types.map some := by
      apply List.ext_getElem
      · simp
      · intro i h1 h2; simp at h1; simp [h1]
    rw [this]
    have := hperm.map some
    rw [hfl, List.map_map] at this
    exact this)
  exact ⟨s, by rw [hl1, hfl, h1], h2, by rw [h3, hfl, List.map_map]; rfl⟩

/-! ### Events -/

theorem sinks_split {l l' : List (String × Option Nat)} {s : List Nat} (h : (l ++ l').map Prod.snd = s.map some) :
    l.map Prod.snd = (s.take l.length).map some ∧ l'.map Prod.snd = (s.drop l.length).map some := by
  rw [List.map_append] at h
  have h1 := congrArg (List.take l.length) h
  have h2 := congrArg (List.drop l.length) h
  rw [← List.map_take, List.take_left' (by simp)] at h1
  rw [← List.map_drop, List.drop_left' (by simp)] at h2
  exact ⟨h1, h2⟩

/-- What the momenta of the decay of a particle are. -/
structure Filled (mass : String → ℝ) (cs : List Chain) (s : List Nat) (total : P4) (rt0 rt : Nat → P4) : Prop where
  outside : ∀ k, k ∉ s → rt k = rt0 k
  total : sum4 (s.map rt) = total
  shell : ∀ q ∈ particlesList cs s, OnShell (mass q.1) (sum4 (q.2.map rt))

theorem map_congr_mem {f g : Nat → P4} {l : List Nat} (h : ∀ i ∈ l, f i = g i) : l.map f = l.map g := List.map_congr_left h

theorem filled_cons {mass : String → ℝ} {c : Chain} {cs : List Chain} {s : List Nat} {p q : P4} {rt0 rt1 rt : Nat → P4} (hs : s.Nodup)
    (h1 : ∀ k, k ∉ s.take c.finals.length → rt1 k = rt0 k) (h2 : sum4 ((s.take c.finals.length).map rt1) = p)
    (h3 : ∀ a ∈ c.particles (s.take c.finals.length), OnShell (mass a.1) (sum4 (a.2.map rt1)))
    (h : Filled mass cs (s.drop c.finals.length) q rt1 rt) : Filled mass (c :: cs) s (plus p q) rt0 rt := by
  have hd : ∀ i ∈ s.take c.finals.length, i ∉ s.drop c.finals.length := by
    intro i hi hi'
    have := List.take_append_drop c.finals.length s
    rw [← this, List.nodup_append] at hs
    exact hs.2.2 i hi i hi' rfl
  have heq : ∀ i ∈ s.take c.finals.length, rt i = rt1 i := fun i hi => h.outside i (hd i hi)
  refine ⟨fun k hk => ?_, ?_, fun a ha => ?_⟩
  · rw [h.outside k fun hk' => hk (List.mem_of_mem_drop hk'), h1 k fun hk' => hk (List.mem_of_mem_take hk')]
  · conv_lhs => rw [← List.take_append_drop c.finals.length s]
    rw [List.map_append, sum4_append, h.total, map_congr_mem heq, h2]
  · simp only [particlesList, List.mem_append] at ha
    rcases ha with ha | ha
    · have := h3 a ha
      rwa [map_congr_mem fun i hi => heq i (particles_subset _ _ a ha i hi)]
    · exact h.shell a ha

theorem vertex_spec {mass : String → ℝ} {w : World} (hr : ∀ path, PhaseSpace.Variates (w.r path)) {path : List Nat} {name : String} {nodes : List Gen}
    (hA : PhaseSpace.Allowed (mass name) (nodes.map fun g => mass g.name)) {evt : List P4} (h : vertex mass w path name nodes = some evt) :
    List.Forall₂ (fun (g : Gen) p => OnShell (mass g.name) p) nodes evt ∧ sum4 evt = ⟨0, 0, 0, mass name⟩ := by
  unfold vertex at h
  rw [Option.map_eq_some_iff] at h
  obtain ⟨l, hl, rfl⟩ := h
  obtain ⟨h1, h2, h3⟩ := PhaseSpace.phase_space_event _ _ hA _ _ _ (hr path) _ _ hl
  constructor
  · rw [List.forall₂_iff_get]
    refine ⟨by simp [h1], fun i hi hi' => ?_⟩
    obtain ⟨v, hv, hs⟩ := h3 i (by simpa using hi)
    have hil : i < l.length := by simpa using hi'
    rw [List.getElem?_eq_getElem hil] at hv
    have hv' := Option.some.inj hv
    simp only [List.get_eq_getElem, List.getElem_map, hv']
    simpa [OnShell, PhaseSpace.OnShell] using hs
  · obtain ⟨hx, hy, hz, he⟩ := h2
    simp only [sum4, List.map_map]
    apply P4.ext'
    · exact hx
    · exact hy
    · exact hz
    · exact he

mutual
theorem makeEvent_spec {mass : String → ℝ} {w : World} (hr : ∀ path, PhaseSpace.Variates (w.r path)) :
    ∀ (name : String) (nodes : List Gen) (path : List Nat) (rt : Nat → P4), (Gen.decay name nodes).Good mass →
    makeEvent mass w path (.decay name nodes) = some rt → ∀ s : List Nat, (leavesList nodes).map Prod.snd = s.map some → s.Nodup →
    Filled mass (shapeList nodes) s ⟨0, 0, 0, mass name⟩ (fun _ => zero) rt
  | name, nodes, path, rt, hg, h, s, hs, hn => by
    rw [makeEvent] at h
    cases hv : vertex mass w path name nodes with
    | none => rw [hv] at h; simp at h
    | some evt =>
      rw [hv] at h
      obtain ⟨h1, h2⟩ := vertex_spec hr hg.1 hv
      rw [← h2]
      exact fillNodes_spec hr nodes path 0 evt _ rt hg.2 h1 h s hs hn fun _ _ => rfl
theorem fillNodes_spec {mass : String → ℝ} {w : World} (hr : ∀ path, PhaseSpace.Variates (w.r path)) :
    ∀ (gs : List Gen) (path : List Nat) (i : Nat) (ps : List P4) (rt0 rt : Nat → P4), GoodList mass gs →
    List.Forall₂ (fun (g : Gen) p => OnShell (mass g.name) p) gs ps →
    fillNodes mass w path i gs ps rt0 = some rt → ∀ s : List Nat, (leavesList gs).map Prod.snd = s.map some → s.Nodup → (∀ k ∈ s, rt0 k = zero) →
    Filled mass (shapeList gs) s (sum4 ps) rt0 rt
  | [], path, i, ps, rt0, rt, _, hf, h, s, hs, _, _ => by
    cases hf
    rw [fillNodes] at h
    cases h
    have : s = [] := by cases s with
      | nil => rfl
      | cons a l => simp [leavesList] at hs
    subst this
    exact ⟨fun _ _ => rfl, rfl, fun a ha => by simp [shapeList, particlesList] at ha⟩
  | .leaf name sink :: gs, path, i, _, rt0, rt, hg, .cons (b := p) (l₂ := ps) hp hf, h, s, hs, hn, h0 => by
    rw [fillNodes] at h
    have hs' := sinks_split (l := (Gen.leaf name sink).leaves) (by rw [leavesList] at hs; exact hs)
    simp only [Gen.leaves, List.length_singleton, List.map_cons, List.map_nil] at hs'
    obtain ⟨k, s', rfl⟩ : ∃ k s', s = k :: s' := by
      cases s with
      | nil => simp at hs'
      | cons k s' => exact ⟨k, s', rfl⟩
    simp only [List.take_succ_cons, List.take_zero, List.map_cons, List.map_nil, List.cons.injEq, and_true, List.drop_succ_cons, List.drop_zero] at hs'
    obtain ⟨rfl, hs2⟩ := hs'
    have hk : k ∉ s' := (List.nodup_cons.1 hn).1
    have ih := fillNodes_spec hr gs path (i + 1) ps _ rt hg.2 hf h s' hs2 (List.nodup_cons.1 hn).2 fun j hj => by
      have : j ≠ k := fun e => hk (e ▸ hj)
      simp only [put, Function.update_of_ne this]
      exact h0 j (List.mem_cons_of_mem _ hj)
    rw [sum4_cons, shapeList]
    refine filled_cons (rt1 := Function.update rt0 k p) hn ?_ ?_ ?_ ?_
    · intro j hj
      simp only [Gen.shape, Chain.finals, List.length_singleton, List.take_succ_cons, List.take_zero, List.mem_singleton] at hj
      rw [Function.update_of_ne hj]
    · simp [Gen.shape, Chain.finals, sum4]
    · intro a ha
      simp only [Gen.shape, Chain.finals, List.length_singleton, List.take_succ_cons, List.take_zero, Chain.particles, particlesList,
        List.mem_singleton] at ha
      subst ha
      simp only [List.map_cons, List.map_nil, sum4, Function.update_self, List.sum_cons, List.sum_nil, add_zero]; exact hp
    · simp only [Gen.shape, Chain.finals, List.length_singleton, List.drop_succ_cons, List.drop_zero]; exact ih
  | .decay name nodes :: gs, path, i, _, rt0, rt, hg, .cons (b := p) (l₂ := ps) hp hf, h, s, hs, hn, h0 => by
    rw [fillNodes] at h
    cases hm : makeEvent mass w (i :: path) (.decay name nodes) with
    | none => rw [hm] at h; simp at h
    | some evt =>
      rw [hm] at h
      simp only at h
      by_cases hp0 : p.x = 0 ∧ p.y = 0 ∧ p.z = 0
      · rw [if_pos hp0] at h; cases h
      · rw [if_neg hp0] at h
        have hs' := sinks_split (l := (Gen.decay name nodes).leaves) (by rw [leavesList] at hs; exact hs)
        have hlen : (Gen.decay name nodes).leaves.length = (Gen.decay name nodes).shape.finals.length := by
          rw [finals_shape mass _ hg.1, List.length_map]
        rw [hlen] at hs'
        obtain ⟨n, hnn⟩ : ∃ n, (Gen.decay name nodes).shape.finals.length = n := ⟨_, rfl⟩
        rw [hnn] at hs'
        have hn1 : (s.take n).Nodup := hn.sublist (List.take_sublist _ _)
        have hn2 : (s.drop n).Nodup := hn.sublist (List.drop_sublist _ _)
        have hd : ∀ j ∈ s.drop n, j ∉ s.take n := by
          intro j hj hj'
          have := List.take_append_drop n s
          rw [← this, List.nodup_append] at hn
          exact hn.2.2 j hj' j hj rfl
        have hev := makeEvent_spec hr name nodes (i :: path) evt hg.1 hm (s.take n) (by simpa [Gen.leaves] using hs'.1) hn1
        have hmass : 0 < mass name := by
          have hA := hg.1.1
          exact lt_of_le_of_lt (List.sum_nonneg hA.nonneg) hA.threshold
        have hout : ∀ j, j ∉ s.take n → plus (rt0 j) (boostTo p (evt j)) = rt0 j := by
          intro j hj
          rw [hev.outside j hj, boostTo_zero, plus_zero]
        have hin : ∀ j, j ∈ s.take n → plus (rt0 j) (boostTo p (evt j)) = boostTo p (evt j) := by
          intro j hj
          rw [h0 j (List.mem_of_mem_take hj), zero_plus]
        have hsum : ∀ l : List Nat, (∀ j ∈ l, j ∈ s.take n) → sum4 (l.map fun j => plus (rt0 j) (boostTo p (evt j))) = boostTo p (sum4 (l.map evt)) := by
          intro l hl
          rw [map_congr_mem fun j hj => hin j (hl j hj), boostTo_sum4, List.map_map]; rfl
        have ih := fillNodes_spec hr gs path (i + 1) ps _ rt hg.2 hf h (s.drop n) hs'.2 hn2 fun j hj => by
          rw [hout j (hd j hj)]
          exact h0 j (List.mem_of_mem_drop hj)
        rw [sum4_cons, shapeList]
        refine filled_cons (rt1 := fun j => plus (rt0 j) (boostTo p (evt j))) hn ?_ ?_ ?_ ?_
        · rw [hnn]; exact hout
        · rw [hnn, hsum _ fun _ h => h, hev.total, boostTo_rest hmass hp hp0]
        · rw [hnn]
          intro a ha
          rw [hsum _ fun j hj => particles_subset _ _ a ha j hj]
          simp only [Gen.shape, Chain.particles, List.mem_cons] at ha
          rcases ha with rfl | ha
          · rw [hev.total, boostTo_rest hmass hp hp0]; exact hp
          · exact boostTo_onShell hmass hp hp0 (hev.shell a ha)
        · rw [hnn]; exact ih
end

end AmpGen.Recursive
