import Verif.CP.Lemmas
import Mathlib.Tactic.NormNum
/-
Properties of CP conjugation: C138, C139.
-/
namespace AmpGen.CP
open AmpGen.Strings AmpGen.PDG AmpGen.Particle
open AmpGen.CP.Spec

variable {K : Type} [Field K] [LinearOrder K]

/-! ### C138 -/

/-- **C138**: for a cascade of decays to two particles in which angular momenta can be added, the parity of the final state is the product of (−1)^(J − L − s₁ − s₂) over
all decays. -/
theorem final_state_parity : ∀ t : Particle.Tree K,
    (∀ d ds, Particle.Spec.Contains t (.node d ds) → ds.length ≤ 2 ∧ ∀ a b, ds = [a, b] → (d.props.twoSpin + a.data.props.twoSpin + b.data.props.twoSpin) % 2 = 0) →
    ∃ x, VertexPhases t x ∧ finalStateParity t = some x ∧ (x = 1 ∨ x = -1)
  | .node d [], _ => ⟨1, .stable d, fsp_of_phases (.stable d), Or.inl rfl⟩
  | .node d [a], h => by
    obtain ⟨x, h1, _, h3⟩ := final_state_parity a fun e es he => h e es (Particle.Spec.Contains.inside _ _ a _ (by simp) he)
    exact ⟨x, .through d a x h1, fsp_of_phases (.through d a x h1), h3⟩
  | .node d [a, b], h => by
    obtain ⟨x, h1, _, _⟩ := final_state_parity a fun e es he => h e es (Particle.Spec.Contains.inside _ _ a _ (by simp) he)
    obtain ⟨y, h2, _, _⟩ := final_state_parity b fun e es he => h e es (Particle.Spec.Contains.inside _ _ b _ (by simp) he)
    have hm := (h d [a, b] (.here _)).2 a b rfl
    obtain ⟨m, hm⟩ : ∃ m : Int, 2 * m = d.props.twoSpin - 2 * (d.orbital : Int) - a.data.props.twoSpin - b.data.props.twoSpin :=
      ⟨(d.props.twoSpin - 2 * (d.orbital : Int) - a.data.props.twoSpin - b.data.props.twoSpin) / 2, by omega⟩
    exact ⟨_, .decay d a b x y m h1 h2 hm, fsp_of_phases (.decay d a b x y m h1 h2 hm), phases_unit (.decay d a b x y m h1 h2 hm)⟩
  | .node d (a :: b :: c :: l), h => by
    have := (h d _ (.here _)).1
    simp at this

theorem cparities_list : ∀ ds : List (Particle.Tree K), (∀ t ∈ ds, ∃ x, CParities t x) →
    ∃ xs : List Int, ds.length = xs.length ∧ ∀ (i : Nat) (t : Particle.Tree K) (x : Int), ds[i]? = some t → xs[i]? = some x → CParities t x := by
  intro ds
  induction ds with
  | nil => intro _; exact ⟨[], rfl, by simp⟩
  | cons t ts ih =>
    intro h
    obtain ⟨x, hx⟩ := h t (by simp)
    obtain ⟨xs, hl, hxs⟩ := ih fun u hu => h u (by simp [hu])
    refine ⟨x :: xs, by simp [hl], ?_⟩
    intro i u y h1 h2
    cases i with
    | zero => simp at h1 h2; subst h1; subst h2; exact hx
    | succ i => exact hxs i u y (by simpa using h1) (by simpa using h2)

/-- **C138**: the sign under C is the product of the C-parities of all particles below the head that have one. -/
theorem charge_parity (t : Particle.Tree K) : ∃ x, CParities t x ∧ chargeParity t = x := by
  have key : ∀ t : Particle.Tree K, ∃ x, CParities t x := by
    intro t
    refine Particle.Tree.rec (motive_1 := fun t => ∃ x, CParities t x) (motive_2 := fun ds => ∀ t ∈ ds, ∃ x, CParities t x) ?_ ?_ ?_ t
    · intro d ds ih
      by_cases h1 : ds.length = 1
      · match ds, h1 with
        | [a], _ =>
          obtain ⟨x, hx⟩ := ih a (by simp)
          exact ⟨x, .through d a x hx⟩
      · obtain ⟨xs, hl, hxs⟩ := cparities_list ds ih
        exact ⟨_, CParities.node d ds xs h1 hl hxs⟩
    · simp
    · intro a ds h1 h2 t ht
      rcases List.mem_cons.mp ht with rfl | ht
      exacts [h1, h2 t ht]
  obtain ⟨x, hx⟩ := key t
  exact ⟨x, hx, chargeParity_of hx⟩

/-- **C138**: a decay chain written as a descriptor and its conjugate have the same sign under CP, with the decay products put in order or not. -/
theorem cp_conjugate (env : Env K) (reorder : Bool) (s : Str) (t : Particle.Tree K) (ht : env.ofDescriptor s = some t)
    (hm : ∀ d, Particle.Spec.Has t d → Particle.Spec.Consistent env.db d.name ∧ Particle.Spec.Mirrored env d)
    (hspin : ∀ d a b, Particle.Spec.Contains t (.node d [a, b]) → (d.props.twoSpin.toNat + a.data.props.twoSpin.toNat + b.data.props.twoSpin.toNat) % 2 = 0)
    (horder : reorder = true → ∀ d ds, Particle.Spec.Contains t (.node d ds) →
      d.props.hasDistinctAnti = true ∧ d.props.pdgID ≠ 0 ∨ d.props.hasDistinctAnti = false ∧ 0 ≤ d.props.pdgID ∧ ds.Pairwise fun a b => a.lt b = true)
    (hc : SameNumbers env t) :
    ∃ t', env.conj true reorder true t = some t' ∧ Particle.Spec.Conjugate env t t' ∧ cp t' = cp t := by
  obtain ⟨t', h1, h2, _⟩ := tree_conjugation_partial env reorder s t ht hm hspin horder
  refine ⟨t', h1, h2, ?_⟩
  obtain ⟨h3, h4, _, _⟩ := conjugate_numbers h2 hc
  unfold cp
  rw [h3, h4]

/-- A decay to two vectors in a P wave is odd. -/
example : ∃ t, sample "D0[P]{rho(770)0{pi+,pi-},K*(892)bar0{K-,pi+}}" = some t ∧ finalStateParity t = some (-1) ∧ cp t = some (-1)
    ∧ ∀ d ds, Particle.Spec.Contains t (.node d ds) → ds.length ≤ 2 ∧ ∀ a b, ds = [a, b] → (d.props.twoSpin + a.data.props.twoSpin + b.data.props.twoSpin) % 2 = 0 := by
  have h : (match sample "D0[P]{rho(770)0{pi+,pi-},K*(892)bar0{K-,pi+}}" with
      | some t => decide (finalStateParity t = some (-1)) && decide (cp t = some (-1)) && t.parts.all (fun u => decide (u.daughters.length ≤ 2) &&
          (match u.daughters with | [a, b] => decide ((u.data.props.twoSpin + a.data.props.twoSpin + b.data.props.twoSpin) % 2 = 0) | _ => true))
      | none => false) = true := by decide +kernel
  split at h
  · rename_i t ht
    simp only [Bool.and_eq_true, List.all_eq_true] at h
    obtain ⟨⟨h1, h2⟩, h3⟩ := h
    refine ⟨t, ht, of_decide_eq_true h1, of_decide_eq_true h2, ?_⟩
    intro d ds hc
    have := h3 _ (contains_parts t _ hc)
    refine ⟨of_decide_eq_true this.1, ?_⟩
    rintro a b rfl
    exact of_decide_eq_true this.2
  · simp at h

/-! ### C139 -/

section
variable {S : Type}

theorem spec_coupling_eq (coords : Str) (sf re im : ℝ) : Spec.coupling coords sf re im = couplingValue (decide (coords ≠ "polar".toList)) sf re im := by
  unfold Spec.coupling couplingValue
  by_cases h : coords = "polar".toList
  · simp only [h, if_true]
    simp
    left
    congr 1; ring
  · simp only [h, if_false]
    rw [if_pos (by simpa using h)]
    apply Complex.ext <;> simp

/-- The conjugate of one of the two parameters of a process. -/
theorem conjugateParam_pair (env : Env K) (coords : Str) (forbidden : List Str) (s r n : Str) (hs : '_' ∉ s ∧ ':' ∉ s ∧ s ≠ [] ∧ s ≠ [' '] ∧ s ≠ ['\n'] ∧ s ≠ ['\t'])
    (hr : r = "Re".toList ∨ r = "Im".toList) (t c : Particle.Tree K) (ht : env.ofDescriptor s = some t) (hc : env.conj true true true t = some c)
    (hforb : t.data.name ∉ forbidden) (hdist : c.data.props.hasDistinctAnti = true) (x : Int) (hx : cp c = some x) (hn : c.uniqueString = some n)
    (p : Param S) (hp : p.name = s ++ "_".toList ++ r) (sgn : Int)
    (hsgn : sgn = if coords = "polar".toList then (if r = "Re".toList then x else 1) else if coords = "cartesian".toList then x else 1) :
    conjugateParam env coords forbidden p = some (some (link (n ++ "_".toList ++ r) sgn p)) := by
  have hr' : '_' ∉ r ∧ ':' ∉ r ∧ r ≠ [] ∧ r ≠ [' '] ∧ r ≠ ['\n'] ∧ r ≠ ['\t'] := by rcases hr with rfl | rfl <;> decide
  have hcol : find p.name "::".toList 0 = none := by
    apply no_colons
    rw [hp]
    intro h
    rcases List.mem_append.mp h with h | h
    · rcases List.mem_append.mp h with h | h
      · exact hs.2.1 h
      · revert h; decide
    · exact hr'.2.1 h
  have hsp : split p.name '_' true = [s, r] := by rw [hp]; exact split_pair hs.1 hr'.1 hs.2.2 hr'.2.2
  have hcount : ¬ forbidden.count t.data.name ≠ 0 := by simp [List.count_eq_zero, hforb]
  unfold conjugateParam
  rw [hcol]
  simp only [hsp]
  simp only [List.head?_cons, List.getLast?_cons_cons, List.getLast?_singleton, List.length_cons, List.length_nil]
  have h1 : ¬ (0 + 1 + 1 = 1 ∧ isValidDecayDescriptor env s = true) := by simp
  rw [if_neg h1, if_pos hr, ht, Option.bind_some, if_neg hcount, hc, Option.bind_some]
  have h2 : ¬ c.data.props.hasDistinctAnti = false := by simp [hdist]
  rw [if_neg h2]
  have h3 : (if coords = "polar".toList then (if r = "Re".toList then cp c else some 1) else if coords = "cartesian".toList then cp c else some 1) = some sgn := by
    rw [hsgn, hx]
    split <;> (try split) <;> rfl
  rw [h3, Option.bind_some, hn, Option.map_some]

/-- **C139**: the parameters that were there are kept, in their places, and names stay unique. -/
theorem parameters_kept (env : Env K) (coords : Str) (forbidden : List Str) (mps out : List (Param S)) (h : addCPConjugate env coords forbidden mps = some out)
    (hnd : (mps.map Param.name).Nodup) : (∃ l, out = mps ++ l) ∧ (out.map Param.name).Nodup :=
  ⟨(addCP_spec h).1, (addCP_spec h).2.2.2 hnd⟩

/-- **C139 (partial)**: after `AddCPConjugate` the conjugate of a process given by two parameters has the coupling of the process times its sign under CP, for all values
that the parameters take afterwards.  This holds for processes without prefix, if the names of the conjugate process are not taken and no other parameter has them as
conjugates. -/
theorem conjugate_coupling_partial (env : Env K) (coords : Str) (hcoords : coords = "cartesian".toList ∨ coords = "polar".toList) (forbidden : List Str) (mps out : List (Param S))
    (h : addCPConjugate env coords forbidden mps = some out) (s n : Str) (hs : '_' ∉ s ∧ ':' ∉ s ∧ s ≠ [] ∧ s ≠ [' '] ∧ s ≠ ['\n'] ∧ s ≠ ['\t'])
    (t c : Particle.Tree K) (ht : env.ofDescriptor s = some t) (hc : env.conj true true true t = some c)
    (hforb : t.data.name ∉ forbidden) (hdist : c.data.props.hasDistinctAnti = true) (x : Int) (hx : cp c = some x) (hn : c.uniqueString = some n)
    (re im : Param S) (hre : re ∈ mps) (him : im ∈ mps) (hren : re.name = s ++ "_Re".toList) (himn : im.name = s ++ "_Im".toList)
    (hnew : ∀ p ∈ mps, p.name ≠ n ++ "_Re".toList ∧ p.name ≠ n ++ "_Im".toList)
    (huniq : ∀ p ∈ mps, ∀ q, conjugateParam env coords forbidden p = some (some q) → (q.name = n ++ "_Re".toList → p = re) ∧ (q.name = n ++ "_Im".toList → p = im)) :
    ∃ re' ∈ out, ∃ im' ∈ out, re'.name = n ++ "_Re".toList ∧ im'.name = n ++ "_Im".toList
      ∧ ∀ (sf : ℝ) (st : S), couplingValue (decide (coords ≠ "polar".toList)) sf (re'.mean st) (im'.mean st) = (x : ℂ) * Spec.coupling coords sf (re.mean st) (im.mean st) := by
  have e1 : ∀ a : Str, a ++ "_Re".toList = a ++ "_".toList ++ "Re".toList := by intro a; simp
  have e2 : ∀ a : Str, a ++ "_Im".toList = a ++ "_".toList ++ "Im".toList := by intro a; simp
  obtain ⟨_, h2, h3, _⟩ := addCP_spec h
  have cre := conjugateParam_pair env coords forbidden s "Re".toList n hs (Or.inl rfl) t c ht hc hforb hdist x hx hn re (by rw [hren, e1]) _ rfl
  have cim := conjugateParam_pair env coords forbidden s "Im".toList n hs (Or.inr rfl) t c ht hc hforb hdist x hx hn im (by rw [himn, e2]) _ rfl
  obtain ⟨re', hre', hnre⟩ := h3 re hre _ cre
  obtain ⟨im', him', hnim⟩ := h3 im him _ cim
  simp only [link] at hnre hnim
  rw [← e1] at hnre
  rw [← e2] at hnim
  refine ⟨re', hre', im', him', hnre, hnim, ?_⟩
  intro sf st
  have vre : re' = link (n ++ "_".toList ++ "Re".toList) (if coords = "polar".toList then (if "Re".toList = "Re".toList then x else 1) else if coords = "cartesian".toList then x else 1) re := by
    rcases h2 re' hre' with hmem | ⟨p, hp, hpc⟩
    · exact absurd hnre (hnew re' hmem).1
    · have := (huniq p hp re' hpc).1 hnre
      subst this
      rw [cre] at hpc
      exact (Option.some.inj (Option.some.inj hpc)).symm
  have vim : im' = link (n ++ "_".toList ++ "Im".toList) (if coords = "polar".toList then (if "Im".toList = "Re".toList then x else 1) else if coords = "cartesian".toList then x else 1) im := by
    rcases h2 im' him' with hmem | ⟨p, hp, hpc⟩
    · exact absurd hnim (hnew im' hmem).2
    · have := (huniq p hp im' hpc).2 hnim
      subst this
      rw [cim] at hpc
      exact (Option.some.inj (Option.some.inj hpc)).symm
  rw [spec_coupling_eq, vre, vim]
  have hri : ¬ "Im".toList = "Re".toList := by decide
  have hmean : ∀ (m : Str) (k : Int) (p : Param S), (link m k p).mean st = (k : ℝ) * p.mean st := by
    intro m k p
    simp [Param.mean, link]
  rw [hmean, hmean]
  unfold couplingValue
  rcases hcoords with hcc | hcc
  · have : ¬ coords = "polar".toList := by rw [hcc]; decide
    simp only [this, hcc, ne_eq, not_false_eq_true, decide_true, if_true, if_false]
    have : ¬ "cartesian".toList = "polar".toList := by decide
    simp only [this, if_false, not_false_eq_true, decide_true, if_true]
    apply Complex.ext <;> simp
  · simp only [hcc, if_true, hri, if_false, ne_eq, not_true_eq_false, decide_false, Bool.false_eq_true]
    push_cast
    ring_nf

/-- **C139**: the setting of a particle, `name_setting`, is followed by that of its antiparticle. -/
theorem conjugate_setting (env : Env K) (coords : Str) (forbidden : List Str) (mps out : List (Param S)) (h : addCPConjugate env coords forbidden mps = some out)
    (s r : Str) (hs : '_' ∉ s ∧ ':' ∉ s ∧ s ≠ [] ∧ s ≠ [' '] ∧ s ≠ ['\n'] ∧ s ≠ ['\t']) (hr : '_' ∉ r ∧ ':' ∉ r ∧ r ≠ [] ∧ r ≠ [' '] ∧ r ≠ ['\n'] ∧ r ≠ ['\t'])
    (hri : r ≠ "Re".toList ∧ r ≠ "Im".toList) (props : Props K) (hprops : env.db.find s = some props) (p : Param S) (hp : p ∈ mps) (hpn : p.name = s ++ "_".toList ++ r)
    (hnew : ∀ q ∈ mps, q.name ≠ props.anti.name ++ "_".toList ++ r)
    (huniq : ∀ q ∈ mps, ∀ q', conjugateParam env coords forbidden q = some (some q') → q'.name = props.anti.name ++ "_".toList ++ r → q = p) :
    ∃ q ∈ out, q.name = props.anti.name ++ "_".toList ++ r ∧ ∀ st, q.mean st = p.mean st := by
  have hcol : find p.name "::".toList 0 = none := by
    apply no_colons
    rw [hpn]
    intro h
    rcases List.mem_append.mp h with h | h
    · rcases List.mem_append.mp h with h | h
      · exact hs.2.1 h
      · revert h; decide
    · exact hr.2.1 h
  have hsp : split p.name '_' true = [s, r] := by rw [hpn]; exact split_pair hs.1 hr.1 hs.2.2 hr.2.2
  have hconj : conjugateParam env coords forbidden p = some (some (link (props.anti.name ++ "_".toList ++ r) 1 p)) := by
    unfold conjugateParam
    rw [hcol]
    simp only [hsp]
    simp only [List.head?_cons, List.getLast?_cons_cons, List.getLast?_singleton, List.length_cons, List.length_nil]
    have h1 : ¬ (0 + 1 + 1 = 1 ∧ isValidDecayDescriptor env s = true) := by simp
    have h2 : ¬ (r = "Re".toList ∨ r = "Im".toList) := by rintro (h | h); exacts [hri.1 h, hri.2 h]
    rw [if_neg h1, if_neg h2, if_pos trivial, hprops]
  obtain ⟨_, h2, h3, _⟩ := addCP_spec h
  obtain ⟨q, hq, hqn⟩ := h3 p hp _ hconj
  simp only [link] at hqn
  refine ⟨q, hq, hqn, ?_⟩
  intro st
  rcases h2 q hq with hmem | ⟨p', hp', hpc⟩
  · exact absurd hqn (hnew q hmem)
  · have := huniq p' hp' q hpc hqn
    subst this
    rw [hconj] at hpc
    have : q = _ := (Option.some.inj (Option.some.inj hpc)).symm
    rw [this]
    simp [Param.mean, link]

/-- **C139**: a setting of a particle, `name::setting`, whatever comes after the colons, is followed by that of its antiparticle. -/
theorem conjugate_lineshape_setting (env : Env K) (coords : Str) (forbidden : List Str) (mps out : List (Param S)) (h : addCPConjugate env coords forbidden mps = some out)
    (s r : Str) (hs : ':' ∉ s) (props : Props K) (hprops : env.db.find s = some props) (p : Param S) (hp : p ∈ mps) (hpn : p.name = s ++ "::".toList ++ r)
    (hnew : ∀ q ∈ mps, q.name ≠ props.anti.name ++ "::".toList ++ r)
    (huniq : ∀ q ∈ mps, ∀ q', conjugateParam env coords forbidden q = some (some q') → q'.name = props.anti.name ++ "::".toList ++ r → q = p) :
    ∃ q ∈ out, q.name = props.anti.name ++ "::".toList ++ r ∧ ∀ st, q.mean st = p.mean st := by
  have hfind : find p.name "::".toList 0 = some s.length := by
    rw [hpn]
    exact first_colons hs
  have hconj : conjugateParam env coords forbidden p = some (some (link (props.anti.name ++ "::".toList ++ r) 1 p)) := by
    unfold conjugateParam
    rw [hfind]
    simp only
    have h1 : p.name.take s.length = s := by rw [hpn]; simp
    have h2 : p.name.drop s.length = "::".toList ++ r := by rw [hpn]; simp
    rw [h1, h2, hprops]
    simp
  obtain ⟨_, h2, h3, _⟩ := addCP_spec h
  obtain ⟨q, hq, hqn⟩ := h3 p hp _ hconj
  simp only [link] at hqn
  refine ⟨q, hq, hqn, ?_⟩
  intro st
  rcases h2 q hq with hmem | ⟨p', hp', hpc⟩
  · exact absurd hqn (hnew q hmem)
  · have := huniq p' hp' q hpc hqn
    subst this
    rw [hconj] at hpc
    have : q = _ := (Option.some.inj (Option.some.inj hpc)).symm
    rw [this]
    simp [Param.mean, link]

/-- **C139**: no conjugate is made for the processes of a particle that is forbidden. -/
theorem forbidden_process (env : Env K) (coords : Str) (forbidden : List Str) (s r : Str) (hs : '_' ∉ s ∧ ':' ∉ s ∧ s ≠ [] ∧ s ≠ [' '] ∧ s ≠ ['\n'] ∧ s ≠ ['\t'])
    (hr : r = "Re".toList ∨ r = "Im".toList) (t : Particle.Tree K) (ht : env.ofDescriptor s = some t) (hforb : t.data.name ∈ forbidden)
    (p : Param S) (hp : p.name = s ++ "_".toList ++ r) (mps out : List (Param S)) (h : addCPConjugate env coords forbidden mps = some out)
    (q : Param S) (hq : q ∈ out) (hqn : q ∉ mps) : ∃ p' ∈ mps, p' ≠ p ∧ conjugateParam env coords forbidden p' = some (some q) := by
  have hr' : '_' ∉ r ∧ ':' ∉ r ∧ r ≠ [] ∧ r ≠ [' '] ∧ r ≠ ['\n'] ∧ r ≠ ['\t'] := by rcases hr with rfl | rfl <;> decide
  have hcol : find p.name "::".toList 0 = none := by
    apply no_colons
    rw [hp]
    intro h
    rcases List.mem_append.mp h with h | h
    · rcases List.mem_append.mp h with h | h
      · exact hs.2.1 h
      · revert h; decide
    · exact hr'.2.1 h
  have hsp : split p.name '_' true = [s, r] := by rw [hp]; exact split_pair hs.1 hr'.1 hs.2.2 hr'.2.2
  have hcount : forbidden.count t.data.name ≠ 0 := by simp [List.count_eq_zero, hforb]
  have hnone : conjugateParam env coords forbidden p = some none := by
    unfold conjugateParam
    rw [hcol]
    simp only [hsp]
    simp only [List.head?_cons, List.getLast?_cons_cons, List.getLast?_singleton, List.length_cons, List.length_nil]
    have h1 : ¬ (0 + 1 + 1 = 1 ∧ isValidDecayDescriptor env s = true) := by simp
    rw [if_neg h1, if_pos hr, ht, Option.bind_some, if_pos hcount]
  rcases (addCP_spec h).2.1 q hq with hmem | ⟨p', hp', hpc⟩
  · exact absurd hmem hqn
  · refine ⟨p', hp', ?_, hpc⟩
    rintro rfl
    rw [hnone] at hpc
    cases hpc

/-- **C139**: a second call adds nothing, if the conjugate of every parameter that was added has a name that is in the set. -/
theorem conjugate_twice (env : Env K) (coords : Str) (forbidden : List Str) (mps out out2 : List (Param S)) (h : addCPConjugate env coords forbidden mps = some out)
    (h2 : addCPConjugate env coords forbidden out = some out2)
    (hback : ∀ p ∈ mps, ∀ q q', conjugateParam env coords forbidden p = some (some q) → conjugateParam env coords forbidden q = some (some q') → q'.name = p.name) : out2 = out := by
  unfold addCPConjugate at h2
  cases hm : out.mapM (conjugateParam env coords forbidden) with
  | none => simp [hm] at h2
  | some tmp =>
    simp [hm] at h2
    subst h2
    obtain ⟨⟨l, hl⟩, h4, h5, _⟩ := addCP_spec h
    apply addNew_known
    intro q' hq'
    obtain ⟨o, ho, hoq⟩ := List.mem_filterMap.mp hq'
    have hoq' : o = some q' := hoq
    subst hoq'
    obtain ⟨q, hq, hqq⟩ := (mapM_spec _ _ _ hm).2 _ ho
    rcases h4 q hq with hmem | ⟨p, hp, hpq⟩
    · exact h5 q hmem q' hqq
    · exact ⟨p, by rw [hl]; simp [hp], (hback p hp q q' hpq hqq).symm⟩

/-- **C139, refuted**: a parameter with a name of one word that is not a process, such as `gamma`, adds a parameter without name. -/
theorem nameless_parameter_counterexample (env : Env K) (coords : Str) (forbidden : List Str) (p : Param S) (hp : '_' ∉ p.name ∧ ':' ∉ p.name ∧ '{' ∉ p.name)
    (hb : p.name ≠ [] ∧ p.name ≠ [' '] ∧ p.name ≠ ['\n'] ∧ p.name ≠ ['\t']) (hri : p.name ≠ "Re".toList ∧ p.name ≠ "Im".toList) :
    ∃ q, addCPConjugate env coords forbidden [p] = some [p, q] ∧ q.name = [] := by
  have hsp : split p.name '_' true = [p.name] := by
    have := split_join_roundtrip '_' [p.name] true (by simpa using hp.1) (by simpa using hb)
    simpa [List.intercalate, List.intersperse] using this
  have hv : isValidDecayDescriptor env p.name = false := by
    unfold isValidDecayDescriptor
    rw [if_pos (Or.inl (List.count_eq_zero.mpr hp.2.2))]
  have hconj : conjugateParam env coords forbidden p = some (some (link [] 1 p)) := by
    unfold conjugateParam
    rw [no_colons hp.2.1]
    simp only [hsp]
    simp only [List.head?_cons, List.getLast?_singleton, List.length_cons, List.length_nil]
    have h1 : ¬ (True ∧ isValidDecayDescriptor env p.name = true) := by simp [hv]
    have h2 : ¬ (p.name = "Re".toList ∨ p.name = "Im".toList) := by rintro (h | h); exacts [hri.1 h, hri.2 h]
    rw [if_neg h1, if_neg h2]
    simp
  refine ⟨link [] 1 p, ?_, rfl⟩
  unfold addCPConjugate
  simp [List.mapM_cons, hconj, addNew, link, hb.1]

/-- **C139, refuted**: a process with a prefix, whose prefix is not a particle, stops the program. -/
theorem prefix_counterexample (env : Env K) (coords : Str) (forbidden : List Str) (mps : List (Param S)) (s t : Str)
    (hs : '_' ∉ s ∧ ':' ∉ s ∧ s ≠ [] ∧ s ≠ [' '] ∧ s ≠ ['\n'] ∧ s ≠ ['\t']) (ht : '_' ∉ t ∧ ':' ∉ t ∧ t ≠ [] ∧ t ≠ [' '] ∧ t ≠ ['\n'] ∧ t ≠ ['\t'])
    (hno : env.ofDescriptor s = none) (p : Param S) (hp : p ∈ mps) (hpn : p.name = s ++ "_".toList ++ t ++ "_Re".toList) : addCPConjugate env coords forbidden mps = none := by
  have hsp : split p.name '_' true = [s, t, "Re".toList] := by
    have h := split_join_roundtrip '_' [s, t, "Re".toList] true
      (by intro w hw; simp only [List.mem_cons, List.not_mem_nil, or_false] at hw; rcases hw with rfl | rfl | rfl; exacts [hs.1, ht.1, by decide])
      (by intro w hw; simp only [List.mem_cons, List.not_mem_nil, or_false] at hw; rcases hw with rfl | rfl | rfl; exacts [hs.2.2, ht.2.2, by decide])
    have e : ['_'].intercalate [s, t, "Re".toList] = p.name := by rw [hpn]; simp [List.intercalate, List.intersperse]
    rw [← e]; exact h
  have hcol : find p.name "::".toList 0 = none := by
    apply no_colons
    rw [hpn]
    intro h
    rcases List.mem_append.mp h with h | h
    · rcases List.mem_append.mp h with h | h
      · rcases List.mem_append.mp h with h | h
        · exact hs.2.1 h
        · revert h; decide
      · exact ht.2.1 h
    · revert h; decide
  have hconj : conjugateParam env coords forbidden p = none := by
    unfold conjugateParam
    rw [hcol]
    simp only [hsp]
    simp only [List.head?_cons, List.getLast?_cons_cons, List.getLast?_singleton, List.length_cons, List.length_nil]
    have h1 : ¬ (0 + 1 + 1 + 1 = 1 ∧ isValidDecayDescriptor env s = true) := by simp
    rw [if_neg h1, if_pos (Or.inl trivial), hno, Option.bind_none]
  unfold addCPConjugate
  cases hm : mps.mapM (conjugateParam env coords forbidden) with
  | none => rfl
  | some tmp =>
    obtain ⟨b, _, hb⟩ := (mapM_spec _ _ _ hm).1 p hp
    rw [hconj] at hb
    cases hb

/-- **C139, refuted**: when the coupling of a process is given by one expression, the conjugate process gets its real part: the sign under CP is not used and the
imaginary part is lost. -/
theorem expression_coupling_counterexample (env : Env K) (coords : Str) (forbidden : List Str) (p : Param S) (hp : '_' ∉ p.name ∧ ':' ∉ p.name)
    (hb : p.name ≠ [] ∧ p.name ≠ [' '] ∧ p.name ≠ ['\n'] ∧ p.name ≠ ['\t']) (hv : isValidDecayDescriptor env p.name = true)
    (t c : Particle.Tree K) (ht : env.ofDescriptor p.name = some t) (hc : env.conj true true true t = some c) (hforb : t.data.name ∉ forbidden)
    (n : Str) (hn : c.uniqueString = some n) (hnew : n ≠ p.name) :
    ∃ q, addCPConjugate env coords forbidden [p] = some [p, q] ∧ q.name = n ∧ ∀ st, q.val st = ((p.val st).re : ℂ) := by
  have hsp : split p.name '_' true = [p.name] := by
    have := split_join_roundtrip '_' [p.name] true (by simpa using hp.1) (by simpa using hb)
    simpa [List.intercalate, List.intersperse] using this
  have hconj : conjugateParam env coords forbidden p = some (some ⟨n, fun s => (starRingEnd ℂ) (p.mean s : ℂ)⟩) := by
    unfold conjugateParam
    rw [no_colons hp.2]
    simp only [hsp]
    simp only [List.head?_cons, List.getLast?_singleton, List.length_cons, List.length_nil]
    have h1 : (True ∧ isValidDecayDescriptor env p.name = true) := ⟨trivial, hv⟩
    rw [if_pos h1, ht, Option.bind_some, if_pos (List.count_eq_zero.mpr hforb), hc, Option.bind_some, hn, Option.map_some]
  refine ⟨⟨n, fun s => (starRingEnd ℂ) (p.mean s : ℂ)⟩, ?_, rfl, ?_⟩
  · unfold addCPConjugate
    simp [List.mapM_cons, hconj, addNew, Ne.symm hnew]
  · intro st
    simp [Param.mean]

end

/-- A process that is odd under CP, with two parameters. -/
example : ∃ out, addCPConjugate sampleEnv "cartesian".toList [] [(⟨"D0[P]{K*(892)bar0{K-,pi+},rho(770)0{pi+,pi-}}_Re".toList, fun s : ℝ × ℝ => (s.1 : ℂ)⟩ : Param (ℝ × ℝ)),
      ⟨"D0[P]{K*(892)bar0{K-,pi+},rho(770)0{pi+,pi-}}_Im".toList, fun s => (s.2 : ℂ)⟩] = some out
    ∧ ∃ re' ∈ out, ∃ im' ∈ out, re'.name = "Dbar0[P]{K*(892)0{K+,pi-},rho(770)0{pi+,pi-}}_Re".toList ∧ im'.name = "Dbar0[P]{K*(892)0{K+,pi-},rho(770)0{pi+,pi-}}_Im".toList
    ∧ ∀ st : ℝ × ℝ, couplingValue true 1 (re'.mean st) (im'.mean st) = -((st.1 : ℂ) + Complex.I * st.2) := by
  have h : (match sample "D0[P]{K*(892)bar0{K-,pi+},rho(770)0{pi+,pi-}}" with
      | some t => (match sampleEnv.conj true true true t with
        | some c => decide (cp c = some (-1)) && decide (c.uniqueString = some "Dbar0[P]{K*(892)0{K+,pi-},rho(770)0{pi+,pi-}}".toList) && c.data.props.hasDistinctAnti
        | none => false)
      | none => false) = true := by decide +kernel
  split at h
  · rename_i t ht
    split at h
    · rename_i c hc
      simp only [Bool.and_eq_true] at h
      obtain ⟨⟨h1, h2⟩, h3⟩ := h
      have h1 := of_decide_eq_true h1
      have h2 := of_decide_eq_true h2
      obtain ⟨re, hre⟩ : ∃ re : Param (ℝ × ℝ), re = ⟨"D0[P]{K*(892)bar0{K-,pi+},rho(770)0{pi+,pi-}}_Re".toList, fun s : ℝ × ℝ => (s.1 : ℂ)⟩ := ⟨_, rfl⟩
      obtain ⟨im, him⟩ : ∃ im : Param (ℝ × ℝ), im = ⟨"D0[P]{K*(892)bar0{K-,pi+},rho(770)0{pi+,pi-}}_Im".toList, fun s : ℝ × ℝ => (s.2 : ℂ)⟩ := ⟨_, rfl⟩
      rw [← hre, ← him]
      have hs : '_' ∉ "D0[P]{K*(892)bar0{K-,pi+},rho(770)0{pi+,pi-}}".toList ∧ ':' ∉ "D0[P]{K*(892)bar0{K-,pi+},rho(770)0{pi+,pi-}}".toList ∧
        "D0[P]{K*(892)bar0{K-,pi+},rho(770)0{pi+,pi-}}".toList ≠ [] ∧ "D0[P]{K*(892)bar0{K-,pi+},rho(770)0{pi+,pi-}}".toList ≠ [' '] ∧
        "D0[P]{K*(892)bar0{K-,pi+},rho(770)0{pi+,pi-}}".toList ≠ ['\n'] ∧ "D0[P]{K*(892)bar0{K-,pi+},rho(770)0{pi+,pi-}}".toList ≠ ['\t'] := by decide
      have cre := conjugateParam_pair sampleEnv "cartesian".toList [] _ "Re".toList _ hs (Or.inl rfl) t c ht hc (by simp) h3 (-1) h1 h2 re (by rw [hre]; decide) _ rfl
      have cim := conjugateParam_pair sampleEnv "cartesian".toList [] _ "Im".toList _ hs (Or.inr rfl) t c ht hc (by simp) h3 (-1) h1 h2 im (by rw [him]; decide) _ rfl
      obtain ⟨out, hout⟩ : ∃ out, addCPConjugate sampleEnv "cartesian".toList [] [re, im] = some out := by
        unfold addCPConjugate
        rw [List.mapM_cons, cre, List.mapM_cons, cim]
        exact ⟨_, rfl⟩
      refine ⟨out, hout, ?_⟩
      have key := conjugate_coupling_partial sampleEnv "cartesian".toList (Or.inl rfl) [] [re, im] out hout _ _ hs t c ht hc (by simp) h3 (-1) h1 h2 re im (by simp) (by simp)
        (by rw [hre]; decide) (by rw [him]; decide)
        (by intro p hp; simp only [List.mem_cons, List.not_mem_nil, or_false] at hp; rcases hp with rfl | rfl <;> simp only [hre, him] <;> decide)
        (by
          intro p hp q hq
          simp only [List.mem_cons, List.not_mem_nil, or_false] at hp
          rcases hp with rfl | rfl
          · rw [cre] at hq
            have := Option.some.inj (Option.some.inj hq)
            subst this
            refine ⟨fun _ => rfl, fun hn => ?_⟩
            simp only [link] at hn
            exact absurd hn (by decide)
          · rw [cim] at hq
            have := Option.some.inj (Option.some.inj hq)
            subst this
            refine ⟨fun hn => ?_, fun _ => rfl⟩
            simp only [link] at hn
            exact absurd hn (by decide))
      obtain ⟨re', hr1, im', hi1, hr2, hi2, hv⟩ := key
      refine ⟨re', hr1, im', hi1, by rw [hr2]; decide, by rw [hi2]; decide, ?_⟩
      intro st
      have hpc : ¬ "cartesian".toList = "polar".toList := by decide
      have := hv 1 st
      simp only [hpc, ne_eq, not_false_eq_true, decide_true, Spec.coupling, if_false] at this
      rw [this, hre, him]
      simp [Param.mean]
    · simp at h
  · simp at h

/-- The coupling of a cascade is the product of the couplings of its decays, so that the coupling of the conjugate cascade is multiplied by the product of the signs. -/
theorem cascade_coupling (cs : List ℂ) (xs : List Int) (hl : cs.length = xs.length) :
    totalCoupling (List.zipWith (fun (x : Int) (c : ℂ) => (x : ℂ) * c) xs cs) = ((xs.prod : Int) : ℂ) * cs.prod ∧ totalCoupling cs = cs.prod := by
  have key : ∀ (l : List ℂ) (a : ℂ), l.foldl (fun prod c => prod * c) a = a * l.prod := by
    intro l
    induction l with
    | nil => intro a; simp
    | cons b l ih => intro a; simp [ih, mul_assoc]
  unfold totalCoupling
  rw [key, key, one_mul, one_mul]
  refine ⟨?_, rfl⟩
  induction cs generalizing xs with
  | nil => cases xs <;> simp at hl ⊢
  | cons c cs ih =>
    cases xs with
    | nil => simp at hl
    | cons x xs =>
      simp only [List.zipWith_cons_cons, List.prod_cons]
      rw [ih xs (by simpa using hl)]
      push_cast
      ring

end AmpGen.CP
