import Verif.Particle.Spec
/-
A small particle database, with which the theorems are illustrated.
-/
namespace AmpGen.Particle
open AmpGen.Strings AmpGen.PDG AmpGen.Particle.Spec

/-- Properties of a particle. -/
def sampleProps (id : Int) (name : String) (aformat : Char) (charge : Int) (chargeString : String) (mass width : ℚ) (twoSpin parity : Int) (quarks : String) : Props ℚ :=
  ⟨mass, 0, 0, width, 0, 0, 3 / 2, 0, parity, 0, id, 0, charge, twoSpin, [], name.toList, [], chargeString.toList, aformat, 'R', [QuarkState.ofString quarks.toList], true, false⟩

/-- Some mesons and the Delta resonances. -/
def sampleList : List (Props ℚ) :=
  let withAnti (p : Props ℚ) : List (Props ℚ) := [p, p.anti]
  withAnti (sampleProps 421 "D" 'F' 0 "0" 1865 0 0 (-1) "cU") ++ withAnti (sampleProps 321 "K" 'B' 1 "+" 494 0 0 (-1) "uS") ++ withAnti (sampleProps 211 "pi" 'B' 1 "+" 140 0 0 (-1) "uD") ++
  withAnti (sampleProps 313 "K*(892)" 'F' 0 "0" 892 50 2 (-1) "dS") ++ [sampleProps 113 "rho(770)" ' ' 0 "0" 770 150 2 (-1) ""] ++ [sampleProps 22 "gamma" ' ' 0 "0" 0 0 2 (-1) ""] ++
  [sampleProps 10111 "a(0)(980)" ' ' 0 "0" 980 75 0 1 ""] ++
  withAnti (sampleProps 1114 "Delta(1232)" 'F' (-1) "-" 1232 117 3 1 "ddd") ++ withAnti (sampleProps 2114 "Delta(1232)" 'F' 0 "0" 1232 117 3 1 "udd") ++
  withAnti (sampleProps 2214 "Delta(1232)" 'F' 1 "+" 1232 117 3 1 "uud")

/-- The lineshapes of the library, src/Lineshapes.cpp and src/Lineshapes/. -/
def sampleLineshapes : List Str :=
  ["FormFactor", "ExpFF", "None", "BW", "SBW", "TD", "GounarisSakurai", "kMatrix", "FOCUS", "EtaDalitz", "Bugg", "kMatrixSimple", "Flatte", "Gaussian", "Poly", "DecaySpline", "GSpline", "FormFactorSpline", "MIPWA",
    "InelasticSpline", "Photon", "LASS", "GenericKmatrix", "PolyNR", "Isotensor", "PALANO", "NonRelBW", "GLASS", "CoupledChannel"].map String.toList

/-- The environment. -/
def sampleEnv : Env ℚ := ⟨makeMappings sampleList, fun s => decide (s ∈ sampleLineshapes), 1 / 1000, []⟩

/-- The constructor for a literal. -/
def sample (s : String) : Option (Tree ℚ) := sampleEnv.ofDescriptor s.toList

theorem sampleEnv_unambiguous : Unambiguous sampleEnv := by
  have h1 : ∀ s ∈ sampleLineshapes, 2 ≤ s.length ∧ (s.length = 2 → ∀ a ∈ s.head?, a ∉ ['S', 'P', 'D', 'F', 'G', 'H', 'I']) := by decide +kernel
  refine ⟨?_, ?_, ?_, ?_⟩
  · intro s hs
    exact (h1 s (of_decide_eq_true hs)).1
  · intro a b ha
    refine decide_eq_false ?_
    intro hm
    exact (h1 _ hm).2 rfl a rfl ha
  · decide +kernel
  · exact ⟨by intro c hc; simp [sampleEnv] at hc, by simp [sampleEnv]⟩

variable {K : Type} [Field K] [LinearOrder K]

mutual
/-- All particles of a tree. -/
def Tree.nodes : Tree K → List (Data K)
  | .node d ds => d :: nodesList ds
/-- All particles of some trees. -/
def nodesList : List (Tree K) → List (Data K)
  | [] => []
  | t :: ts => t.nodes ++ nodesList ts
end

mutual
theorem has_nodes : ∀ (t : Tree K) (d : Data K), Has t d → d ∈ t.nodes
  | .node e ds, d, h => by
    rw [Tree.nodes]
    cases h with
    | here => exact List.mem_cons_self
    | inside _ _ t _ ht h => exact List.mem_cons_of_mem _ (has_nodesList ds t ht d h)
theorem has_nodesList : ∀ (ds : List (Tree K)) (t : Tree K), t ∈ ds → ∀ d, Has t d → d ∈ nodesList ds
  | [], t, ht, _, _ => by simp at ht
  | a :: as, t, ht, d, h => by
    rw [nodesList, List.mem_append]
    rcases List.mem_cons.1 ht with e | ht
    · exact Or.inl (has_nodes a d (e ▸ h))
    · exact Or.inr (has_nodesList as t ht d h)
end

/-- Whether a text is plain. -/
def isPlain (s : Str) : Bool := s.all fun c => !(structural.contains c)

theorem isPlain_iff {s : Str} : isPlain s = true → Plain s := by
  intro h c hc hs
  have := List.all_eq_true.1 h c hc
  simp at this
  exact this hs

/-- Whether the database is consistent for a name. -/
def isConsistent (db : DB ℚ) (name : Str) : Bool :=
  match db.find name with
  | none => false
  | some p => decide (p.name = name) && isPlain name && !p.quarkContent.isEmpty && (!p.hasDistinctAnti || match db.findID (-p.pdgID) with
    | none => false
    | some q => q.hasDistinctAnti && decide (db.findID (-q.pdgID) = some p))

theorem isConsistent_spec {db : DB ℚ} {name : Str} (h : isConsistent db name = true) : Consistent db name := by
  unfold isConsistent at h
  split at h
  · simp at h
  · rename_i p hp
    simp only [Bool.and_eq_true, decide_eq_true_eq] at h
    obtain ⟨⟨⟨h1, h2⟩, h3⟩, h4⟩ := h
    refine ⟨p, hp, h1, isPlain_iff h2, by rintro e; rw [e] at h3; simp at h3, ?_⟩
    intro hd
    rw [hd] at h4
    simp only [Bool.not_true, Bool.false_or] at h4
    split at h4
    · simp at h4
    · rename_i q hq
      rw [Bool.and_eq_true] at h4
      exact ⟨q, hq, h4.1, of_decide_eq_true h4.2⟩

/-- Whether the modifiers can be written again. -/
def isWritable (env : Env ℚ) (d : Data ℚ) : Bool :=
  (d.modifiers.all fun m => isPlain m && (!(m.contains '=') || (decide (3 ≤ m.length) && !env.isLineshape m))) && (d.vertexName.isEmpty || (decide (d.orbital = d.minL) && decide (d.spinConf = 0)))

theorem isWritable_spec {env : Env ℚ} {d : Data ℚ} (h : isWritable env d = true) : Writable env d := by
  unfold isWritable at h
  rw [Bool.and_eq_true, List.all_eq_true] at h
  obtain ⟨h1, h2⟩ := h
  refine ⟨fun m hm => isPlain_iff ?_, fun m hm he => ?_, ?_⟩
  · exact (Bool.and_eq_true _ _ ▸ h1 m hm).1
  · have := (Bool.and_eq_true _ _ ▸ h1 m hm).2
    simp [he] at this
    exact this
  · simp at h2
    exact h2

mutual
/-- All parts of a tree. -/
def Tree.parts : Tree K → List (Tree K)
  | .node d ds => .node d ds :: partsList ds
/-- All parts of some trees. -/
def partsList : List (Tree K) → List (Tree K)
  | [] => []
  | t :: ts => t.parts ++ partsList ts
end

mutual
theorem contains_parts : ∀ (t u : Tree K), Contains t u → u ∈ t.parts
  | .node d ds, u, h => by
    rw [Tree.parts]
    cases h with
    | here => exact List.mem_cons_self
    | inside _ _ t _ ht h => exact List.mem_cons_of_mem _ (contains_partsList ds t ht u h)
theorem contains_partsList : ∀ (ds : List (Tree K)) (t : Tree K), t ∈ ds → ∀ u, Contains t u → u ∈ partsList ds
  | [], t, ht, _, _ => by simp at ht
  | a :: as, t, ht, u, h => by
    rw [partsList, List.mem_append]
    rcases List.mem_cons.1 ht with e | ht
    · exact Or.inl (contains_parts a u (e ▸ h))
    · exact Or.inr (contains_partsList as t ht u h)
end

/-- Whether the database has the antiparticle. -/
def isMirrored (env : Env ℚ) (d : Data ℚ) : Bool :=
  decide (d.props.name = d.name) && decide (env.db.find d.name = some d.props) && !d.props.quarkContent.isEmpty && match env.antiProps d.props with
    | none => false
    | some q => decide (env.antiProps q = some d.props) && decide (env.db.find q.name = some q) && decide (q.twoSpin = d.props.twoSpin) && decide (q.getWidth = d.props.getWidth) &&
      decide (q.parity = (if d.props.twoSpin.toNat % 2 = 1 then - d.props.parity else d.props.parity)) &&
      (q.quarkContent.all fun x => decide ((fun i => - x i) ∈ d.props.quarkContent)) && (d.props.quarkContent.all fun x => decide ((fun i => - x i) ∈ q.quarkContent)) &&
      decide (isNonRes q.name = isNonRes d.name) && (!d.props.hasDistinctAnti || (decide (q.pdgID = - d.props.pdgID) && decide (d.props.pdgID.natAbs ≠ 22)))

theorem isMirrored_spec {env : Env ℚ} {d : Data ℚ} (h : isMirrored env d = true) : Mirrored env d := by
  unfold isMirrored at h
  simp only [Bool.and_eq_true, decide_eq_true_eq] at h
  obtain ⟨⟨⟨h1, h2⟩, h3⟩, h4⟩ := h
  refine ⟨h1, h2, by intro e; rw [e] at h3; simp at h3, ?_⟩
  split at h4
  · simp at h4
  · rename_i q hq
    simp only [Bool.and_eq_true, decide_eq_true_eq, List.all_eq_true] at h4
    obtain ⟨⟨⟨⟨⟨⟨⟨⟨a1, a2⟩, a3⟩, a4⟩, a5⟩, a6⟩, a7⟩, a8⟩, a9⟩ := h4
    refine ⟨q, hq, a1, a2, a3, a4, a5, fun x => ⟨fun hx => a6 x hx, fun hx => ?_⟩, a8, ?_⟩
    · have := a7 _ hx
      have e : (fun i => - (fun i => - x i) i : QuarkState) = x := by funext i; simp
      rwa [e] at this
    · simp only [Bool.or_eq_true, Bool.not_eq_true', Bool.and_eq_true, decide_eq_true_eq] at a9
      exact a9

/-- Whether the spins of two decay products can be added to the spin of the particle. -/
def isEven (t : Tree ℚ) : Bool :=
  match t with
  | .node d [a, b] => decide ((d.props.twoSpin.toNat + a.data.props.twoSpin.toNat + b.data.props.twoSpin.toNat) % 2 = 0)
  | _ => true

/-- Whether the order is kept by conjugation. -/
def isTold (t : Tree ℚ) : Bool :=
  match t with
  | .node d ds => decide (d.props.hasDistinctAnti = true ∧ d.props.pdgID ≠ 0 ∨ d.props.hasDistinctAnti = false ∧ 0 ≤ d.props.pdgID ∧ ds.Pairwise fun a b => a.lt b = true)

end AmpGen.Particle
