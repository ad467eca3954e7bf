import Verif.Likelihood.Model
import Verif.Coherent.Spec
/-
Specification of incoherent sums and of the likelihood: densities written directly in terms of
the amplitudes, the couplings and the attached samples.
-/
namespace AmpGen.Likelihood

open Coherent

variable {P X : Type} {W : Nat}

/-- The unnormalised density of an incoherent sum, as documented in AmpGen/IncoherentSum.h. -/
noncomputable def incTotal (A : Amps P X) (q : P) (x : X) : ℝ :=
  ∑ i ∈ Finset.range A.n, Complex.normSq (A.coup i q * A.at q i x)

/-- The unnormalised density of a component. -/
noncomputable def Comp.raw (c : Comp P X) (q : P) (x : X) : ℝ :=
  if c.inco then incTotal c.A q x else Complex.normSq (c.A.total q x)

/-- The density of a component with the normalisation that is in use for both kinds of sum:
the average of the squared modulus of the total amplitude over the integration sample. -/
noncomputable def Comp.density (c : Comp P X) (q : P) (sim : List (Fin W → SimEvent X)) (x : X) : ℝ :=
  c.A.weight q / average sim (fun y => Complex.normSq (c.A.total q y)) * c.raw q x

/-- The sum of the densities of all components, each with its own integration sample. -/
noncomputable def mixture (comps : List (Comp P X)) (q : P) (sims : Nat → List (Fin W → SimEvent X)) (x : X) : ℝ :=
  (comps.zipIdx.map fun c => c.1.density q (sims c.2) x).sum

/-- Minus twice the logarithm of the likelihood of a weighted data sample. -/
noncomputable def nll (f : X → ℝ) (data : List (SimEvent X)) : ℝ :=
  -2 * (data.map fun e => e.weight * Real.log (f e.x)).sum

/-- The parameters, the data and the integration sample of component `k` after a history. -/
def sLastPar (p : P) : List (SOp P X W) → P
  | [] => p
  | .setPar q :: ops => sLastPar q ops
  | _ :: ops => sLastPar p ops

def sLastData (d : Option (List (Fin W → SimEvent X))) : List (SOp P X W) → Option (List (Fin W → SimEvent X))
  | [] => d
  | .setEvents evs _ :: ops => sLastData (some evs) ops
  | _ :: ops => sLastData d ops

def sLastSim (k : Nat) (d : Option (List (Fin W → SimEvent X))) :
    List (SOp P X W) → Option (List (Fin W → SimEvent X))
  | [] => d
  | .onPdf j (.setMC evs _) :: ops => sLastSim k (if j = k then some evs else d) ops
  | _ :: ops => sLastSim k d ops

/-- Operations on single components that leave the shared parameters and the data alone, and
do not go behind the back of the cache. -/
def SOp.ok : SOp P X W → Prop
  | .onPdf _ (.setPar _) => False
  | .onPdf _ (.setEvents _ _) => False
  | .onPdf _ (.setExternals _ _) => False
  | .onPdf _ (.reset true) => False
  | _ => True

end AmpGen.Likelihood
