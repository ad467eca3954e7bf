import Verif.Coherent.Model
/-
Specification of a coherent sum: what its numbers should be, written directly in terms of
the amplitudes, couplings and the attached samples.
-/
namespace AmpGen.Coherent

variable {P X : Type} {W : Nat}

/-- Amplitude `i` at a point in parameter space. -/
noncomputable def Amps.at (A : Amps P X) (p : P) (i : Nat) (x : X) : ℂ := A.amp i (A.ext i p) x

/-- The total amplitude. -/
noncomputable def Amps.total (A : Amps P X) (p : P) (x : X) : ℂ :=
  ∑ i ∈ Finset.range A.n, A.coup i p * A.at p i x

/-- Sum over all events of a sample. -/
noncomputable def sumOver {M : Type} [AddCommMonoid M] (evs : List (Fin W → SimEvent X))
    (f : SimEvent X → M) : M :=
  (evs.map fun b => ∑ l, f (b l)).sum

/-- The weight with which an event of an integration sample counts. -/
noncomputable def SimEvent.w (e : SimEvent X) : ℝ := e.weight / e.genPdf

/-- Weighted averages over a sample. -/
noncomputable def average (evs : List (Fin W → SimEvent X)) (f : X → ℝ) : ℝ :=
  sumOver evs (fun e => e.w * f e.x) / sumOver evs SimEvent.w

noncomputable def averageC (evs : List (Fin W → SimEvent X)) (f : X → ℂ) : ℂ :=
  sumOver evs (fun e => (e.w : ℂ) * f e.x) / ((sumOver evs SimEvent.w : ℝ) : ℂ)

/-- The point in parameter space after a history. -/
def lastPar (p : P) : List (Op P X W) → P
  | [] => p
  | .setPar q :: ops => lastPar q ops
  | _ :: ops => lastPar p ops

/-- The data attached after a history. -/
def lastData (d : Option (List (Fin W → X))) : List (Op P X W) → Option (List (Fin W → X))
  | [] => d
  | .setEvents evs _ :: ops => lastData (some evs) ops
  | .reset true :: ops => lastData none ops
  | _ :: ops => lastData d ops

/-- The integration sample attached after a history. -/
def lastSim (d : Option (List (Fin W → SimEvent X))) : List (Op P X W) → Option (List (Fin W → SimEvent X))
  | [] => d
  | .setMC evs _ :: ops => lastSim (some evs) ops
  | .reset true :: ops => lastSim none ops
  | _ :: ops => lastSim d ops

/-- The operation does not overwrite an external buffer behind the cache's back. -/
def Op.Tracked : Op P X W → Prop
  | .setExternals _ _ => False
  | _ => True

/-- Well formed sums: distinct names, and external buffers of fixed size. -/
structure Amps.WF (A : Amps P X) : Prop where
  names : ((List.range A.n).map A.name).Nodup
  slots : ∀ i p q, (A.ext i p).length = (A.ext i q).length

/-- The pairs of distinct elements of a list, in order. -/
def crossPairs {α : Type} : List α → List (α × α)
  | [] => []
  | a :: l => l.map (fun b => (a, b)) ++ crossPairs l

/-- An event list packed into blocks of `W` lanes, the unused lanes of the last block holding
`pad`. -/
def pack {E : Type} (W : Nat) (pad : E) (evs : List E) : List (Fin W → E) :=
  (List.range ((evs.length + W - 1) / W)).map fun b l => evs.getD (b * W + l) pad

/-- Requests writing to the same place agree. -/
def Consistent (rs : List Req) : Prop :=
  ∀ r ∈ rs, ∀ r' ∈ rs, r.dest = r'.dest → r.i = r'.i ∧ r.j = r'.j

end AmpGen.Coherent
