import Verif.Generator.Model
/-
What generation should do, in terms of the sequence of proposals and random numbers.
-/
namespace AmpGen.Generator.Spec
open AmpGen.Generator

variable {K σ : Type} [Field K] [LinearOrder K]

/-- The results of `n` successive calls of a function with a state, and the last state. -/
def calls {α : Type} (f : σ → α × σ) : Nat → σ → List α × σ
  | 0, s => ([], s)
  | n + 1, s => ((f s).1 :: (calls f n (f s).2).1, (calls f n (f s).2).2)

/-- The next `n` events of a phase space generator. -/
def proposals (gps : PhaseSpace K σ) (n : Nat) (s : σ) : List (Event K) × σ :=
  match gps with
  | .phaseSpace fill => ((calls fill n s).1.zipIdx.map fun d => ⟨d.1, some 1, 1, d.2⟩, (calls fill n s).2)
  | .other makeEvent => calls makeEvent n s

/-- The density of a proposed event: the density asked for over that of the proposal. -/
def density (pdf : List K → Option K) (e : Event K) : Option K := quot (pdf e.data) e.genPdf

/-- A block: `n` proposals, then one random number for each of them. -/
def block (gps : PhaseSpace K σ) (rndm : σ → K × σ) (n : Nat) (s : σ) : List (Event K × K) × σ :=
  ((proposals gps n s).1.zip (calls rndm n (proposals gps n s).2).1, (calls rndm n (proposals gps n s).2).2)

/-- The first `k` blocks. -/
def trials (gps : PhaseSpace K σ) (rndm : σ → K × σ) (n : Nat) (s : σ) (k : Nat) : List (List (Event K × K)) := (calls (block gps rndm n) k s).1

/-- The density of the event is greater than the threshold times the random number. -/
def Passes (pdf : List K → Option K) (M : K) (t : Event K × K) : Prop := ∃ g, density pdf t.1 = some g ∧ M * t.2 < g

instance (pdf : List K → Option K) (M : K) (t : Event K × K) : Decidable (Passes pdf M t) :=
  match h : density pdf t.1 with
  | none => isFalse (by rintro ⟨g, hg, _⟩; rw [h] at hg; cases hg)
  | some g => if h' : M * t.2 < g then isTrue ⟨g, h, h'⟩ else isFalse (by rintro ⟨g', hg, hl⟩; rw [h] at hg; cases hg; exact h' hl)

/-- The threshold: one, or one and a half times the greatest density in the first block if that is positive. -/
def Threshold (normalise : Bool) (pdf : List K → Option K) (first : List (Event K)) (M : K) : Prop :=
  (normalise = false ∧ M = 1) ∨
  (normalise = true ∧ ∃ m, M = 3 / 2 * m ∧ 0 ≤ m ∧ (∀ e ∈ first, ∀ g, density pdf e = some g → g ≤ m) ∧ (m = 0 ∨ ∃ e ∈ first, density pdf e = some m))

/-- Events as they are stored: at their positions, starting from `start`, and with their densities. -/
def stored (pdf : List K → Option K) (start : Nat) (es : List (Event K)) : List (Event K) := (es.zipIdx start).map fun e => { e.1 with index := e.2, genPdf := pdf e.1.data }

/-- The events of the phase space generator have positions inside their block. -/
def InRange (gps : PhaseSpace K σ) (n : Nat) : Prop :=
  match gps with
  | .phaseSpace _ => True
  | .other makeEvent => ∀ s, (makeEvent s).1.index < n

end AmpGen.Generator.Spec
