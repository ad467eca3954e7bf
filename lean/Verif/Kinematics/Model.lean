import Mathlib.Analysis.SpecialFunctions.Trigonometric.Basic
import Mathlib.Analysis.Real.Sqrt
/-
Model of src/Kinematics.cpp and of the momenta of an event, src/Event.cpp.

Simplifications: numbers are real; an event is its size and a function from positions to numbers, whose values behind the size are never used by the code.
-/
namespace AmpGen.Kinematics

/-- The data of an `Event`, AmpGen/Event.h:59. -/
structure Event where
  size : Nat
  data : Nat → ℝ

/-- `Event::set( i, p )` and the assignment through `operator[]`, src/Event.cpp:82, AmpGen/Event.h:40. -/
noncomputable def Event.set (evt : Event) (i : Nat) (p : ℝ) : Event := { evt with data := fun j => if j = i then p else evt.data j }

/-- `Event::s( index )`, src/Event.cpp:33-38. -/
def Event.s1 (evt : Event) (index : Nat) : ℝ :=
  evt.data (4 * index + 3) * evt.data (4 * index + 3) - evt.data (4 * index + 0) * evt.data (4 * index + 0) -
    evt.data (4 * index + 1) * evt.data (4 * index + 1) - evt.data (4 * index + 2) * evt.data (4 * index + 2)

/-- `Event::s( index1, index2 )`, src/Event.cpp:40-45. -/
def Event.s2 (evt : Event) (i j : Nat) : ℝ :=
  (evt.data (4 * i + 3) + evt.data (4 * j + 3)) * (evt.data (4 * i + 3) + evt.data (4 * j + 3)) -
    (evt.data (4 * i + 0) + evt.data (4 * j + 0)) * (evt.data (4 * i + 0) + evt.data (4 * j + 0)) -
    (evt.data (4 * i + 1) + evt.data (4 * j + 1)) * (evt.data (4 * i + 1) + evt.data (4 * j + 1)) -
    (evt.data (4 * i + 2) + evt.data (4 * j + 2)) * (evt.data (4 * i + 2) + evt.data (4 * j + 2))

/-- `Event::s( index1, index2, index3 )`, src/Event.cpp:47-56. -/
def Event.s3 (evt : Event) (i j k : Nat) : ℝ :=
  (evt.data (4 * i + 3) + evt.data (4 * j + 3) + evt.data (4 * k + 3)) * (evt.data (4 * i + 3) + evt.data (4 * j + 3) + evt.data (4 * k + 3)) -
    (evt.data (4 * i + 0) + evt.data (4 * j + 0) + evt.data (4 * k + 0)) * (evt.data (4 * i + 0) + evt.data (4 * j + 0) + evt.data (4 * k + 0)) -
    (evt.data (4 * i + 1) + evt.data (4 * j + 1) + evt.data (4 * k + 1)) * (evt.data (4 * i + 1) + evt.data (4 * j + 1) + evt.data (4 * k + 1)) -
    (evt.data (4 * i + 2) + evt.data (4 * j + 2) + evt.data (4 * k + 2)) * (evt.data (4 * i + 2) + evt.data (4 * j + 2) + evt.data (4 * k + 2))

/-- `Event::s( indices )`, src/Event.cpp:58-71. -/
noncomputable def Event.s (evt : Event) : List Nat → ℝ
  | [i, j] => evt.s2 i j
  | [i, j, k] => evt.s3 i j k
  | indices =>
    let E := indices.foldl (fun (a : ℝ) (i : Nat) => a + evt.data (i * 4 + 3)) 0
    let px := indices.foldl (fun (a : ℝ) (i : Nat) => a + evt.data (i * 4 + 0)) 0
    let py := indices.foldl (fun (a : ℝ) (i : Nat) => a + evt.data (i * 4 + 1)) 0
    let pz := indices.foldl (fun (a : ℝ) (i : Nat) => a + evt.data (i * 4 + 2)) 0
    E * E - px * px - py * py - pz * pz

/-- `Event::set( i, p )` for four numbers, src/Event.cpp:76-78; `p` is a function of the position. -/
noncomputable def Event.set4 (evt : Event) (i : Nat) (p : Nat → ℝ) : Event := (List.range 4).foldl (fun (e : Event) (j : Nat) => e.set (4 * i + j) (p j)) evt

/-- `Event::swap`, src/Event.cpp:84-90. -/
noncomputable def Event.swap (evt : Event) (i j : Nat) : Event :=
  let tmp := fun k => evt.data (4 * j + k)
  let evt := evt.set4 j (fun k => evt.data (4 * i + k))
  evt.set4 i tmp

/-- `Event::reorder`, src/Event.cpp:92-96. -/
noncomputable def Event.reorder (evt : Event) (addresses : List Nat) : Event :=
  addresses.zipIdx.foldl (fun (e : Event) (a : Nat × Nat) => e.set4 a.1 (fun k => evt.data (4 * a.2 + k))) evt

/-- `boost`, src/Kinematics.cpp:139-152. -/
noncomputable def boost (evt : Event) (nx ny nz v : ℝ) : Event :=
  let gamma := 1 / √(1 - v * v)
  let norm := √(nx * nx + ny * ny + nz * nz)
  (List.range (evt.size / 4)).foldl (fun (evt : Event) (i : Nat) =>
    let nv := evt.data (4 * i) * nx + evt.data (4 * i + 1) * ny + evt.data (4 * i + 2) * nz
    let evt := evt.set (4 * i + 0) (evt.data (4 * i + 0) + ((gamma - 1) * nv / norm + gamma * evt.data (4 * i + 3) * v) * nx / norm)
    let evt := evt.set (4 * i + 1) (evt.data (4 * i + 1) + ((gamma - 1) * nv / norm + gamma * evt.data (4 * i + 3) * v) * ny / norm)
    let evt := evt.set (4 * i + 2) (evt.data (4 * i + 2) + ((gamma - 1) * nv / norm + gamma * evt.data (4 * i + 3) * v) * nz / norm)
    evt.set (4 * i + 3) (gamma * (evt.data (4 * i + 3) + v * nv / norm))) evt

/-- `rotate`, src/Kinematics.cpp:154-169. -/
noncomputable def rotate (evt : Event) (nx ny nz v : ℝ) : Event :=
  let cv := Real.cos v
  let sv := Real.sin v
  let norm := √(nx * nx + ny * ny + nz * nz)
  (List.range (evt.size / 4)).foldl (fun (evt : Event) (i : Nat) =>
    let ix := evt.data (4 * i + 0)
    let iy := evt.data (4 * i + 1)
    let iz := evt.data (4 * i + 2)
    let k := (1 - cv) * (ix * nx + iy * ny + iz * nz)
    let evt := evt.set (4 * i + 0) (cv * ix + sv * (iz * ny - iy * nz) / norm + k * nx / (norm * norm))
    let evt := evt.set (4 * i + 1) (cv * iy + sv * (ix * nz - iz * nx) / norm + k * ny / (norm * norm))
    evt.set (4 * i + 2) (cv * iz + sv * (iy * nx - ix * ny) / norm + k * nz / (norm * norm))) evt

/-- A vector of three numbers, `TVector3`. -/
structure V3 where
  x : ℝ
  y : ℝ
  z : ℝ

/-- `TVector3::Mag`. -/
noncomputable def V3.Mag (p : V3) : ℝ := √(p.x * p.x + p.y * p.y + p.z * p.z)

/-- `rotateBasis`, src/Kinematics.cpp:171-182. -/
noncomputable def rotateBasis (evt : Event) (p1 p2 p3 : V3) : Event :=
  (List.range (evt.size / 4)).foldl (fun (evt : Event) (i : Nat) =>
    let ex := evt.data (4 * i + 0)
    let ey := evt.data (4 * i + 1)
    let ez := evt.data (4 * i + 2)
    let evt := evt.set (4 * i + 0) ((p1.x * ex + p1.y * ey + p1.z * ez) / p1.Mag)
    let evt := evt.set (4 * i + 1) ((p2.x * ex + p2.y * ey + p2.z * ez) / p2.Mag)
    evt.set (4 * i + 2) ((p3.x * ex + p3.y * ey + p3.z * ez) / p3.Mag)) evt

/-- A four-momentum, `TLorentzVector`. -/
structure P4 where
  x : ℝ
  y : ℝ
  z : ℝ
  E : ℝ

/-- `TLorentzVector::Dot`. -/
def P4.Dot (p q : P4) : ℝ := p.E * q.E - p.z * q.z - p.y * q.y - p.x * q.x

/-- `pFromEvent` for several particles, src/Kinematics.cpp:58-68. -/
noncomputable def pFromEvent (evt : Event) (ref : List Nat) : P4 :=
  ref.foldl (fun (p : P4) (r : Nat) => ⟨p.x + evt.data (4 * r + 0), p.y + evt.data (4 * r + 1), p.z + evt.data (4 * r + 2), p.E + evt.data (4 * r + 3)⟩) ⟨0, 0, 0, 0⟩

/-- `dotProduct`, src/Kinematics.cpp:86-89. -/
noncomputable def dotProduct (p1 p2 pX : P4) : ℝ := -p1.Dot p2 + p1.Dot pX * p2.Dot pX / pX.Dot pX

/-- `HelicityCosine::operator()`, src/Kinematics.cpp:45-51. -/
noncomputable def helicityCosine (evt : Event) (i j pR : List Nat) : ℝ :=
  let PR := pFromEvent evt pR
  let pi := pFromEvent evt i
  let pj := pFromEvent evt j
  dotProduct pi pj PR / √(dotProduct pi pi PR * dotProduct pj pj PR)

/-- `MomentumTransfer::Q2`, src/Kinematics.cpp:28-31. -/
noncomputable def Q2 (s s1 s2 : ℝ) : ℝ := s / 4 - (s1 + s2) / 2 + (s1 - s2) * (s1 - s2) / (4 * s)

/-- `MomentumTransfer::operator()`, src/Kinematics.cpp:21-27, with the constructor, :14-19. -/
noncomputable def momentumTransfer (evt : Event) (p1 p2 : List Nat) : ℝ := √(Q2 (evt.s (p1 ++ p2)) (evt.s p1) (evt.s p2))

end AmpGen.Kinematics
