import Verif.Model.PointCloud
import Mathlib.Analysis.SpecialFunctions.Trigonometric.Inverse

/-!
# Samples of spheres and tori

Models `include/aleph/geometry/SphereSampling.hh` and `include/aleph/geometry/TorusSampling.hh`.  Numbers are real; random numbers are given as sequences.
-/

namespace Aleph.Sampling

/-- The loop of `makeSphere`, `SphereSampling.hh:81-92`, and of `makeTorus`, `TorusSampling.hh:83-95`: `position` are the coordinates for a pair of angles. -/
def fill (position : ℝ × ℝ → List ℝ) : ℕ → PointCloud ℝ → List (ℝ × ℝ) → Option (PointCloud ℝ)
  | _, pc, [] => some pc
  | index, pc, a :: angles =>
    match pc.set index (position a) with
    | none => none
    | some pc' => fill position (index + 1) pc' angles

/-- `sphereSampling`, `SphereSampling.hh:30-53`; `draw` is the sequence of random numbers. -/
noncomputable def sphereSampling (draw : ℕ → ℝ) (n : ℕ) : List (ℝ × ℝ) :=
  (List.range n).map fun i =>
    let u := draw (2 * i)
    let v := draw (2 * i + 1)
    let theta := 2 * Real.pi * u
    let phi := Real.arccos (1 - 2 * v)
    (theta, phi)

/-- The coordinates in `makeSphere`, `SphereSampling.hh:84-89`. -/
noncomputable def spherePosition (r x0 y0 z0 : ℝ) (a : ℝ × ℝ) : List ℝ :=
  let theta := a.1
  let phi := a.2
  let x := x0 + r * Real.cos theta * Real.sin phi
  let y := y0 + r * Real.sin theta * Real.sin phi
  let z := z0 + r * Real.cos phi
  [x, y, z]

/-- `makeSphere`, `SphereSampling.hh:71-95`. -/
noncomputable def makeSphere (angles : List (ℝ × ℝ)) (r x0 y0 z0 : ℝ) : Option (PointCloud ℝ) :=
  fill (spherePosition r x0 y0 z0) 0 (PointCloud.make angles.length 3) angles

/-- The value `f` in `torusRejectionSampling`, `TorusSampling.hh:56`. -/
noncomputable def torusDensity (R r x : ℝ) : ℝ := (1 + r / R * Real.cos x) / (2 * Real.pi)

open Classical in
/-- The loop of `torusRejectionSampling`, `TorusSampling.hh:52-60`: `i` is the number of the round; `none` if there are not enough rounds. -/
noncomputable def torusLoop (R r : ℝ) (x y psi : ℕ → ℝ) (n : ℕ) : ℕ → ℕ → List (ℝ × ℝ) → Option (List (ℝ × ℝ))
  | 0, _, angles => if angles.length < n then none else some angles
  | rounds + 1, i, angles =>
    if angles.length < n then
      if y i < torusDensity R r (x i) then torusLoop R r x y psi n rounds (i + 1) (angles ++ [(x i, psi angles.length)])
      else torusLoop R r x y psi n rounds (i + 1) angles
    else some angles

/-- `torusRejectionSampling`, `TorusSampling.hh:32-63`; `x`, `y` and `psi` are the sequences of random numbers. -/
noncomputable def torusRejectionSampling (R r : ℝ) (n : ℕ) (x y psi : ℕ → ℝ) (rounds : ℕ) : Option (List (ℝ × ℝ)) :=
  torusLoop R r x y psi n rounds 0 []

/-- The coordinates in `makeTorus`, `TorusSampling.hh:87-92`. -/
noncomputable def torusPosition (R r : ℝ) (a : ℝ × ℝ) : List ℝ :=
  let theta := a.1
  let psi := a.2
  let x := (R + r * Real.cos theta) * Real.cos psi
  let y := (R + r * Real.cos theta) * Real.sin psi
  let z := r * Real.sin theta
  [x, y, z]

/-- `makeTorus`, `TorusSampling.hh:76-98`. -/
noncomputable def makeTorus (angles : List (ℝ × ℝ)) (R r : ℝ) : Option (PointCloud ℝ) :=
  fill (torusPosition R r) 0 (PointCloud.make angles.length 3) angles

end Aleph.Sampling
