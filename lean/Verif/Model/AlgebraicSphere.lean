import Mathlib.Analysis.Real.Sqrt

/-!
# Algebraic spheres

Models `include/aleph/math/AlgebraicSphere.hh`.  Coefficients are real numbers; the value `none` stands for a number that is not finite (infinite or not a number).
-/

namespace Aleph

/-- The members of `AlgebraicSphere`, `AlgebraicSphere.hh:105-112`. -/
structure AlgebraicSphere where
  /-- `_radius`, with `none` for a value that is not finite. -/
  radius : Option ℝ
  /-- `_centre`. -/
  centre : List (Option ℝ)
  /-- `_coefficients`. -/
  coefficients : List ℝ

namespace AlgebraicSphere

/-- The constructor, `AlgebraicSphere.hh:35-40`; `none` if it throws an exception. -/
def make (coefficients : List ℝ) : Option AlgebraicSphere :=
  if coefficients.length < 3 then none else some ⟨none, [], coefficients⟩

open Classical in
/-- Division, with `none` for a quotient by zero (which is infinite or not a number). -/
noncomputable def quotient (x y : ℝ) : Option ℝ := if y = 0 then none else some (x / y)

open Classical in
/-- `std::sqrt`, which is not a number for negative arguments. -/
noncomputable def squareRoot (x : ℝ) : Option ℝ := if x < 0 then none else some (Real.sqrt x)

/-- `std::inner_product` of a vector with itself; not finite as soon as one of the entries is not finite. -/
noncomputable def squareSum (c : List (Option ℝ)) : Option ℝ :=
  c.foldl (fun acc x => acc.bind fun a => x.map fun t => a + t * t) (some 0)

/-- `centre`, `AlgebraicSphere.hh:43-62`: the result and the object after the call. -/
noncomputable def getCentre (a : AlgebraicSphere) : List (Option ℝ) × AlgebraicSphere :=
  if a.centre.isEmpty then
    let s := a.coefficients.getLastD 0
    let c := (a.coefficients.drop 1).dropLast.map fun x => quotient x (2 * s)
    (c, { a with centre := c })
  else (a.centre, a)

/-- `radius`, `AlgebraicSphere.hh:65-75`: the result and the object after the call. -/
noncomputable def getRadius (a : AlgebraicSphere) : Option ℝ × AlgebraicSphere :=
  match a.radius with
  | some r => (some r, a)
  | none =>
    let (c, a') := a.getCentre
    let n := squareSum c
    let r := n.bind fun n => (quotient (a'.coefficients.headD 0) (a'.coefficients.getLastD 0)).bind fun q => squareRoot (n - q)
    (r, { a' with radius := r })

open Classical in
/-- `gaussianCurvature`, `AlgebraicSphere.hh:78-88`.  A radius that is not a number fails the comparison; an infinite radius has the quotient 0. -/
noncomputable def gaussianCurvature (a : AlgebraicSphere) : ℝ × AlgebraicSphere :=
  let (r, a') := a.getRadius
  match r with
  | none => (0, a')
  | some r => (if r > 0 then 1 / (r * r) else 0, a')

open Classical in
/-- `meanCurvature`, `AlgebraicSphere.hh:91-101`. -/
noncomputable def meanCurvature (a : AlgebraicSphere) : ℝ × AlgebraicSphere :=
  let (r, a') := a.getRadius
  match r with
  | none => (0, a')
  | some r => (if r > 0 then 1 / r else 0, a')

/-- The queries of an object. -/
inductive Query
  | centre
  | radius
  | gaussianCurvature
  | meanCurvature

/-- The object after a query. -/
noncomputable def after (a : AlgebraicSphere) : Query → AlgebraicSphere
  | .centre => a.getCentre.2
  | .radius => a.getRadius.2
  | .gaussianCurvature => a.gaussianCurvature.2
  | .meanCurvature => a.meanCurvature.2

/-- The object after a sequence of queries. -/
noncomputable def run (a : AlgebraicSphere) (qs : List Query) : AlgebraicSphere := qs.foldl after a

end AlgebraicSphere

end Aleph
