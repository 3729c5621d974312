import Verif.Model.Complex
import Verif.Model.Combine

/-!
# Čech complexes

Models `include/aleph/geometry/CechComplex.hh`.

The class `Miniball` (`include/aleph/external/Miniball.hpp`, an external library) is a parameter: `ball c` is the squared
radius of the smallest enclosing ball of the points `c`.
-/

namespace Aleph

namespace Cech

variable {α P : Type}

/-- The callback of `for_each_combination`, `CechComplex.hh:61-79`.  `root` is `std::sqrt`. -/
def visit [LE α] [DecidableLE α] [Mul α] [OfNat α 2] (ball : List P → α) (root : α → α) (point : ℕ → P) (R : α)
    (simplices : List (Simplex α)) (c : List ℕ) : List (Simplex α) × Bool :=
  let points := c.map point
  (if ball points ≤ R then simplices ++ [Simplex.ofRange c (2 * root (ball points))] else simplices, false)

/-- The loop over `d`, `CechComplex.hh:56-88`; the list contains the remaining values of `d`. -/
def loop [LE α] [DecidableLE α] [Mul α] [OfNat α 2] (ball : List P → α) (root : α → α) (point : ℕ → P) (R : α) :
    List ℕ → List ℕ → List (Simplex α) → List (Simplex α)
  | [], _, simplices => simplices
  | d :: ds, vertices, simplices =>
    match Combine.forEach (visit ball root point R) d vertices simplices with
    | (simplices', _, vertices') =>
      if simplices.length = simplices'.length then simplices'
      else loop ball root point R ds vertices' simplices'

/-- `buildCechComplex(container, r)`, `CechComplex.hh:24-94`, for a container with `n` points; `d0` is the
default-constructed data of vertices.  `none` is the exception for an empty simplex (shown not to happen). -/
def buildCechComplex [LinearOrder α] [Mul α] [OfNat α 2] (ball : List P → α) (root : α → α) (d0 : α) (n : ℕ)
    (point : ℕ → P) (r : α) : Option (Complex α) :=
  let vertices := List.range n
  let simplices := vertices.map fun v => Simplex.ofVertex v d0
  let R := r * r
  let simplices := loop ball root point R (List.range' 2 (n - 1)) vertices simplices
  match Complex.insertRange [] simplices with
  | (_, true) => none
  | (K, false) => some (K.sort (asLt (Filtration.data fun a b => a < b)))

end Cech

end Aleph
