import Verif.Model.Combine
import Verif.Model.Conversions

/-!
# Persistent intersection homology

Models
* `include/aleph/persistentHomology/PhiPersistence.hh`
* `lastLexicographicalIntersection` of `include/aleph/topology/Intersections.hh`
-/

namespace Aleph

namespace PhiPersistence

variable {α : Type}

/-- The bodies of the loops `PhiPersistence.hh:42-46` (`want = true`) and `PhiPersistence.hh:50-54` (`want = false`);
`none` is an exception raised by `phi` or by `push_back`. -/
def partitionStep (phi : Simplex α → Option Bool) (want : Bool) (L : Complex α) (s : Simplex α) :
    Option (Complex α) :=
  match phi s with
  | none => none
  | some b => if b = want then L.pushBack s else some L

/-- `partition(K, phi)`, `PhiPersistence.hh:38-57`. -/
def partition (K : Complex α) (phi : Simplex α → Option Bool) : Option (Complex α × Nat) :=
  match K.foldlM (partitionStep phi true) [] with
  | none => none
  | some L =>
    match K.foldlM (partitionStep phi false) L with
    | none => none
    | some L' => some (L', L.length)

/-- The constructor of `Perversity`, `PhiPersistence.hh:81-93` (the values are `int`, none of the operations can
overflow). -/
def perversity (vs : List Int) : List Int :=
  vs.zipIdx.map fun (v, k) => if v < -1 then -1 else if v > (k : Int) then (k : Int) else v

/-- `Perversity::operator()(d)`, `PhiPersistence.hh:106-112`; `none` is undefined behaviour: for `d = 0` the
element at the largest index is accessed. -/
def perversityAt (p : List Int) (d : Nat) : Option Int :=
  if d < p.length + 1 then (if d = 0 then none else p[d - 1]?) else some 0

/-- The loop in the constructor of `PerversityGM`, `PhiPersistence.hh:149-153`, where `prev` is the previous,
already corrected value; the values are `unsigned`. -/
def perversityGMLoop : Nat → List Nat → List Nat
  | _, [] => []
  | prev, v :: vs =>
    let v' := if v ≠ prev ∧ v ≠ (prev + 1) % 2 ^ 32 then (prev + 1) % 2 ^ 32 else v
    v' :: perversityGMLoop v' vs

/-- The constructor of `PerversityGM`, `PhiPersistence.hh:146-154`. -/
def perversityGM : List Nat → List Nat
  | [] => []
  | v :: vs => v :: perversityGMLoop v vs

/-- `PerversityGM::operator()(d)`, `PhiPersistence.hh:167-173`; `none` is undefined behaviour for `d < 2`. -/
def perversityGMAt (p : List Nat) (d : Nat) : Option Nat :=
  if d < p.length + 2 then (if d < 2 then none else p[d - 2]?) else some 0

/-- The two classes of perversities that `calculateIntersectionHomology` can be called with, with their
members `_values`; the second one is detected by `is_goresky_macpherson_perversity`, `PhiPersistence.hh:187-189`. -/
inductive Perv where
  | general (values : List Int)
  | gm (values : List Nat)
deriving DecidableEq

/-- `long( p(k) )`. -/
def Perv.at : Perv → Nat → Option Int
  | .general p, k => perversityAt p k
  | .gm p, k => (perversityGMAt p k).map fun v => (v : Int)

/-- The first index of the loop `PhiPersistence.hh:299`. -/
def Perv.start : Perv → Nat
  | .general _ => 1
  | .gm _ => 2

/-- The callback of `lastLexicographicalIntersection`, `Intersections.hh:172-182`.  The constructor
`Simplex( first, last )` sets default data, which look-ups ignore; `d0` stands for it. -/
def probe (K : Complex α) (d0 : α) (res : Option (Simplex α)) (vs : List Nat) :
    Option (Simplex α) × Bool :=
  match K.find (Simplex.ofRange vs d0).vertices with
  | some t => (some t, true)
  | none => (res, false)

/-- The loop of `lastLexicographicalIntersection`, `Intersections.hh:169-189`, for the dimensions up to the first
argument.  `for_each_combination` permutes the vector of vertices.  A result is non-empty as soon as it is set, because
complexes cannot store the empty simplex. -/
def lastIntersectionLoop (K : Complex α) (d0 : α) : Nat → List Nat → Option (Simplex α)
  | 0, _ => none
  | d + 1, vs =>
    match Combine.forEach (probe K d0) (d + 1) vs none with
    | (some t, _, _) => some t
    | (none, _, vs') => lastIntersectionLoop K d0 d vs'

/-- `lastLexicographicalIntersection(K, s)`, `Intersections.hh:150-192`; `none` is the empty simplex. -/
def lastIntersection (K : Complex α) (s : Simplex α) : Option (Simplex α) :=
  lastIntersectionLoop K s.data s.size s.vertices

/-- The loop over `k` in `PhiPersistence.hh:299-319` for a simplex `s` of a complex of dimension `d`; `none` is the
exception of `X.at` or undefined behaviour of `p`. -/
def allowed (X : List (Complex α)) (p : Perv) (d : Nat) (s : Simplex α) : List Nat → Option Bool
  | [] => some true
  | k :: ks =>
    match p.at k with
    | none => none
    | some v =>
      if v - (k : Int) ≥ 0 then allowed X p d s ks
      else
        match X[d - k]? with
        | none => none
        | some x =>
          match lastIntersection x s with
          | none => allowed X p d s ks
          | some t =>
            if (Complex.dim t : Int) ≤ (Complex.dim s : Int) - (k : Int) + v then allowed X p d s ks
            else some false

/-- The value of `phi` for a simplex, `PhiPersistence.hh:294-321`. -/
def phi (X : List (Complex α)) (p : Perv) (d : Nat) (s : Simplex α) : Option Bool :=
  allowed X p d s (List.range' p.start (d + 1 - p.start))

/-- The map `phi` filled in `PhiPersistence.hh:287-323`. -/
def phiMap (X : List (Complex α)) (p : Perv) (d : Nat) (K : Complex α) :
    Option (List (List Nat × Bool)) :=
  K.mapM fun s =>
    match phi X p d s with
    | none => none
    | some b => some (s.vertices, b)

/-- `X.at(n-2) == X.at(n-3)` of complexes, `SimplicialComplex.hh:648-662`: the same simplices in the same order; data
is not compared. -/
def sameComplex (K L : Complex α) : Bool := K.map (·.vertices) == L.map (·.vertices)

/-- The checks for perversities of Goresky and MacPherson, `PhiPersistence.hh:250-261`; `false` if they throw. -/
def originalOK (X : List (Complex α)) : Perv → Bool
  | .general _ => true
  | .gm _ =>
    match X.reverse with
    | _ :: a :: b :: _ => sameComplex a b
    | _ => false

/-- The consistency checks `PhiPersistence.hh:250-283`; `none` if they throw, otherwise the dimension of `K`. -/
def consistent (K : Complex α) (X : List (Complex α)) (p : Perv) : Option Nat :=
  if originalOK X p then
    match K.dimension, X.mapM Complex.dimension with
    | some d, some ds => if ds.foldl max 0 = d then some d else none
    | _, _ => none
  else none

/-- `calculateIntersectionHomology(K, X, p, dualize)`, `PhiPersistence.hh:240-345`. -/
def calculateIntersectionHomology (a : Algorithm) (k : Kind) (inf : α) (K : Complex α)
    (X : List (Complex α)) (p : Perv) (dualize : Bool := true) : Option (List (Diagram α)) :=
  match consistent K X p with
  | none => none
  | some d =>
    match phiMap X p d K with
    | none => none
    | some m =>
      match partition K fun s => m.lookup s.vertices with
      | none => none
      | some (L, s) =>
        match makeBoundaryMatrix k L s with
        | none => none
        | some M =>
          match if dualize then M.dualize else some M with
          | none => none
          | some M' =>
            match calculatePersistencePairing a k M' true s with
            | none => none
            | some pairing => makePersistenceDiagrams inf pairing L

end PhiPersistence

end Aleph
