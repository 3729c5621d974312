import Verif.Model.Complex
import Verif.Model.Diagram
import Verif.Model.Reduction

/-!
# From complexes to matrices and from pairings to diagrams

Models
* `include/aleph/topology/Conversions.hh`
* `include/aleph/persistenceDiagrams/Calculation.hh`
* `calculatePersistenceDiagrams`, `calculatePersistenceDiagram` in
  `include/aleph/persistentHomology/Calculation.hh`
-/

namespace Aleph

variable {α : Type}

/-- The map `simplex_to_index`, `Conversions.hh:44-51`, accessed with `operator[]` in line 66: a
simplex that is not stored yields a default-constructed index `0`. -/
def indexOrZero (K : Complex α) (vs : List Nat) : Nat := (K.index vs).getD 0

/-- Body of the loop `Conversions.hh:55-75` for the simplex `s` at position `j`. -/
def boundaryStep (k : Kind) (K : Complex α) (max : Nat) (r : Rep) (sj : Simplex α × Nat) :
    Option Rep :=
  if max = 0 ∨ sj.2 < max then r.setColumn k sj.2 (sj.1.faces.map (indexOrZero K))
  else
    match sj.1.dimension with
    | none => none
    | some d => r.setDimension sj.2 d

/-- `makeBoundaryMatrix(K, max)`, `Conversions.hh:28-78`. -/
def makeBoundaryMatrix (k : Kind) (K : Complex α) (max : Nat := 0) : Option BM :=
  (K.zipIdx.foldlM (boundaryStep k K max) (Rep.empty.setNumColumns K.length)).map fun r => ⟨r, false⟩

/-- `std::map<std::size_t, PersistenceDiagram>` as a list with ascending keys; adds a point to
the diagram with key `d`, creating it if necessary (`persistenceDiagrams/Calculation.hh:45-50`). -/
def diagramMapAdd (d : Nat) (p : α × α) : List (Nat × List (α × α)) → List (Nat × List (α × α))
  | [] => [(d, [p])]
  | (e, l) :: m =>
    if d < e then (d, [p]) :: (e, l) :: m
    else if d = e then (e, l ++ [p]) :: m
    else (e, l) :: diagramMapAdd d p m

/-- The point added for a pair, `persistenceDiagrams/Calculation.hh:35-50`, with the dimension of the creator; `none`
if `K.at(i)` throws. -/
def diagramPoint (inf : α) (K : Complex α) (ij : Nat × Nat) : Option (Nat × (α × α)) :=
  match K.get ij.1 with
  | none => none
  | some s =>
    match s.dimension with
    | none => none
    | some d =>
      some (d, (s.data, match K.get ij.2 with
        | some t => t.data
        | none => inf))

/-- `makePersistenceDiagrams(pairing, K)`, `persistenceDiagrams/Calculation.hh:21-71`. -/
def makePersistenceDiagrams (inf : α) (pairing : List (Nat × Nat)) (K : Complex α) :
    Option (List (Diagram α)) :=
  match pairing.foldlM (fun m ij =>
      match diagramPoint inf K ij with
      | none => none
      | some (d, p) => some (diagramMapAdd d p m)) ([] : List (Nat × List (α × α))) with
  | none => none
  | some m => some ((m.map fun (d, l) => (⟨d, l⟩ : Diagram α)).insertionSort
      fun D E => D.dimension ≤ E.dimension)

/-- The point of a pair of indices of function values, `persistenceDiagrams/Calculation.hh:93-96`; `none` if
`at` throws. -/
def functionPoint (values : List α) (ij : Nat × Nat) : Option (α × α) :=
  match values[ij.1]?, values[ij.2]? with
  | some x, some y => some (x, y)
  | _, _ => none

/-- `makePersistenceDiagram(pairing, functionValues)`, `persistenceDiagrams/Calculation.hh:79-100`. -/
def makePersistenceDiagram (pairing : List (Nat × Nat)) (values : List α) : Option (Diagram α) :=
  match pairing.mapM (functionPoint values) with
  | none => none
  | some l => some ⟨0, l⟩

/-- `calculatePersistenceDiagrams(K, dualize, includeAllUnpairedCreators)`,
`persistentHomology/Calculation.hh:167-179`. -/
def calculatePersistenceDiagrams (a : Algorithm) (k : Kind) (inf : α) (K : Complex α)
    (dualize : Bool := true) (inc : Bool := false) : Option (List (Diagram α)) :=
  match makeBoundaryMatrix k K with
  | none => none
  | some M =>
    match if dualize then M.dualize else some M with
    | none => none
    | some M' =>
      match calculatePersistencePairing a k M' inc with
      | none => none
      | some p => makePersistenceDiagrams inf p K

end Aleph
