import Verif.Model.Barycentric
import Verif.Model.PhiPersistence
import Verif.Model.TriangulationReader

/-!
# The tool `wicked_triangulations`

Models `src/tools/wicked_triangulations.cc`.  The data of simplices have the type `bool`; they are `false` for all simplices that
are read from a file, and unpaired points of a diagram have `true`, the largest value, as their destruction value.
Simplifications: vertices are natural numbers (they have the type `unsigned short`), and Betti numbers do not overflow.
-/

namespace Aleph.WickedTriangulations

open TriangulationReader (Failure)

/-- The default data of a simplex, `Simplex.hh`. -/
instance : Zero Bool := ⟨false⟩

/-- The product of two values of the type `bool`, converted to this type again. -/
instance : Mul Bool := ⟨fun a b => a && b⟩

/-- The value that stands for an infinite destruction value: the type `bool` has no infinity, its maximum is used. -/
def inf : Bool := true

/-- `Signature::eulerCharacteristic`, `wicked_triangulations.cc:49-61`. -/
def eulerCharacteristic (signature : List ℕ) : ℤ :=
  (signature.foldl (fun (cs : ℤ × Bool) (betti : ℕ) => (if cs.2 then cs.1 + betti else cs.1 - betti, !cs.2)) (0, true)).1

/-- `makeSignature`, `wicked_triangulations.cc:95-108`; `none` is the exception of `at`. -/
def makeSignature (diagrams : List (Diagram Bool)) (D : ℕ) : Option (List ℕ) :=
  diagrams.foldlM (fun bettiNumbers diagram =>
    if diagram.dimension < bettiNumbers.length then some (bettiNumbers.set diagram.dimension (diagram.betti inf)) else none)
    (List.replicate (D + 1) 0)

/-- `possibleValues[d]`, `wicked_triangulations.cc:119-132`. -/
def possibleValues (d : ℕ) : List ℤ := (List.range (d + 2)).map fun (k : ℕ) => (k : ℤ) - 1

/-- The number of combinations, `wicked_triangulations.cc:134-137`; `word` is the number of values of the type `std::size_t`. -/
def numCombinations (word dimension : ℕ) : ℕ :=
  (List.range dimension).foldl (fun n d => n * (possibleValues d).length % word) 1

/-- The update of the indices, `wicked_triangulations.cc:156-179`, for the positions below the first argument, starting with the last one. -/
def propagate : ℕ → List ℕ → List ℕ
  | 0, indices => indices
  | D + 1, indices =>
    let index := indices.getD D 0 + 1
    if index < (possibleValues D).length then indices.set D index else propagate D (indices.set D 0)

/-- The values of a perversity, `wicked_triangulations.cc:148-154`; `none` is the exception of `at`. -/
def valuesAt (dimension : ℕ) (indices : List ℕ) : Option (List ℤ) :=
  (List.range dimension).mapM fun d => indices[d]?.bind fun index => (possibleValues d)[index]?

/-- The loop over all combinations, `wicked_triangulations.cc:146-182`, for the given number of rounds.  For the dimension zero, `dimension - 1` is the largest number
of its type, and the access to the indices at this position throws. -/
def combinations (dimension : ℕ) : ℕ → List ℕ → Option (List (List ℤ))
  | 0, _ => some []
  | n + 1, indices =>
    match valuesAt dimension indices with
    | none => none
    | some values =>
      if dimension = 0 then none
      else
        match combinations dimension n (propagate dimension indices) with
        | none => none
        | some rest => some (PhiPersistence.perversity values :: rest)

/-- `getPerversities`, `wicked_triangulations.cc:115-185`. -/
def getPerversities (word dimension : ℕ) : Option (List (List ℤ)) :=
  combinations dimension (numCombinations word dimension) (List.replicate dimension 0)

/-- The preparation of a complex, `wicked_triangulations.cc:204-208`. -/
def prepare (K : Complex Bool) : Option (Complex Bool) := K.createMissingFaces.map Complex.sortLex

/-- The Betti numbers of a complex, `wicked_triangulations.cc:225-234`, with the default algorithm and the default representation (`config/Defaults.hh`). -/
def homology (K : Complex Bool) : Option (List ℕ) :=
  match calculatePersistenceDiagrams .twist .vector inf K true true with
  | none => none
  | some diagrams =>
    match K.dimension with
    | none => none
    | some D => makeSignature diagrams D

/-- The skeletons of a complex of dimension `D`, `wicked_triangulations.cc:277-282`. -/
def skeletons (K : Complex Bool) (D : ℕ) : Option (List (Complex Bool)) := (List.range (D + 1)).mapM fun d => skeleton d K

/-- The Betti numbers of intersection homology for one perversity, `wicked_triangulations.cc:315-316`. -/
def intersection (L : Complex Bool) (strata : List (Complex Bool)) (D : ℕ) (perversity : List ℤ) : Option (List ℕ) :=
  match PhiPersistence.calculateIntersectionHomology .twist .vector inf L strata (.general perversity) with
  | none => none
  | some diagrams => makeSignature diagrams D

/-- The perversities and Betti numbers for a complex, `wicked_triangulations.cc:277-334`.  The cache of perversities has no effect on them.  `byDimension` lists the simplices in the order of their dimension,
`order` describes the unspecified order of a map in the calculation of the subdivision; the functor for weights is constant. -/
def intersections (word : ℕ) (byDimension : Complex Bool → Complex Bool)
    (order : List (List ℕ × List (Simplex Bool)) → List (List ℕ × List (Simplex Bool))) (K : Complex Bool) : Option (List (List ℤ × List ℕ)) :=
  match K.dimension with
  | none => none
  | some D =>
    match skeletons K D with
    | none => none
    | some strata =>
      match Barycentric.subdivide (fun _ => true) (byDimension K) order K with
      | none => none
      | some L =>
        match getPerversities word D with
        | none => none
        | some perversities => perversities.mapM fun p => (intersection L strata D p).map fun s => (p, s)

/-- The output of a natural number. -/
def printNat (n : ℕ) : List Char := Nat.toDigits 10 n

/-- The output of an integer. -/
def printInt (z : ℤ) : List Char := if z < 0 then '-' :: printNat z.natAbs else printNat z.natAbs

/-- Texts with commas between them. -/
def commas : List (List Char) → List Char
  | [] => []
  | [t] => t
  | t :: ts => t ++ ',' :: commas ts

/-- `operator<<` for signatures, `wicked_triangulations.cc:72-87`. -/
def signatureText (s : List ℕ) : List Char := '[' :: commas (s.map printNat) ++ [']']

/-- `operator<<` for perversities, `PhiPersistence.hh:191-206`. -/
def perversityText (p : List ℤ) : List Char := '[' :: commas (p.map printInt) ++ [']']

/-- `level`, `wicked_triangulations.cc:216`. -/
def level : List Char := [' ', ' ']

/-- The entries of a JSON object with their indices as keys, `wicked_triangulations.cc:221-246, 307-331, 275-344`: there is a comma after each entry but the last one. -/
def entries (indent : List Char) (body : α → List Char) : ℕ → List α → List Char
  | _, [] => []
  | index, [x] => indent ++ '"' :: printNat index ++ ['"', ':'] ++ level ++ ['{', '\n'] ++ body x ++ indent ++ ['}', '\n']
  | index, x :: xs => indent ++ '"' :: printNat index ++ ['"', ':'] ++ level ++ ['{', '\n'] ++ body x ++ indent ++ ['}', ',', '\n'] ++ entries indent body (index + 1) xs

/-- The part of the output for the homology of a complex, `wicked_triangulations.cc:236-237`. -/
def homologyText (s : List ℕ) : List Char :=
  level ++ level ++ level ++ "\"betti\":".toList ++ level ++ signatureText s ++ [',', '\n'] ++
    level ++ level ++ level ++ "\"euler\":".toList ++ level ++ printInt (eulerCharacteristic s) ++ ['\n']

/-- The part of the output for a perversity, `wicked_triangulations.cc:318-319`. -/
def perversityEntry (e : List ℤ × List ℕ) : List Char :=
  level ++ level ++ level ++ level ++ "\"perversity\":".toList ++ level ++ perversityText e.1 ++ [',', '\n'] ++
    level ++ level ++ level ++ level ++ "\"betti\":".toList ++ level ++ signatureText e.2 ++ ['\n']

/-- The output, `wicked_triangulations.cc:218-347`. -/
def output (homologies : List (List ℕ)) (intersections : List (List (List ℤ × List ℕ))) : List Char :=
  ['{', '\n'] ++ level ++ "\"homology\":".toList ++ level ++ ['{', '\n'] ++
    entries (level ++ level) homologyText 0 homologies ++
    level ++ ['}', ',', '\n'] ++ level ++ "\"intersection_homology\":".toList ++ level ++ ['{', '\n'] ++
    entries (level ++ level) (entries (level ++ level ++ level) perversityEntry 0) 0 intersections ++
    level ++ ['}', '\n', '}', '\n']

/-- `main`, `wicked_triangulations.cc:187-348`: the status and the output.  `arguments` does not contain the name of the program; further arguments are ignored. -/
def main (word : ℕ) (convert : List Char → ℕ) (fuel : ℕ) (byDimension : Complex Bool → Complex Bool)
    (order : List (List ℕ × List (Simplex Bool)) → List (List ℕ × List (Simplex Bool)))
    (files : List Char → Option (List Char)) (arguments : List (List Char)) : Except Failure (ℤ × List Char) :=
  match arguments with
  | [] => .ok (-1, [])
  | filename :: _ =>
    match TriangulationReader.readFile convert fuel (files filename) with
    | .error e => .error e
    | .ok complexes =>
      match complexes.mapM prepare with
      | none => .error .exception
      | some complexes =>
        match complexes.mapM homology, complexes.mapM (intersections word byDimension order) with
        | some h, some i => .ok (0, output h i)
        | _, _ => .error .exception

end Aleph.WickedTriangulations
