import Verif.Model.VietorisRipsExample
import Verif.Model.Witness

/-!
# The example `witness_complex`

Models `examples/witness_complex.cc`.

Simplifications: arithmetic is exact; `inf` is the infinite value of points that are never destroyed.  Messages on standard error are not modelled.
-/

namespace Aleph.WitnessExample

open VietorisRipsExample (Failure squared)

variable {α : Type}

/-- The data type (`witness_complex.cc:68`): its infinite value, its largest and its smallest number, its square root (`Euclidean.hh:161-164`), `utilities::convert`,
`std::stod` and `std::stoul` followed by a conversion to `unsigned` (`none` is an exception), the conversion to `std::size_t` (`none` is undefined), and the output of numbers. -/
structure Context (α : Type) where
  inf : α
  top : α
  bot : α
  root : α → α
  convert : List Char → α
  stod : List Char → Option α
  stoul : List Char → Option ℕ
  truncate : α → Option ℕ
  print : α → List Char

/-- The options, `witness_complex.cc:72-79`, with their arguments; any other option is skipped. -/
inductive Opt
  | landmarks (word : List Char)
  | nu (word : List Char)
  | radius (word : List Char)
  | random
  | unknown

/-- The variables that are set by options, `witness_complex.cc:81-85`. -/
structure Settings (α : Type) where
  fraction : α
  nu : ℕ
  radius : α
  random : Bool

/-- The cases of the `switch`, `witness_complex.cc:91-105`; `none` is an exception. -/
def setOption (c : Context α) (s : Settings α) : Opt → Option (Settings α)
  | .landmarks word => (c.stod word).map fun x => { s with fraction := x }
  | .nu word => (c.stoul word).map fun n => { s with nu := n }
  | .radius word => (c.stod word).map fun x => { s with radius := x }
  | .random => some { s with random := true }
  | .unknown => some s

/-- The loop over all options, `witness_complex.cc:81-107`. -/
def settings [Field α] (c : Context α) (opts : List Opt) : Option (Settings α) := opts.foldlM (setOption c) ⟨1 / 10, 2, 0, false⟩

/-- Reading of the points, `witness_complex.cc:120`.  A file that cannot be opened yields an empty point cloud (`PointCloud.hh:233-234`). -/
def loadPoints [Zero α] (c : Context α) (text : Option (List Char)) : Except Failure (PointCloud α) :=
  match text with
  | none => .ok PointCloud.empty
  | some text =>
    match PointCloud.load c.convert text with
    | none => .error .exception
    | some pc => .ok pc

/-- The dimension, `witness_complex.cc:121, 124-125`; `rest` are the arguments behind the name of the file.  It is taken from the second argument only if there is a third one. -/
def dimensionOf (c : Context α) (d : ℕ) : List (List Char) → Except Failure ℕ
  | word :: _ :: _ =>
    match c.stoul word with
    | none => .error .exception
    | some k => .ok k
  | _ => .ok (d + 1)

/-- The landmarks, `witness_complex.cc:127-148`.  `shuffle` is the result of a random shuffle, `first` a random index.  Too many landmarks raise an exception for one strategy, and
lead to undefined behaviour for the other one.  Distances are compared without taking the root (`WitnessComplex.hh:285`). -/
def landmarksOf [Ring α] [LinearOrder α] (c : Context α) (shuffle : List ℕ → List ℕ) (first : ℕ) (random : Bool) (pc : PointCloud α) (m : ℕ) : Except Failure (List ℕ) :=
  if random then
    match Witness.randomLandmarks shuffle pc.n m with
    | none => .error .undefined
    | some l => .ok l
  else
    match Witness.maxMinLandmarks c.top c.bot pc.n (squared pc) first m with
    | none => .error .exception
    | some l => .ok l

/-- The diagrams, `witness_complex.cc:120-187`. -/
def diagrams [Field α] [LinearOrder α] (c : Context α) (o : Orders α) (shuffle : List ℕ → List ℕ) (first : ℕ) (s : Settings α) (text : Option (List Char))
    (rest : List (List Char)) : Except Failure (List (Diagram α)) := do
  let pc ← loadPoints c text
  match c.truncate (pc.n * s.fraction) with
  | none => .error .undefined
  | some m =>
    let k ← dimensionOf c pc.d rest
    let landmarks ← landmarksOf c shuffle first s.random pc m
    match Witness.build o c.top pc.n pc.d (fun i j => c.root (squared pc i j)) landmarks k s.nu s.radius with
    | none => .error .undefined
    | some K =>
      match calculatePersistenceDiagrams .twist .vector c.inf K with
      | none => .error .exception
      | some Ds => .ok Ds

/-- The output for a diagram, `witness_complex.cc:196-208`. -/
def diagramBlock [DecidableEq α] (c : Context α) (input : List Char) (D : Diagram α) : List Char :=
  let D := D.removeDiagonal
  "# Persistence diagram <".toList ++ input ++ ">\n#\n# Dimension: ".toList ++ Utilities.decimal D.dimension ++ "\n# Entries  : ".toList ++
    Utilities.decimal D.points.length ++ "\n".toList ++ D.points.flatMap (fun p => c.print p.1 ++ ['\t'] ++ c.print p.2 ++ ['\n']) ++ "\n\n".toList

/-- `main`, `witness_complex.cc:63-210`: the result and the output. -/
def main [Field α] [LinearOrder α] (c : Context α) (o : Orders α) (shuffle : List ℕ → List ℕ) (first : ℕ) (files : List Char → Option (List Char)) (opts : List Opt)
    (names : List (List Char)) : Except Failure (ℤ × List Char) :=
  match settings c opts with
  | none => .error .exception
  | some s =>
    match names with
    | [] => .ok (-1, [])
    | [_] => .ok (-1, [])
    | input :: second :: rest =>
      match diagrams c o shuffle first s (files input) (second :: rest) with
      | .error e => .error e
      | .ok Ds => .ok (0, Ds.flatMap (diagramBlock c input))

end Aleph.WitnessExample
