import Verif.Model.Distances
import Verif.Model.PointCloud
import Verif.Model.Conversions
import Verif.Model.Rips
import Verif.Model.Utilities

/-!
# The example `vietoris_rips`

Models `examples/vietoris_rips.cc`, compiled without FLANN.

Simplifications: arithmetic is exact; `inf` is the infinite value of points that are never destroyed.  Messages on standard error are not modelled.
-/

namespace Aleph.VietorisRipsExample

variable {α : Type}

/-- What may happen instead of an ordinary end of the program. -/
inductive Failure
  | exception
  | undefined
  deriving DecidableEq

/-- The data type (`vietoris_rips.cc:113`): its infinite value, its square root (`Euclidean.hh:161-164`), `utilities::convert`, `std::stoul` followed by a conversion to
`unsigned` (`none` is an exception), and the output of numbers, where `none` is not a number. -/
structure Context (α : Type) where
  inf : α
  root : α → α
  convert : List Char → α
  stoul : List Char → Option ℕ
  print : Option α → List Char

/-- The options, `vietoris_rips.cc:66-72`; any other option is skipped. -/
inductive Opt
  | keep
  | normalize
  | tail
  | unknown

/-- The variables that are set by options, `vietoris_rips.cc:61-63`. -/
structure Settings where
  keep : Bool
  normalize : Bool
  tail : Bool

/-- The cases of the `switch`, `vietoris_rips.cc:77-93`. -/
def setOption (s : Settings) : Opt → Settings
  | .keep => { s with keep := true }
  | .normalize => { s with normalize := true }
  | .tail => { s with tail := true }
  | .unknown => s

/-- The loop over all options, `vietoris_rips.cc:61-95`. -/
def settings (opts : List Opt) : Settings := opts.foldl setOption ⟨false, false, false⟩

/-- Standard input, and whether it is possible to return to its beginning (it is a file instead of a pipe or a terminal). -/
structure Stdin where
  text : List Char
  seekable : Bool

/-- Reading of the points, `vietoris_rips.cc:117-129`.  A file that cannot be opened yields an empty point cloud (`PointCloud.hh:233-234`).  If it is not possible to return to
the beginning of a stream (`PointCloud.hh:241, 260`), then nothing is read from it after its lines have been counted. -/
def loadPoints [Zero α] (c : Context α) (files : List Char → Option (List Char)) (stdin : Stdin) (input : List Char) : Except Failure (PointCloud α) :=
  let text := if input = ['-'] then (if stdin.seekable then some stdin.text else none) else files input
  match text with
  | none => .ok PointCloud.empty
  | some text =>
    match PointCloud.load c.convert text with
    | none => .error .exception
    | some pc => .ok pc

/-- The distance functor for two points of the cloud, `vietoris_rips.cc:115, 214`.  All points have the dimension of the cloud, so that no coordinates are missing. -/
def squared [Ring α] (pc : PointCloud α) (i j : ℕ) : α := (Distances.euclidean (-1) ((pc.get i).getD []) ((pc.get j).getD [])).getD 0

/-- The distance that is used for the complex, `BruteForce.hh:60-64`. -/
def distance [Ring α] (c : Context α) (pc : PointCloud α) (i j : ℕ) : α := c.root (squared pc i j)

/-- The arguments behind the first one, `vietoris_rips.cc:131-141`: the threshold and the dimension.  A missing threshold is a null pointer. -/
def arguments (c : Context α) (d : ℕ) : List (List Char) → Except Failure (α × ℕ)
  | [] => .error .undefined
  | [epsilon] => .ok (c.convert epsilon, d + 1)
  | epsilon :: dimension :: _ =>
    match c.stoul dimension with
    | none => .error .exception
    | some k => .ok (c.convert epsilon, k)

/-- `maxDistance`, `vietoris_rips.cc:201-217`. -/
def maxDistance [Ring α] [LinearOrder α] (pc : PointCloud α) : α :=
  (List.range pc.n).foldl (fun m i => ((List.range pc.n).drop (i + 1)).foldl (fun m j => max m (squared pc i j)) m) 0

/-- A quotient; zero divided by zero is not a number.  Nothing else is divided by zero: if the largest distance is zero, then so are all coordinates that are not infinite. -/
def quotient [Field α] [DecidableEq α] (x m : α) : Option α := if m = 0 then none else some (x / m)

/-- The coordinates of a point for the output, `vietoris_rips.cc:232-243`. -/
def shown [Field α] [LinearOrder α] (c : Context α) (s : Settings) (m : α) (p : α × α) : Option α × Option α :=
  if s.normalize then
    if p.2 = c.inf then (quotient p.1 m, some 1) else (quotient p.1 m, quotient p.2 m)
  else (some p.1, some p.2)

/-- The output for a diagram, `vietoris_rips.cc:223-259`. -/
def diagramBlock [Field α] [LinearOrder α] (c : Context α) (s : Settings) (m : α) (input : List Char) (D : Diagram α) : List Char :=
  let D := if s.keep then D else D.removeDiagonal
  let points := D.points.map (shown c s m)
  "# Persistence diagram <".toList ++ input ++ ">\n#\n# Dimension: ".toList ++ Utilities.decimal D.dimension ++ "\n# Entries  : ".toList ++
    Utilities.decimal points.length ++ "\n".toList ++ points.flatMap (fun p => c.print p.1 ++ ['\t'] ++ c.print p.2 ++ ['\n']) ++ "\n\n".toList

/-- The loop over all diagrams, `vietoris_rips.cc:221-261`. -/
def blocks [Field α] [LinearOrder α] (c : Context α) (s : Settings) (m : α) (input : List Char) (Ds : List (Diagram α)) : List Char :=
  Ds.zipIdx.flatMap fun Di => if Di.2 + 1 = Ds.length ∨ s.tail = false then diagramBlock c s m input Di.1 else []

/-- The diagrams, `vietoris_rips.cc:117-196`, together with the points. -/
def diagrams [Field α] [LinearOrder α] (c : Context α) (o : Orders α) (files : List Char → Option (List Char)) (stdin : Stdin) (input : List Char) (rest : List (List Char)) :
    Except Failure (PointCloud α × List (Diagram α)) := do
  let pc ← loadPoints c files stdin input
  let (epsilon, k) ← arguments c pc.d rest
  match Rips.buildVietorisRips o 0 pc.n (distance c pc) epsilon k with
  | none => .error .exception
  | some K =>
    match calculatePersistenceDiagrams .twist .vector c.inf K with
    | none => .error .exception
    | some Ds => .ok (pc, Ds)

/-- `main`, `vietoris_rips.cc:59-262`: the result and the output. -/
def main [Field α] [LinearOrder α] (c : Context α) (o : Orders α) (files : List Char → Option (List Char)) (stdin : Stdin) (opts : List Opt) (names : List (List Char)) :
    Except Failure (ℤ × List Char) :=
  let s := settings opts
  match names with
  | [] => .ok (-1, [])
  | input :: rest =>
    match diagrams c o files stdin input rest with
    | .error e => .error e
    | .ok (pc, Ds) => .ok (0, blocks c s (maxDistance pc) input Ds)

end Aleph.VietorisRipsExample
