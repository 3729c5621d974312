import Verif.Model.FunctionAnalysis
import Verif.Model.Sampling
import Verif.Model.VietorisRipsExample

/-!
# The example `create_persistence_diagrams`

Models `examples/create_persistence_diagrams.cc`.  Every call of a function that creates a diagram has its own sequences of random numbers.

Simplifications: numbers are real; `inf` is the infinite value of points that are never destroyed.  Messages on standard error are not modelled, neither are the files of a program that is ended by
an exception.  Every output file can be opened.
-/

namespace Aleph.CreateDiagrams

open VietorisRipsExample (squared)

/-- What may happen instead of an ordinary end of the program: an exception, undefined behaviour, or too many iterations. -/
inductive Failure
  | exception
  | undefined
  | fuel
  deriving DecidableEq

/-- The infinite value, the output of numbers, `std::stoul` followed by a conversion to `unsigned`, and `std::stod` (`none` is an exception). -/
structure Context where
  inf : ℝ
  print : ℝ → List Char
  stoul : List Char → Option ℕ
  stod : List Char → Option ℝ

/-- The options, `create_persistence_diagrams.cc:189-200`, with their arguments; any other option is skipped. -/
inductive Opt
  | d (word : List Char)
  | m (word : List Char)
  | n (word : List Char)
  | R (word : List Char)
  | r (word : List Char)
  | box
  | sphere
  | torus
  | output
  | unknown

/-- What is sampled, `create_persistence_diagrams.cc:208-210`: at most one of the three flags is set. -/
inductive Shape
  | box
  | sphere
  | torus
  | none
  deriving DecidableEq

/-- The variables that are set by options, `create_persistence_diagrams.cc:202-212`. -/
structure Settings where
  d : ℕ
  m : ℕ
  n : ℕ
  R : ℝ
  r : ℝ
  shape : Shape
  output : Bool

/-- The cases of the `switch`, `create_persistence_diagrams.cc:217-254`; `none` is an exception. -/
def setOption (c : Context) (s : Settings) : Opt → Option Settings
  | .d word => (c.stoul word).map fun x => { s with d := x }
  | .m word => (c.stoul word).map fun x => { s with m := x }
  | .n word => (c.stoul word).map fun x => { s with n := x }
  | .R word => (c.stod word).map fun x => { s with R := x }
  | .r word => (c.stod word).map fun x => { s with r := x }
  | .box => some { s with shape := .box }
  | .sphere => some { s with shape := .sphere }
  | .torus => some { s with shape := .torus }
  | .output => some { s with output := true }
  | .unknown => some s

/-- The initial values and the loop over all options, `create_persistence_diagrams.cc:202-255`. -/
noncomputable def settings (c : Context) (opts : List Opt) : Option Settings := opts.foldlM (setOption c) ⟨3, 50, 50, 1 / 2, 1 / 4, .none, false⟩

/-- `createRandomPersistenceDiagram`, `create_persistence_diagrams.cc:63-83`. -/
noncomputable def createRandomPersistenceDiagram (draw : ℕ → ℝ) (n : ℕ) : Diagram ℝ :=
  (List.range n).foldl (fun D i =>
    let x := draw (2 * i)
    let y := draw (2 * i + 1)
    if x > y then D.add y x else D.add x y) Diagram.empty

/-- The distances for the complex, `BruteForce.hh:60-64`. -/
noncomputable def distance (pc : PointCloud ℝ) (i j : ℕ) : ℝ := Real.sqrt (squared pc i j)

/-- The complex of a point cloud and its diagrams, `create_persistence_diagrams.cc:111-117, 142-148, 172-178`. -/
noncomputable def ripsDiagrams (c : Context) (o : Orders ℝ) (pc : PointCloud ℝ) (ε : ℝ) (k : ℕ) : Except Failure (List (Diagram ℝ)) :=
  match Rips.buildVietorisRips o 0 pc.n (distance pc) ε k with
  | none => .error .exception
  | some K =>
    match calculatePersistenceDiagrams .twist .vector c.inf K with
    | none => .error .exception
    | some Ds => .ok Ds

/-- The loop that draws points, `create_persistence_diagrams.cc:101-109`. -/
noncomputable def boxPoints (draw : ℕ → ℝ) (n : ℕ) : Option (PointCloud ℝ) :=
  (List.range n).foldlM (fun pc i => pc.set i [draw (3 * i), draw (3 * i + 1), draw (3 * i + 2)]) (PointCloud.make n 3)

/-- `createRandomBoxPersistenceDiagrams`, `create_persistence_diagrams.cc:93-123`. -/
noncomputable def createRandomBoxPersistenceDiagrams (c : Context) (o : Orders ℝ) (draw : ℕ → ℝ) (r : ℝ) (n d : ℕ) : Except Failure (List (Diagram ℝ)) :=
  match boxPoints draw n with
  | none => .error .exception
  | some pc =>
    match ripsDiagrams c o pc (7 / 10 * r) d with
    | .error e => .error e
    | .ok Ds => .ok (Ds.map Diagram.removeDiagonal)

/-- `diagrams.at(1)`, without points on the diagonal, `create_persistence_diagrams.cc:150-154, 180-184`. -/
noncomputable def second (Ds : List (Diagram ℝ)) : Except Failure (Diagram ℝ) :=
  match Ds[1]? with
  | none => .error .exception
  | some D => .ok D.removeDiagonal

/-- `createRandomTorusPersistenceDiagram`, `create_persistence_diagrams.cc:135-155`; `x`, `y` and `psi` are the sequences of random numbers. -/
noncomputable def createRandomTorusPersistenceDiagram (c : Context) (o : Orders ℝ) (x y psi : ℕ → ℝ) (fuel : ℕ) (R r : ℝ) (n : ℕ) : Except Failure (Diagram ℝ) :=
  match Sampling.torusRejectionSampling R r n x y psi fuel with
  | none => .error .fuel
  | some angles =>
    match Sampling.makeTorus angles R r with
    | none => .error .exception
    | some pc =>
      match ripsDiagrams c o pc (1 / 2 * R) 2 with
      | .error e => .error e
      | .ok Ds => second Ds

/-- `createRandomSpherePersistenceDiagram`, `create_persistence_diagrams.cc:165-185`. -/
noncomputable def createRandomSpherePersistenceDiagram (c : Context) (o : Orders ℝ) (draw : ℕ → ℝ) (r : ℝ) (n : ℕ) : Except Failure (Diagram ℝ) :=
  match Sampling.makeSphere (Sampling.sphereSampling draw n) r 0 0 0 with
  | none => .error .exception
  | some pc =>
    match ripsDiagrams c o pc r 2 with
    | .error e => .error e
    | .ok Ds => second Ds

/-- The random numbers of one round. -/
structure Draws where
  uniform : ℕ → ℝ
  x : ℕ → ℝ
  y : ℕ → ℝ
  psi : ℕ → ℝ

/-- The diagrams of one round, `create_persistence_diagrams.cc:269-279`: the list `pds` and the diagram `pd`. -/
noncomputable def create (c : Context) (o : Orders ℝ) (s : Settings) (w : Draws) (fuel : ℕ) : Except Failure (List (Diagram ℝ) × Diagram ℝ) :=
  match s.shape with
  | .box => (createRandomBoxPersistenceDiagrams c o w.uniform s.r s.m s.d).map fun Ds => (Ds, Diagram.empty)
  | .sphere => (createRandomSpherePersistenceDiagram c o w.uniform s.r s.m).map fun D => ([], D)
  | .torus => (createRandomTorusPersistenceDiagram c o w.x w.y w.psi fuel s.R s.r s.m).map fun D => ([], D)
  | .none => .ok ([], createRandomPersistenceDiagram w.uniform s.m)

/-- The number in the name of a file, `create_persistence_diagrams.cc:289, 300`: the same as `format`. -/
noncomputable def number (i n : ℕ) : Except Failure (List Char) :=
  match Utilities.format i n '0' with
  | none => .error .undefined
  | some t => .ok t

/-- The files of one round, `create_persistence_diagrams.cc:281-306`: names and contents. -/
noncomputable def filesOf (c : Context) (n i : ℕ) (pds : List (Diagram ℝ)) (pd : Diagram ℝ) : Except Failure (List (List Char × List Char)) :=
  match number i n with
  | .error e => .error e
  | .ok t =>
    if pds ≠ [] then
      .ok (pds.map fun pd => ("/tmp/".toList ++ t ++ "_d".toList ++ Utilities.decimal pd.dimension ++ ".txt".toList, FunctionAnalysis.diagramText c.print pd ++ ['\n']))
    else .ok [("/tmp/".toList ++ t ++ ".txt".toList, FunctionAnalysis.diagramText c.print pd ++ ['\n'])]

/-- One round, `create_persistence_diagrams.cc:267-307`. -/
noncomputable def round (c : Context) (o : Orders ℝ) (s : Settings) (w : Draws) (fuel i : ℕ) : Except Failure (List (List Char × List Char)) :=
  match create c o s w fuel with
  | .error e => .error e
  | .ok (pds, pd) => if s.output then filesOf c s.n i pds pd else .ok []

/-- `main`, `create_persistence_diagrams.cc:187-308`: names and contents of all files, in the order in which they are written. -/
noncomputable def main (c : Context) (o : Orders ℝ) (w : ℕ → Draws) (fuel : ℕ) (opts : List Opt) : Except Failure (List (List Char × List Char)) :=
  match settings c opts with
  | none => .error .exception
  | some s => ((List.range s.n).mapM fun i => round c o s (w i) fuel i).map List.flatten

end Aleph.CreateDiagrams
