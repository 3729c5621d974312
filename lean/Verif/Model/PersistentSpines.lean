import Verif.Model.Cech
import Verif.Model.PointCloud
import Verif.Model.Spine
import Verif.Model.Tikz
import Mathlib.Analysis.Real.Sqrt
import Mathlib.Data.Rat.Cast.CharZero

/-!
# The tool `persistent_spines`

Models `src/tools/persistent_spines.cc`, and the output operators for simplices and complexes.

Simplifications: coordinates are real numbers, and radii are rational ones.  Messages on standard error are not modelled.
-/

namespace Aleph.PersistentSpines

noncomputable section

open Tikz (Failure)

/-- Conversions of words: `utilities::convert` for files and `std::stod` for options (`none` is an exception), the output of coordinates and of the numbers of a style, the squared radius of the smallest
ball that contains some points of a dimension (the external library `Miniball`), and the order of the unordered maps of the algorithms for spines. -/
structure Context where
  convert : List Char → ℝ
  stod : List Char → Option ℚ
  print : ℝ → List Char
  number : ℚ → List Char
  ball : ℕ → List (List ℝ) → ℝ
  pick : ℕ → ℕ

/-- The options, `persistent_spines.cc:45-51`; other options are skipped.  Only the long option for the method has an argument, see the string `"r:st"`. -/
inductive Opt
  | radius (word : List Char)
  | method (word : List Char)
  | methodShort
  | tikz
  | unknown

/-- The variables that are set by options, `persistent_spines.cc:39-41`. -/
structure Settings where
  method : List Char
  radius : ℚ
  tikz : Bool

/-- The cases of the `switch`, `persistent_spines.cc:56-67`.  The argument is a null pointer for the short option, and its conversion to a string is not defined. -/
def setOption (c : Context) (s : Settings) : Opt → Except Failure Settings
  | .radius word =>
    match c.stod word with
    | none => .error .exception
    | some r => .ok { s with radius := r }
  | .method word => .ok { s with method := word }
  | .methodShort => .error .undefined
  | .tikz => .ok { s with tikz := true }
  | .unknown => .ok s

/-- The loop over all options, `persistent_spines.cc:39-69`. -/
def settings (c : Context) (opts : List Opt) : Except Failure Settings := opts.foldlM (setOption c) ⟨"dumb".toList, 0, false⟩

/-- `container[i]` for the index of a point; the value for other indices is arbitrary and not used. -/
def point (pc : PointCloud ℝ) (i : ℕ) : List ℝ := (pc.get i).getD (List.replicate pc.d 0)

/-- The Čech complex, `persistent_spines.cc:92-96`, with the class `Miniball` for the dimension of the points (`CechComplex.hh:45-70`). -/
def cech (c : Context) (pc : PointCloud ℝ) (radius : ℚ) : Option (Complex ℝ) := Cech.buildCechComplex (c.ball pc.d) Real.sqrt 0 pc.n (point pc) radius

/-- The spine, `persistent_spines.cc:107-113`. -/
def spine (c : Context) (method : List Char) (K : Complex ℝ) : Option (Complex ℝ) := if method = "dumb".toList then Spine.dumbSpine c.pick K else Spine.spine c.pick K

/-- `operator<<` for simplices, `Simplex.hh:461-481`. -/
def simplexText (c : Context) (s : Simplex ℝ) : List Char :=
  "{".toList ++ [' '].intercalate (s.vertices.map Utilities.decimal) ++ (if s.data ≠ 0 then " (".toList ++ c.print s.data ++ ")".toList else []) ++ "}".toList

/-- `operator<<` for complexes, `SimplicialComplex.hh:759-773`. -/
def complexText (c : Context) (K : Complex ℝ) : List Char :=
  if K.isEmpty then []
  else List.replicate 80 '-' ++ "\n".toList ++ (K.flatMap fun s => simplexText c s ++ "\n".toList) ++ List.replicate 80 '-' ++ "\n".toList

/-- The writer for the first picture, `persistent_spines.cc:129-138`. -/
def firstOptions (radius : ℚ) : Tikz.Options :=
  Tikz.setTriangleOpacity (Tikz.setTriangleColour (Tikz.setShowTriangles (Tikz.setBallRadius (Tikz.setShowBalls (Tikz.setPointSize {} (3 / 2)) true) radius) true) "cb-1".toList) (2 / 5)

/-- The writer for the second picture, `persistent_spines.cc:146-148`. -/
def secondOptions (radius : ℚ) : Tikz.Options := Tikz.setLineColour (Tikz.setPointColour (Tikz.setShowBalls (firstOptions radius) false) "cb-2".toList) "cb-2".toList

/-- The beginning of the document, `persistent_spines.cc:122-127`. -/
def header : List Char :=
  "\\documentclass{standalone}\n".toList ++ "\\usepackage{tikz}\n".toList ++ "\\definecolor{cb-1}{RGB}{ 27,158,119}\n".toList ++ "\\definecolor{cb-2}{RGB}{217, 95,  2}\n".toList ++
    "\\definecolor{cb-3}{RGB}{117,112,179}\n".toList ++ "\\begin{document}\n".toList

/-- The output as a document, `persistent_spines.cc:120-154`. -/
def pictures (c : Context) (pc : PointCloud ℝ) (radius : ℚ) (K L : Complex ℝ) : Except Failure (List Char) := do
  let container := (List.range pc.n).map (point pc)
  let first ← Tikz.write (firstOptions radius) c.print c.number K container
  let second ← Tikz.write (secondOptions radius) c.print c.number L container
  .ok (header ++ first ++ "\n\n".toList ++ second ++ "\\end{document}\n".toList)

/-- The output, `persistent_spines.cc:120-160`. -/
def output (c : Context) (s : Settings) (pc : PointCloud ℝ) (K L : Complex ℝ) : Except Failure (List Char) :=
  if s.tikz then pictures c pc s.radius K L else .ok (complexText c K ++ "\n".toList ++ "\n".toList ++ complexText c L ++ "\n".toList)

/-- All steps for a point cloud, `persistent_spines.cc:88-160`. -/
def process (c : Context) (s : Settings) (pc : PointCloud ℝ) : Except Failure (ℤ × List Char) :=
  match cech c pc s.radius with
  | none => .error .exception
  | some K =>
    match spine c s.method K with
    | none => .error .exception
    | some L =>
      match output c s pc K L with
      | .error e => .error e
      | .ok text => .ok (0, text)

/-- `main`, `persistent_spines.cc:37-161`: the result and the output.  A file that cannot be opened yields an empty point cloud (`PointCloud.hh:233-234`). -/
def main (c : Context) (files : List Char → Option (List Char)) (opts : List Opt) (args : List (List Char)) : Except Failure (ℤ × List Char) :=
  match settings c opts with
  | .error e => .error e
  | .ok s =>
    match args with
    | [] => .ok (-1, [])
    | filename :: _ =>
      match files filename with
      | none => process c s PointCloud.empty
      | some text =>
        match PointCloud.load c.convert text with
        | none => .error .exception
        | some pc => process c s pc

end

end Aleph.PersistentSpines
