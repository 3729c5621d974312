import Verif.Model.Kahan
import Verif.Model.PointCloud
import Verif.Model.Bootstrap
import Mathlib.Analysis.SpecialFunctions.Log.Base

/-!
# The tool `process_image_patches`

Models `src/tools/process_image_patches.cc`.

Simplifications: numbers are real numbers; indices within a patch do not exceed the range of `unsigned`.  Messages on standard error are not modelled.
-/

namespace Aleph.ImagePatches

/-- What may happen instead of an ordinary end of the program; `infinite` is a program that writes an infinite number or something that is not a number. -/
inductive Failure
  | exception
  | undefined
  | infinite
  deriving DecidableEq

/-- The conversions from and to words. -/
structure Context where
  convert : List Char → ℝ
  write : ℝ → List Char

noncomputable section

/-- `log`, `process_image_patches.cc:26-32`; `none` is something that is not a number. -/
def log (x : ℝ) : Option ℝ := if x = 0 then some 0 else if x < 0 then none else some (Real.logb 10 x)

/-- The neighbours of a pixel in the order of the code, `process_image_patches.cc:47-59`, with the pixel itself as first component; `i-1` is unsigned. -/
def neighbours (n i j : ℕ) : List (ℕ × ℕ) :=
  let index := n * i + j
  (if j + 1 < n then [(index, index + 1)] else []) ++ ((if j ≥ 1 then [(index, index - 1)] else []) ++
    ((if i + 1 < n then [(index, index + n)] else []) ++ (if Bootstrap.decrement i < n then [(index, index - n)] else [])))

/-- One of the summands, `process_image_patches.cc:50-59`; `none` is an exception. -/
def term (data : List ℝ) (k : ℕ × ℕ) : Option ℝ :=
  match data[k.1]?, data[k.2]? with
  | some x, some y => some ((x - y) ^ 2)
  | _, _ => none

/-- `contrastNorm`, `process_image_patches.cc:34-64`. -/
def contrastNorm (data : List ℝ) : Option ℝ :=
  let n := Nat.sqrt data.length
  (((List.range n).flatMap fun i => (List.range n).flatMap fun j => neighbours n i j).mapM (term data)).map fun terms => Kahan.accumulate terms 0

/-- The subtraction of the mean, `process_image_patches.cc:108-115` and `187-194`. -/
def subtractMean (d : ℕ) (p : List ℝ) : List ℝ :=
  let mean := Kahan.accumulateSorted p 0 / (d : ℝ)
  p.map fun x => x - mean

/-- The body of the first loop, `process_image_patches.cc:98-130`: the processed patch and its norm.  If a value is not a number, then the order of the sorting below is not defined. -/
def process (pc : PointCloud ℝ) (i : ℕ) : Except Failure (List ℝ × ℝ) :=
  match pc.get i with
  | none => .error .exception
  | some p =>
    match p.mapM log with
    | none => .error .undefined
    | some p =>
      let p := subtractMean pc.d p
      match contrastNorm p with
      | none => .error .exception
      | some norm => .ok (if norm > 0 then p.map fun x => x / norm else p, norm)

/-- Calling `set` for the given points, starting with the given index, `process_image_patches.cc:129`, `165` and `204`. -/
def setAll (pc : PointCloud ℝ) : ℕ → List (List ℝ) → Option (PointCloud ℝ)
  | _, [] => some pc
  | i, p :: ps =>
    match pc.set i p with
    | none => none
    | some pc => setAll pc (i + 1) ps

/-- The filter, `process_image_patches.cc:141-170`; `none` is an exception. -/
def filterPatches (d : ℕ) (processed : PointCloud ℝ) (contrastNorms : List ℝ) : Option (PointCloud ℝ) := do
  let sorted := contrastNorms.insertionSort (· ≤ ·)
  let threshold ← sorted[⌈(1 - 20 / 100) * (contrastNorms.length : ℝ)⌉₊]?
  let numRemainingPatches := contrastNorms.countP fun norm => decide (norm ≥ threshold)
  let indices := (List.range contrastNorms.length).filter fun i => decide (contrastNorms.getD i 0 ≥ threshold)
  let patches ← indices.mapM processed.get
  setAll (PointCloud.make numRemainingPatches d) 0 patches

/-- One step of `std::inner_product` with an accumulator of type `int`, `process_image_patches.cc:196`; `none` if the conversion is undefined. -/
def innerStep (sum : ℕ) (x : ℝ) : Option ℕ :=
  let v := ⌊(sum : ℝ) + x * x⌋₊
  if v < 2147483648 then some v else none

/-- The body of the second loop without the call of `set`, `process_image_patches.cc:184-202`; `none` in the result is a patch with numbers that are infinite or undefined. -/
def finish (d : ℕ) (processed : PointCloud ℝ) (i : ℕ) : Except Failure (Option (List ℝ)) :=
  match processed.get i with
  | none => .error .exception
  | some p =>
    let p := subtractMean d p
    match p.foldlM innerStep 0 with
    | none => .error .undefined
    | some product =>
      let norm := √(product : ℝ)
      .ok (if norm = 0 then none else some (p.map fun x => x / norm))

/-- The second loop and the output, `process_image_patches.cc:184-212`.  (A point that is set is not read again.) -/
def output (c : Context) (pc processed : PointCloud ℝ) : Except Failure (List Char) :=
  match (List.range pc.n).mapM (finish pc.d processed) with
  | .error e => .error e
  | .ok patches =>
    match patches.mapM id with
    | none => .error .infinite
    | some patches =>
      match setAll processed 0 patches with
      | none => .error .exception
      | some processed => .ok (processed.print c.write ++ ['\n'])

/-- `main` for a point cloud, `process_image_patches.cc:84-213`. -/
def run (c : Context) (pc : PointCloud ℝ) : Except Failure (List Char) :=
  match (List.range pc.n).mapM (process pc) with
  | .error e => .error e
  | .ok results =>
    match setAll (PointCloud.make pc.n pc.d) 0 (results.map (·.1)) with
    | none => .error .exception
    | some processed =>
      match filterPatches pc.d processed (results.map (·.2)) with
      | none => .error .exception
      | some processed => output c pc processed

/-- `main`, `process_image_patches.cc:66-213`: the exit code and the output.  `files` returns the contents of a file; loading a file that cannot be opened yields an empty point cloud (`PointCloud.hh:233-234`). -/
def main (c : Context) (files : List Char → Option (List Char)) (args : List (List Char)) : Except Failure (ℤ × List Char) :=
  match args with
  | [] => .ok (-1, [])
  | filename :: _ =>
    match (match files filename with | none => some PointCloud.empty | some text => PointCloud.load c.convert text) with
    | none => .error .exception
    | some pc =>
      match run c pc with
      | .error e => .error e
      | .ok text => .ok (0, text)

end

end Aleph.ImagePatches
