import Verif.Model.Strings
import Mathlib.Algebra.Group.Defs

/-!
# Point clouds

Models `include/aleph/containers/PointCloud.hh`.  Copying, moving and destruction are value semantics of Lean.
-/

namespace Aleph

/-- `PointCloud`, `PointCloud.hh:219-224`: the number of points, the dimension, and an array with all coordinates. -/
structure PointCloud (α : Type) where
  n : ℕ
  d : ℕ
  points : List α
  deriving DecidableEq

namespace PointCloud

variable {α : Type}

/-- The default constructor, `PointCloud.hh:35-40`. -/
def empty : PointCloud α := ⟨0, 0, []⟩

/-- The constructor, `PointCloud.hh:42-51`. -/
def make [Zero α] (n d : ℕ) : PointCloud α := ⟨n, d, List.replicate (n * d) 0⟩

/-- `operator==`, `PointCloud.hh:89-94`; `std::equal` compares `_n * _d` elements. -/
def eq [DecidableEq α] (a b : PointCloud α) : Bool :=
  a.n == b.n && a.d == b.d && (a.points.take (a.n * a.d) == b.points.take (a.n * a.d))

/-- `std::copy` of a range to the array, starting at an offset. -/
def copyTo (a : List α) (offset : ℕ) (v : List α) : List α := a.take offset ++ v ++ a.drop (offset + v.length)

/-- `set(i, begin, end)`, `PointCloud.hh:128-140`; `none` is an exception. -/
def set (pc : PointCloud α) (i : ℕ) (v : List α) : Option (PointCloud α) :=
  if i ≥ pc.n then none
  else if v.length ≠ pc.d then none
  else some { pc with points := copyTo pc.points (pc.d * i) v }

/-- `get(i, result)`, `PointCloud.hh:153-163`, and `operator[]`, `PointCloud.hh:171-179`; `none` is an exception. -/
def get (pc : PointCloud α) (i : ℕ) : Option (List α) :=
  if i ≥ pc.n then none
  else
    let offset := i * pc.d
    some ((pc.points.drop offset).take pc.d)

/-- One of the loops of `operator+`, `PointCloud.hh:204-214`: `k` points of `src`, starting with `j`, are copied to the
positions from `i` on. -/
def copyLoop (src : PointCloud α) : ℕ → ℕ → ℕ → PointCloud α → Option (PointCloud α)
  | 0, _, _, dst => some dst
  | k + 1, j, i, dst => do
    let p ← src.get j
    let dst ← dst.set i p
    copyLoop src k (j + 1) (i + 1) dst

/-- `operator+`, `PointCloud.hh:191-217`; `none` is an exception. -/
def add [Zero α] (a b : PointCloud α) : Option (PointCloud α) :=
  if a.d ≠ b.d then none
  else do
    let result ← copyLoop a a.n 0 0 (make (a.n + b.n) a.d)
    copyLoop b b.n 0 a.n result

/-! ### Reading and writing -/

/-- The separators `[:;,[:space:]]`, `PointCloud.hh:273`. -/
def isSeparator (c : Char) : Bool := c == ':' || c == ';' || c == ',' || Strings.isSpace c

/-- Lines that are skipped (`PointCloud.hh:253-255` and `279-280`): empty lines and comments, after trimming. -/
def isSkipped (line : List Char) : Bool :=
  match Strings.trim line with
  | [] => true
  | c :: _ => c == '#'

/-- The loop over the lines, `PointCloud.hh:270-301`: `i` is the index of the next point, `d` its dimension (zero before the first
point).  `split` never returns an empty vector of tokens, as it is called for non-empty strings here.  `none` is an
exception. -/
def loadLoop [Zero α] (convert : List Char → α) (n : ℕ) :
    ℕ → ℕ → PointCloud α → List (List Char) → Option (PointCloud α)
  | _, _, pc, [] => some pc
  | i, d, pc, line :: lines =>
    let line' := Strings.trim line
    let tokens := Strings.split isSeparator line'
    if isSkipped line || tokens.isEmpty then loadLoop convert n i d pc lines
    else
      let d' := if d = 0 then tokens.length else d
      let pc := if d = 0 then make n tokens.length else pc
      match pc.set i (tokens.map convert) with
      | none => none
      | some pc => loadLoop convert n (i + 1) d' pc lines

/-- `load(in)` for a readable stream, `PointCloud.hh:231-304`: `lines` is a signed number in the code; a negative number, which
is converted to a large unsigned number, only occurs if all lines are skipped, so that it is not used (`Int.toNat` is a
simplification). `convert` is `utilities::convert`. -/
def load [Zero α] (convert : List Char → α) (text : List Char) : Option (PointCloud α) :=
  let lines := text.count '\n'
  if lines = 0 then some empty
  else
    let all := Strings.getlines [] text
    let n := ((lines : ℤ) - (all.filter isSkipped).length).toNat
    loadLoop convert n 0 0 empty all

/-- The inner loop of `operator<<`, `PointCloud.hh:341-347`. -/
def writePoint (write : α → List Char) (p : List α) : List Char := List.intercalate ['\t'] (p.map write)

/-- `operator<<`, `PointCloud.hh:334-353`; `write` writes a coordinate. -/
def print (write : α → List Char) (pc : PointCloud α) : List Char :=
  ((List.range pc.n).map fun i => writePoint write ((pc.get i).getD []) ++ ['\n']).flatten

end PointCloud

end Aleph
