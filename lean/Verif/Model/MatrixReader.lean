import Verif.Model.Complex
import Verif.Model.Strings

/-!
# Matrices in text format

Models `include/aleph/topology/io/Matrix.hh`.

Reading numbers with `std::istream_iterator` is simplified: `number` tells which words (maximal sequences without whitespace) are
numbers, and the first word that is not a number ends the reading (the standard library would still read the longest prefix of
this word that is a number).  Vertices are natural numbers of unbounded size.
-/

namespace Aleph.MatrixReader

variable {α : Type}

/-- The first loop, `Matrix.hh:121-134`: number of lines and number of tokens of each line.  `none` is the exception. -/
def header : ℕ → ℕ → List (List Char) → Option (ℕ × ℕ)
  | h, w, [] => some (h, w)
  | h, w, l :: ls =>
    let tokens := Strings.split Strings.isSpace (Strings.trim l)
    if w = 0 then header (h + 1) tokens.length ls
    else if w ≠ tokens.length then none
    else header (h + 1) w ls

/-- The iterations of two nested loops `y < h`, `x < w`. -/
def positions (h w : ℕ) : List (ℕ × ℕ) := (List.range h).flatMap fun y => (List.range w).map fun x => (y, x)

/-- The body of the loops for edges, `Matrix.hh:172-176, 188-192, 204-208`; `none` is the exception of `at`. -/
def edge (f : α → α → α) (values : List α) (u v : ℕ) : Option (Simplex α) :=
  match values[u]?, values[v]? with
  | some a, some b => some (Simplex.ofRange [u, v] (f a b))
  | _, _ => none

/-- The body of the loop for triangles, `Matrix.hh:235-244`. -/
def triangles (f : α → α → α) (values : List α) (a b c d : ℕ) : Option (List (Simplex α)) :=
  match values[a]?, values[b]?, values[c]?, values[d]? with
  | some p, some q, some r, some s =>
    some [Simplex.ofRange [a, b, c] (f (f p q) r), Simplex.ofRange [a, c, d] (f (f p r) s)]
  | _, _, _, _ => none

/-- The vector `simplices`, `Matrix.hh:153-247`, for positive height and width. -/
def simplices (tri : Bool) (f : α → α → α) (h w : ℕ) (values : List α) : Option (List (Simplex α)) := do
  let vertices := values.zipIdx.map fun (a, v) => Simplex.ofVertex v a
  let horizontal ← (positions h (w - 1)).mapM fun (y, x) => edge f values (w * y + x) (w * y + x + 1)
  let vertical ← (positions (h - 1) w).mapM fun (y, x) => edge f values (w * y + x) (w * (y + 1) + x)
  let diagonal ← (positions (h - 1) (w - 1)).mapM fun (y, x) => edge f values (w * y + x) (w * (y + 1) + x + 1)
  let faces ← if tri then
      (positions (h - 1) (w - 1)).mapM fun (y, x) =>
        triangles f values (w * y + x) (w * y + x + 1) (w * (y + 1) + x + 1) (w * (y + 1) + x)
    else some []
  some (vertices ++ horizontal ++ vertical ++ diagonal ++ faces.flatten)

/-- The complex for a matrix with `h` rows and `w` columns, `Matrix.hh:153-249`.  For an empty matrix the bound of the loop for
diagonal edges wraps around, so that `at` throws (after 2^64 - 1 iterations of the preceding loop without effect).  The
constructor of `SimplicialComplex` does not meet empty simplices. -/
def build (tri : Bool) (f : α → α → α) (h w : ℕ) (values : List α) : Option (Complex α) :=
  if h = 0 ∨ w = 0 then none
  else (simplices tri f h w values).map fun l => (Complex.insertRange [] l).1

/-- `std::copy` from the stream, `Matrix.hh:150-151`. -/
def readValues (number : List Char → Option α) (text : List Char) : List α :=
  (((Strings.extract [] text).map number).takeWhile Option.isSome).filterMap id

/-- `operator()(in, K, f)`, `Matrix.hh:112-250`: height, width and the complex; `none` is an exception. -/
def read (tri : Bool) (f : α → α → α) (number : List Char → Option α) (text : List Char) :
    Option (ℕ × ℕ × Complex α) :=
  match header 0 0 (Strings.getlines [] text) with
  | none => none
  | some (h, w) => (build tri f h w (readValues number text)).map fun K => (h, w, K)

end Aleph.MatrixReader
