import Verif.Model.Hdf5
import Verif.Spec.Complex
import Verif.Spec.Conversions

/-!
# Scalar fields in HDF5 files
-/

namespace Aleph.Spec.Hdf5

open Aleph.Hdf5

variable {α : Type}

/-- The value in column x and row y of a field with a number of columns, whose values are given row by row. -/
def At (columns : ℕ) (values : List α) (x y : ℕ) (a : α) : Prop := x < columns ∧ values[y * columns + x]? = some a

/-- The simplices of the triangulated grid of a field, and their data.  The value in column `x` and row `y` belongs to vertex `y * columns + x`.  Each square is divided by the diagonal from its upper
right to its lower left corner. -/
inductive FieldData (f : α → α → α) (columns : ℕ) (values : List α) : Finset ℕ → α → Prop
  | vertex (x y : ℕ) (a : α) : At columns values x y a → FieldData f columns values {y * columns + x} a
  | right (x y : ℕ) (a b : α) : At columns values x y a → At columns values (x + 1) y b →
      FieldData f columns values {y * columns + x, y * columns + (x + 1)} (f b a)
  | down (x y : ℕ) (a b : α) : At columns values x y a → At columns values x (y + 1) b →
      FieldData f columns values {y * columns + x, (y + 1) * columns + x} (f b a)
  | diagonal (x y : ℕ) (a b : α) : At columns values (x + 1) y a → At columns values x (y + 1) b →
      FieldData f columns values {y * columns + (x + 1), (y + 1) * columns + x} (f b a)
  | upper (x y : ℕ) (a b c : α) : At columns values x y a → At columns values (x + 1) y b → At columns values x (y + 1) c →
      FieldData f columns values {y * columns + x, y * columns + (x + 1), (y + 1) * columns + x} (f c (f a b))
  | lower (x y : ℕ) (b c d : α) : At columns values (x + 1) y b → At columns values x (y + 1) c → At columns values (x + 1) (y + 1) d →
      FieldData f columns values {y * columns + (x + 1), (y + 1) * columns + x, (y + 1) * columns + (x + 1)} (f c (f b d))

/-- A set of positions (column and row) forms a simplex of the triangulated grid: it fits into a unit square, and no position is both above and to the left of another one. -/
def IsFieldCell (P : Finset (ℕ × ℕ)) : Prop :=
  P.Nonempty ∧ ∀ p ∈ P, ∀ q ∈ P, p.1 ≤ q.1 + 1 ∧ p.2 ≤ q.2 + 1 ∧ ¬ (p.1 < q.1 ∧ p.2 < q.2)

/-- A data set with two dimensions stores values of a kind: the first dimension is the number of rows, the second one the number of columns; `encode` are the bytes of a value, the least significant
one first. -/
structure Stores (encode : α → List ℕ) (ds : DataSet) (k : Aleph.Hdf5.Kind) (e : Aleph.Hdf5.Endian) (rows columns : ℕ) (values : List α) : Prop where
  kind : ds.kind = k
  endian : ds.endian = e
  dimensions : ds.dimensions = [rows, columns]
  size : values.length = rows * columns
  elements : ds.elements = values.map fun v => if e = .little then encode v else (encode v).reverse

end Aleph.Spec.Hdf5
