/-!
# Symmetric matrices

Models `include/aleph/math/SymmetricMatrix.hh`.  Indices are natural numbers.  `wrap` is the conversion to the
index type `I`: the identity for types that are large enough, reduction modulo `2 ^ 16` for `unsigned short`, where
all arithmetic is carried out exactly in `int` and only the stored size is converted.
-/

namespace Aleph

/-- `SymmetricMatrix`, `SymmetricMatrix.hh:36-155`; `data` has `size` elements. -/
structure SymMatrix (β : Type) where
  numRows : Nat
  size : Nat
  data : List β
deriving DecidableEq, Repr

namespace SymMatrix

variable {β : Type}

/-- The constructor, `SymmetricMatrix.hh:46-52`; `zero` is `I(0)`. -/
def ofRows (wrap : Nat → Nat) (zero : β) (n : Nat) : SymMatrix β :=
  ⟨n, wrap (n * (n + 1) / 2), List.replicate (wrap (n * (n + 1) / 2)) zero⟩

/-- The position of an entry, `SymmetricMatrix.hh:110-113`. -/
def index (n row column : Nat) : Nat :=
  let r := min row column
  let c := max row column
  r * n - r * (r + 1) / 2 + c

/-- Reading access, `SymmetricMatrix.hh:105-119`; `none` is the exception. -/
def get (M : SymMatrix β) (row column : Nat) : Option β :=
  if row ≥ M.numRows ∨ column ≥ M.numRows then none
  else if index M.numRows row column ≥ M.size then none
  else M.data[index M.numRows row column]?

/-- Writing access, `SymmetricMatrix.hh:121-124`. -/
def set (M : SymMatrix β) (row column : Nat) (x : β) : Option (SymMatrix β) :=
  if row ≥ M.numRows ∨ column ≥ M.numRows then none
  else if index M.numRows row column ≥ M.size then none
  else some { M with data := M.data.set (index M.numRows row column) x }

/-- A sequence of assignments `M(i,j) = x` (`SymmetricMatrix.hh:121-124`), from left to right. -/
def setAll (M : SymMatrix β) (l : List (Nat × Nat × β)) : Option (SymMatrix β) :=
  l.foldlM (fun M e => M.set e.1 e.2.1 e.2.2) M

/-- `numRows()`, `SymmetricMatrix.hh:127-130`, and `size()`, `SymmetricMatrix.hh:133-136`. -/
def shape (M : SymMatrix β) : Nat × Nat := (M.numRows, M.size)

end SymMatrix

end Aleph
