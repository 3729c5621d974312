import Verif.Model.Complex

/-!
# Cones and suspensions

Models `include/aleph/topology/QuotientSpaces.hh`.  Vertices are unbounded: the new vertices never wrap around.
-/

namespace Aleph

namespace QuotientSpace

variable {α : Type}

/-- The join of a simplex with a new vertex, `QuotientSpaces.hh:60-68`. -/
def join (s : Simplex α) (v : Nat) (d : α) : Simplex α := Simplex.ofRange (s.vertices ++ [v]) d

/-- `L.insert(begin, end)` into a copy of `K`, `QuotientSpaces.hh:52, 70-71`; `none` is an exception. -/
def insertAll (K : Complex α) (l : List (Simplex α)) : Option (Complex α) :=
  match Complex.insertRange K l with
  | (L, false) => some L
  | (_, true) => none

/-- `cone(K, f)`, `QuotientSpaces.hh:32-72`; `d0` is the default-constructed data of `Simplex()`. -/
def cone (d0 : α) (f : Simplex α → α) (K : Complex α) : Option (Complex α) :=
  if K.isEmpty then some []
  else
    match K.vertices.getLast? with
    | none => some []
    | some v =>
      insertAll K (Simplex.ofVertex (v + 1) (f ⟨[], d0⟩) :: K.map fun s => join s (v + 1) (f s))

/-- `cone(K)`, `QuotientSpaces.hh:82-93`. -/
def cone0 (d0 : α) (K : Complex α) : Option (Complex α) := cone d0 (fun _ => d0) K

/-- `suspension(K, f)`, `QuotientSpaces.hh:110-159`.  `vertices.back() = lowerConeVertex` replaces the last element of
the list of vertices, which is the upper cone vertex. -/
def suspension (d0 : α) (f : Simplex α → α) (K : Complex α) : Option (Complex α) :=
  if K.isEmpty then some []
  else
    match K.vertices.getLast? with
    | none => some []
    | some v =>
      insertAll K (Simplex.ofVertex (v + 1) (f ⟨[], d0⟩) :: Simplex.ofVertex (v + 1 + 1) (f ⟨[], d0⟩) ::
        K.flatMap fun s => [join s (v + 1) (f s),
          Simplex.ofRange ((s.vertices ++ [v + 1]).dropLast ++ [v + 1 + 1]) (f s)])

/-- `suspension(K)`, `QuotientSpaces.hh:170-180`. -/
def suspension0 (d0 : α) (K : Complex α) : Option (Complex α) := suspension d0 (fun _ => d0) K

end QuotientSpace

end Aleph
