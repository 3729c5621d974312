import Verif.Model.Complex

/-!
# Barycentric subdivision

Models `include/aleph/topology/BarycentricSubdivision.hh`.

Vertices are natural numbers (simplification: the new vertices do not overflow the vertex type).  `none` stands for an
exception.  Simplices that only occur in sets of boundary simplices are modelled by their vertices, as their data is never read.
-/

namespace Aleph.Barycentric

variable {α : Type}

/-- `std::set<Simplex>::insert`, where `Simplex::operator<` is the lexicographic order of the vertices (`Simplex.hh:322-326`). -/
def setInsert (x : List Nat) : List (List Nat) → List (List Nat)
  | [] => [x]
  | y :: l =>
    if Simplex.lexLt x y then x :: y :: l else if Simplex.lexLt y x then y :: setInsert x l else y :: l

/-- Insertion of a range into a set. -/
def setInsertAll (S l : List (List Nat)) : List (List Nat) := l.foldl (fun S x => setInsert x S) S

/-- The boundary of the simplex with the given vertices, `Simplex.hh:189-202`. -/
def facets (vs : List Nat) : List (List Nat) := Simplex.faces (⟨vs, ()⟩ : Simplex Unit)

/-- The loop `do … while` of `collectBoundaries`, `BarycentricSubdivision.hh:236-255`.  The first argument bounds the number of
rounds; `none` if it is exceeded (which does not happen, see `collectOne_spec`). -/
def collectLoop : Nat → List (List Nat) → Option (List (List Nat))
  | 0, _ => none
  | f + 1, S =>
    let boundaries := setInsertAll [] (S.flatMap facets)
    let S' := setInsertAll S boundaries
    if S'.length ≠ S.length then collectLoop f S' else some S'

/-- `collectBoundaries(s)`, `BarycentricSubdivision.hh:229-258`. -/
def collectOne (vs : List Nat) : Option (List (List Nat)) :=
  collectLoop (2 ^ vs.length + 1) (setInsertAll [] (facets vs))

/-- `collectBoundaries(begin, end)`, `BarycentricSubdivision.hh:265-279`. -/
def collect (l : List (List Nat)) : Option (List (List Nat)) :=
  l.foldlM (fun S vs => (collectOne vs).map (setInsertAll S)) []

/-- The local variables of `operator()`: `barycentreVertex`, `subdivision` (entries in the order of their insertion) and `L`,
`BarycentricSubdivision.hh:116-136`. -/
structure State (α : Type) where
  next : Nat
  subdivision : List (List Nat × List (Simplex α))
  L : Complex α

/-- Repeated calls of `push_back`, `BarycentricSubdivision.hh:192-202`, and `insert(begin, end)`, `213`. -/
def pushAll (L : Complex α) (l : List (Simplex α)) : Option (Complex α) := l.foldlM Complex.pushBack L

/-- The simplex spanned by the barycentre `b` of the simplex `s` and other vertices, `BarycentricSubdivision.hh:178-184, 194-201`.
The argument of the functor is the number of vertices. -/
def coneOver [Mul α] (functor : Nat → α) (b : Nat) (s : Simplex α) (vs : List Nat) : Simplex α :=
  Simplex.ofRange (vs ++ [b]) (s.data * functor (vs.length + 1))

/-- One round of the loop over all simplices, `BarycentricSubdivision.hh:138-210`.  Exceptions are thrown for missing boundary
simplices and by `subdivision.at`. -/
def step [Mul α] (functor : Nat → α) (K : Complex α) (st : State α) (s : Simplex α) : Option (State α) :=
  if Complex.dim s = 0 then some { st with subdivision := st.subdivision ++ [(s.vertices, [s])] }
  else do
    let L ← st.L.pushBack (Simplex.ofVertex st.next (s.data * functor 0))
    let parts ← s.faces.mapM fun f => (K.find f).bind fun t => st.subdivision.lookup t.vertices
    let subdividedBoundary := parts.flatten
    let cone := subdividedBoundary.map fun t => coneOver functor st.next s t.vertices
    let boundaries ← collect (subdividedBoundary.map (·.vertices))
    let L ← pushAll L (boundaries.map (coneOver functor st.next s))
    return ⟨st.next + 1, st.subdivision ++ [(s.vertices, cone)], L⟩

/-- `operator()`, `BarycentricSubdivision.hh:107-216`.  `ord` lists the simplices of `K` in the order of the iteration over
dimensions, `order` describes the unspecified order of the iteration over the map `subdivision`. -/
def subdivide [Mul α] (functor : Nat → α) (ord : Complex α)
    (order : List (List Nat × List (Simplex α)) → List (List Nat × List (Simplex α))) (K : Complex α) :
    Option (Complex α) :=
  match K.vertices.getLast? with
  | none => some []
  | some v => do
    let st ← ord.foldlM (step functor K) ⟨v + 1, [], []⟩
    (order st.subdivision).foldlM (fun L e => pushAll L e.2) st.L

end Aleph.Barycentric
