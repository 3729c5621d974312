import Verif.Model.Complex

/-!
# Output of lines and points

Models `include/aleph/topology/io/LinesAndPoints.hh`.  `coordinate` and `number` are the output operators for coordinates and `std::to_string` for vertices.
-/

namespace Aleph.LinesAndPoints

variable {α β : Type}

/-- What may happen while writing. -/
inductive Failure
  | exception
  | undefined
  deriving DecidableEq

/-- `write`, `LinesAndPoints.hh:114-125`, for points with at least two coordinates (there are no other calls). -/
def point (coordinate : β → List Char) (p : List β) (label : List Char) : List Char :=
  match p with
  | x :: y :: rest =>
    coordinate x ++ '\t' :: coordinate y ++
      (match rest with
        | [] => []
        | z :: _ => ' ' :: coordinate z) ++
      (if label.isEmpty then [] else ' ' :: label) ++ ['\n']
  | _ => []

/-- The body of the first loop, `LinesAndPoints.hh:67-76`, for a simplex with a single vertex `u`; `container[u]` is undefined if there is no such element. -/
def vertex (coordinate : β → List Char) (number : ℕ → List Char) (labels : Bool) (container : List (List β)) (u : ℕ) : Except Failure (List Char) :=
  match container[u]? with
  | none => .error .undefined
  | some p => if 2 ≤ p.length then .ok (point coordinate p (if labels then number u else [])) else .error .exception

/-- The body of the second loop, `LinesAndPoints.hh:86-99`, for a simplex with the vertices `u` and `v`. -/
def edge (coordinate : β → List Char) (container : List (List β)) (u v : ℕ) : Except Failure (List Char) :=
  match container[u]?, container[v]? with
  | some p, some q => if 2 ≤ p.length ∧ 2 ≤ q.length then .ok (point coordinate p [] ++ point coordinate q [] ++ ['\n']) else .error .exception
  | _, _ => .error .undefined

/-- The first loop, `LinesAndPoints.hh:65-77`, for a simplex: only 0-simplices are written. -/
def vertexOf (coordinate : β → List Char) (number : ℕ → List Char) (labels : Bool) (container : List (List β)) (s : Simplex α) : Except Failure (List Char) :=
  match s.vertices with
  | [u] => vertex coordinate number labels container u
  | _ => .ok []

/-- The second loop, `LinesAndPoints.hh:81-100`, for a simplex: only 1-simplices are written. -/
def edgeOf (coordinate : β → List Char) (container : List (List β)) (s : Simplex α) : Except Failure (List Char) :=
  match s.vertices with
  | [u, v] => edge coordinate container u v
  | _ => .ok []

/-- `operator()( out, K, container )`, `LinesAndPoints.hh:61-101`; `dimension()` throws an exception for empty simplices, which are not modelled. -/
def write (coordinate : β → List Char) (number : ℕ → List Char) (labels : Bool) (K : Complex α) (container : List (List β)) : Except Failure (List Char) := do
  let vertices ← K.mapM (vertexOf coordinate number labels container)
  let edges ← K.mapM (edgeOf coordinate container)
  .ok (vertices.flatten ++ ['\n', '\n'] ++ edges.flatten)

end Aleph.LinesAndPoints
