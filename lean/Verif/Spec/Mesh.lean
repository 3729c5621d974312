import Verif.Model.Mesh
import Mathlib.Logic.Relation

/-!
# What is claimed about meshes

A history of a mesh is a list of calls (`Mesh.Op`).  The definitions of this file refer to the calls only.
-/

namespace Aleph.Spec.Mesh

open Aleph.Mesh (Op)

variable {P D : Type}

/-- The faces that were added by a history, in the order of the calls. -/
def addedFaces : List (Op P D) → List (List ℕ)
  | [] => []
  | .face vs :: ops => vs :: addedFaces ops
  | .vertex .. :: ops => addedFaces ops

/-- `v` follows `u` along the face; the first vertex follows the last one. -/
def Follows (f : List ℕ) (u v : ℕ) : Prop := ∃ i < f.length, f[i]? = some u ∧ f[(i + 1) % f.length]? = some v

/-- `u` and `v` are joined by an edge of one of the faces. -/
def IsEdge (fs : List (List ℕ)) (u v : ℕ) : Prop := ∃ f ∈ fs, Follows f u v ∨ Follows f v u

/-- `u` and `v` are in the same component. -/
def Linked (fs : List (List ℕ)) : ℕ → ℕ → Prop := Relation.EqvGen (IsEdge fs)

/-- A vertex of one of the faces. -/
def Used (fs : List (List ℕ)) (v : ℕ) : Prop := ∃ f ∈ fs, v ∈ f

/-- The elements of the list form `k` classes of the equivalence relation that is generated by `R`: there are `k` different representatives, and every
element belongs to exactly one of them. -/
def HasClasses (R : ℕ → ℕ → Prop) (l : List ℕ) (k : ℕ) : Prop :=
  ∃ rs : List ℕ, rs.length = k ∧ rs.Nodup ∧ (∀ r ∈ rs, r ∈ l) ∧ ∀ v ∈ l, ∃! r, r ∈ rs ∧ Relation.EqvGen R v r

/-- Every face touches at most one component of the faces before it, and if it does, then with its first or its second vertex. -/
def Growing (fs : List (List ℕ)) : Prop :=
  ∀ pre f post, fs = pre ++ f :: post →
    (∀ u ∈ f, ∀ v ∈ f, Used pre u → Used pre v → Linked pre u v) ∧ ((∃ v ∈ f, Used pre v) → ∃ v ∈ f.take 2, Used pre v)

/-- The order in which an unordered container is traversed: it lists every element exactly once. -/
def IsOrder (iter : List ℕ → List ℕ) : Prop := ∀ l, (iter l).Perm l

end Aleph.Spec.Mesh
