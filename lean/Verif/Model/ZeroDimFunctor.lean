import Verif.Model.UnionFind

/-!
# Zero-dimensional persistence with a functor

Models `include/aleph/persistentHomology/ConnectedComponents.hh` for functors that are supplied by the caller, and
the functor of `src/tools/relevant_edges.cc`.
-/

namespace Aleph

/-- The calls that `calculateZeroDimensionalPersistenceDiagram` makes, `persistentHomology/ConnectedComponents.hh:129, 170-175, 199-200`,
as transformations of the state of the functor; `none` is an exception. -/
structure Visitor (σ α : Type) where
  init : Nat → σ → Option σ
  merge : Nat → Nat → α → α → Nat → Nat → σ → Option σ
  root : Nat → α → σ → Option σ

namespace Visitor

variable {σ α : Type}

/-- Body of the loop over all simplices, `persistentHomology/ConnectedComponents.hh:131-182`. Simplification: as in `zeroDimStep`,
positions are not truncated to the vertex type. `none` is an exception. -/
def step [DecidableEq α] (F : Visitor σ α) (diag leftFirst : Bool) (K : Complex α) (st : ZeroDimState α × σ)
    (s : Simplex α) : Option (ZeroDimState α × σ) :=
  match s.dimension with
  | none => none
  | some d =>
    if d ≠ 1 then some st
    else
      match s.vertices[0]?, s.vertices[1]? with
      | some u, some v =>
        match st.1.uf.find u with
        | none => none
        | some (p1, a) =>
          match p1.find v with
          | none => none
          | some (p2, b) =>
            if a = b then some ({ st.1 with uf := p2 }, st.2)
            else
              match K.index [a], K.index [b] with
              | some ai, some bi =>
                let younger := if ai < bi then b else a
                let older := if ai < bi then a else b
                let uIndex := if ai < bi then bi else ai
                match K.get uIndex, p2.merge leftFirst younger older with
                | some creator, some p3 =>
                  match F.merge younger older creator.data s.data u v st.2 with
                  | none => none
                  | some x =>
                    if diag || decide (creator.data ≠ s.data) then
                      match K.index s.vertices with
                      | none => none
                      | some sIndex =>
                        some (⟨p3, st.1.points ++ [(creator.data, s.data)], st.1.pairing ++ [(uIndex, sIndex)]⟩, x)
                    else some ({ st.1 with uf := p3 }, x)
                | _, _ => none
              | _, _ => none
      | _, _ => none

/-- Body of the loop over all roots, `persistentHomology/ConnectedComponents.hh:192-201`. -/
def rootStep (F : Visitor σ α) (inf : α) (K : Complex α) (st : (List (α × α) × List (Nat × Nat)) × σ) (root : Nat) :
    Option ((List (α × α) × List (Nat × Nat)) × σ) :=
  match K.find [root], K.index [root] with
  | some s, some i =>
    match F.root root s.data st.2 with
    | none => none
    | some x => some ((st.1.1 ++ [(s.data, inf)], st.1.2 ++ [(i, idxMax)]), x)
  | _, _ => none

/-- `calculateZeroDimensionalPersistenceDiagram(K, functor)`, `persistentHomology/ConnectedComponents.hh:101-204`: diagram, pairing, and the
state of the functor afterwards. -/
def run [DecidableEq α] (F : Visitor σ α) (diag leftFirst : Bool) (inf : α) (K : Complex α) (x : σ) :
    Option ((List (α × α) × List (Nat × Nat)) × σ) :=
  match K.vertices.foldlM (fun x v => F.init v x) x with
  | none => none
  | some x =>
    match K.foldlM (F.step diag leftFirst K) (⟨ParentMap.ofRange K.vertices, [], []⟩, x) with
    | none => none
    | some (st, x) =>
      match st.uf.roots with
      | none => none
      | some (_, rs) => rs.foldlM (F.rootStep inf K) ((st.points, st.pairing), x)

end Visitor

end Aleph
