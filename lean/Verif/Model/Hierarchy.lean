import Verif.Model.UnionFind
import Mathlib.Logic.Function.Basic
import Mathlib.Order.Defs.LinearOrder

/-!
# The extended persistence hierarchy

Models `include/aleph/persistentHomology/ExtendedPersistenceHierarchy.hh`.

The maps from vertices to critical points are functions; the code initialises them for all vertices and never accesses others.  The parameter
`bfs` is the predecessor map recorded by `boost::breadth_first_search`, as a function of the vertices, the edges and the source of the graph; the
`boost::bimap` between vertices and descriptors of the graph is not modelled, i.e. vertices are their own descriptors.  `leftFirst` is the order of
evaluation in `UnionFind::merge`.  Positions are not truncated to the type of vertices.  `none` is an exception or the dereference of an invalid
iterator.
-/

namespace Aleph.Hierarchy

variable {α : Type} [LinearOrder α]

/-- `detail::extractZeroDimensionalAdjacencyGraph`, `ExtendedPersistenceHierarchy.hh:36-82`: vertices and edges of the graph. -/
def adjacencyGraph (K : Complex α) : List ℕ × List (ℕ × ℕ) :=
  ((K.range 0).filterMap fun s => s.vertices.head?,
   (K.range 1).filterMap fun s =>
    match s.vertices with
    | [u, v] => if K.contains [u] && K.contains [v] then some (u, v) else none
    | _ => none)

/-- The body of the loop of `tagEdges`, `ExtendedPersistenceHierarchy.hh:131-157`; the state consists of the map of vertices and the map of edges.  The
two vertices of an edge are different. -/
def tagStep (S : Complex α) (st : (ℕ → ℕ) × List (List ℕ × ℕ)) (s : Simplex α) : Option ((ℕ → ℕ) × List (List ℕ × ℕ)) :=
  match s.vertices with
  | [] => none
  | [u, v] =>
    match S.index [u], S.index [v] with
    | some index1, some index2 =>
      let younger := if index1 < index2 then v else u
      let older := if index1 < index2 then u else v
      match S.find [younger] with
      | none => none
      | some creator =>
        let critical := if creator.data = s.data then Function.update st.1 younger (st.1 older) else st.1
        some (critical, st.2 ++ [(s.vertices, critical older)])
    | _, _ => none
  | _ => some st

/-- `tagEdges`, `ExtendedPersistenceHierarchy.hh:120-160`. -/
def tagEdges (S : Complex α) : Option (List (List ℕ × ℕ)) :=
  match S.foldlM (tagStep S) (id, []) with
  | none => none
  | some st => some st.2

/-- The complex of `makeInterlevelSet`, `ExtendedPersistenceHierarchy.hh:175-188`. -/
def interlevel (lower upper : α) (S : Complex α) : Complex α :=
  let lo := if upper < lower then upper else lower
  let hi := if upper < lower then lower else upper
  (Complex.insertRange [] (S.filter fun s => decide (lo ≤ s.data) && decide (s.data ≤ hi) && decide (Complex.dim s ≤ 1))).1

/-- The body of the loop of `makeInterlevelSet`, `ExtendedPersistenceHierarchy.hh:207-231`. -/
def interlevelStep (leftFirst : Bool) (S : Complex α) (p : ParentMap) (s : Simplex α) : Option ParentMap :=
  match s.vertices with
  | [] => none
  | [u, v] =>
    if !p.contains u || !p.contains v then some p
    else
      match p.find u with
      | none => none
      | some (p1, a) =>
        match p1.find v with
        | none => none
        | some (p2, b) =>
          if a = b then some p2
          else
            match S.index [a], S.index [b] with
            | some index1, some index2 => if index1 < index2 then p2.merge leftFirst b a else p2.merge leftFirst a b
            | _, _ => none
  | _ => some p

/-- The disjoint sets of `makeInterlevelSet`, `ExtendedPersistenceHierarchy.hh:195-233`. -/
def interlevelSets (leftFirst : Bool) (S K : Complex α) : Option ParentMap :=
  K.foldlM (interlevelStep leftFirst S) (ParentMap.ofRange K.vertices)

/-- The loop over the path, `ExtendedPersistenceHierarchy.hh:385-398`; the first argument bounds the number of rounds, `none` if it is exceeded. -/
def walk (S : Complex α) (tags : List (List ℕ × ℕ)) (p : ℕ → ℕ) (zero : α) : ℕ → ℕ → List ℕ → Option (List ℕ)
  | 0, _, _ => none
  | f + 1, v, criticalPoints =>
    let parent := p v
    match S.find (Simplex.ofRange [v, parent] zero).vertices with
    | none => none
    | some s =>
      if parent = v then some criticalPoints
      else
        match tags.lookup s.vertices with
        | none => none
        | some c => walk S tags p zero f parent (criticalPoints.insert c)

/-- Whether the two critical vertices are in the same component of the interlevel set and the path between them meets exactly two critical points,
`ExtendedPersistenceHierarchy.hh:349-403`. -/
def exactlyTwo (leftFirst : Bool) (bfs : List ℕ → List (ℕ × ℕ) → ℕ → ℕ → ℕ) (S : Complex α) (tags : List (List ℕ × ℕ)) (lower upper : α)
    (older younger : ℕ) : Option Bool :=
  let K := interlevel lower upper S
  match interlevelSets leftFirst S K with
  | none => none
  | some p =>
    if p.contains older && p.contains younger then
      match p.find older with
      | none => none
      | some (p1, a) =>
        match p1.find younger with
        | none => none
        | some (_, b) =>
          if a = b then
            let G := adjacencyGraph K
            match walk S tags (Function.update (bfs G.1 G.2 older) older older) upper (G.1.length + 1) younger [] with
            | none => none
            | some criticalPoints => some (decide (criticalPoints.length = 2))
          else some false
    else some false

/-- Loop state of `operator()`, `ExtendedPersistenceHierarchy.hh:265-295`. -/
structure State where
  uf : ParentMap
  critical : ℕ → ℕ
  pairing : List (ℕ × ℕ)
  edges : List (ℕ × ℕ)

/-- Body of the loop of `operator()`, `ExtendedPersistenceHierarchy.hh:297-442`. -/
def step (leftFirst : Bool) (bfs : List ℕ → List (ℕ × ℕ) → ℕ → ℕ → ℕ) (S : Complex α) (tags : List (List ℕ × ℕ)) (st : State) (s : Simplex α) :
    Option State :=
  match s.vertices with
  | [] => none
  | [u, v] =>
    match st.uf.find u with
    | none => none
    | some (p1, a) =>
      match p1.find v with
      | none => none
      | some (p2, b) =>
        if a = b then some { st with uf := p2 }
        else
          match S.index [a], S.index [b] with
          | some index1, some index2 =>
            let younger := if index1 < index2 then b else a
            let older := if index1 < index2 then a else b
            match S.find [younger], S.find [older], S.find [st.critical younger], S.find [st.critical older], S.index [younger], S.index s.vertices,
              p2.merge leftFirst younger older with
            | some youngerCreator, some _, some youngerCritical, some olderCritical, some creator, some destroyer, some p3 =>
              if youngerCreator.data = s.data then
                some ⟨p3, Function.update st.critical younger older, st.pairing ++ [(creator, destroyer)], st.edges⟩
              else
                match S.index [st.critical younger], S.index [st.critical older] with
                | some i, some j =>
                  let first := if i < j then (st.critical younger, youngerCritical.data) else (st.critical older, olderCritical.data)
                  let second := if i < j then st.critical older else st.critical younger
                  match exactlyTwo leftFirst bfs S tags first.2 s.data first.1 second with
                  | none => none
                  | some two =>
                    some ⟨p3, Function.update st.critical older younger, st.pairing ++ [(creator, destroyer)],
                      st.edges ++ [(if two then st.critical older else older, younger)]⟩
                | _, _ => none
            | _, _, _, _, _, _, _ => none
          | _, _ => none
  | _ => some st

/-- `operator()`, `ExtendedPersistenceHierarchy.hh:245-453`: the pairing and the edges; `idxMax` is the destroyer of unpaired vertices. -/
def hierarchy (leftFirst : Bool) (bfs : List ℕ → List (ℕ × ℕ) → ℕ → ℕ → ℕ) (K : Complex α) : Option (List (ℕ × ℕ) × List (ℕ × ℕ)) :=
  let S := (Complex.insertRange [] (K.filter fun s => decide (Complex.dim s ≤ 1))).1
  match tagEdges S with
  | none => none
  | some tags =>
    match S.foldlM (step leftFirst bfs S tags) ⟨ParentMap.ofRange S.vertices, id, [], []⟩ with
    | none => none
    | some st =>
      match st.uf.roots with
      | none => none
      | some (_, roots) =>
        match (roots.insertionSort (· ≤ ·)).mapM fun root => S.index [root] with
        | none => none
        | some is => some (st.pairing ++ is.map fun i => (i, idxMax), st.edges)

end Aleph.Hierarchy
