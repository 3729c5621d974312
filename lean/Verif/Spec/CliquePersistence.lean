import Verif.Spec.ZeroDimFunctor
import Verif.Model.CliquePersistence
import Verif.Spec.Conversions
import Mathlib.Data.Set.Card
import Mathlib.Algebra.BigOperators.Group.Finset.Defs
import Mathlib.Algebra.Group.Prod

/-!
# Persistence of clique communities
-/

namespace Aleph.Spec

open Finset

variable {α : Type}

/-- The clique graph of `L`: its vertices are the positions of the simplices with `k + 1` vertices, with their data; two of them are joined
by an edge if they share `k` vertices, with the maximum of their data. -/
def IsCliqueGraph [LinearOrder α] (L : Complex α) (k : ℕ) (C : Complex α) : Prop :=
  ∀ t x, HasData C t x ↔
    (∃ i s, L[i]? = some s ∧ #s.vset = k + 1 ∧ t = {i} ∧ x = s.data) ∨
    ∃ i j s s', L[i]? = some s ∧ L[j]? = some s' ∧ #s.vset = k + 1 ∧ #s'.vset = k + 1 ∧ #(s.vset ∩ s'.vset) = k ∧ t = {i, j} ∧
      x = max s.data s'.data

/-- The component of the filtration `C` whose oldest vertex is `y`: its members before it is merged into an older one, and its creation
and destruction. The components at the end are destroyed at `top`. -/
inductive Life (C : Complex α) (top : α) (y : ℕ) : Set ℕ → α → α → Prop
  | dies (t o u v : ℕ) (c d : α) : MergeCall C t (.merge y o c d u v) → Life C top y (component C t y) c d
  | stays (i : ℕ) (c : α) : OldestAt C C.length i → RootCall C i (.root y c) → Life C top y (component C C.length y) c top

/-- `y` is the oldest vertex of its component at the end. -/
def Essential (C : Complex α) (y : ℕ) : Prop := ∃ i, vsetAt C i = {y} ∧ OldestAt C C.length i

/-- The vertex belongs to some simplex of a set of positions. -/
def Covers (L : Complex α) (S : Set ℕ) (v : ℕ) : Prop := ∃ i ∈ S, v ∈ vsetAt L i

/-- The communities of the cliques with `k + 1` vertices: their graph, and members, creation and destruction of the communities, by
their oldest cliques. -/
structure CliqueLevel (α : Type) where
  k : ℕ
  graph : Complex α
  members : ℕ → Set ℕ
  birth : ℕ → α
  death : ℕ → α

/-- The components are those of the clique graph of `L` in the order of its weights. -/
structure CliqueLevel.Correct [LinearOrder α] (L : Complex α) (top : α) (l : CliqueLevel α) : Prop where
  filtration : IsFiltration l.graph
  sorted : l.graph.Pairwise fun s t => s.data ≤ t.data
  graph : IsCliqueGraph L l.k l.graph
  life : ∀ y, Has l.graph {y} → Life l.graph top y (l.members y) (l.birth y) (l.death y)

/-- Communities of positive persistence and communities at the end. -/
def CliqueLevel.Relevant (l : CliqueLevel α) (y : ℕ) : Prop := Essential l.graph y ∨ l.birth y ≠ l.death y

/-- The output for one `k`: creation, destruction and size of each relevant community. -/
def CliqueLevel.Output (l : CliqueLevel α) (rows : List (CliquePersistence.Row α)) : Prop :=
  ∃ ys : List ℕ, ys.Nodup ∧ (∀ y, y ∈ ys ↔ Has l.graph {y} ∧ l.Relevant y) ∧
    List.Forall₂ (fun y (r : CliquePersistence.Row α) => r.x = l.birth y ∧ r.y = l.death y ∧ r.size = (l.members y).ncard) ys rows

open Classical in
/-- The sum of the squares of the persistence of all relevant communities with a clique that contains `v`, and their number. -/
noncomputable def CliqueLevel.centrality [Ring α] (L : Complex α) (l : CliqueLevel α) (v : ℕ) : α × ℕ :=
  ∑ y ∈ range L.length with #(vsetAt L y) = l.k + 1, if Covers L (l.members y) v ∧ l.Relevant y then ((l.death y - l.birth y) ^ 2, 1) else 0

/-- The graphs that are considered: `k` from `maxK` down to 1, if there are cliques with `k + 1` vertices; unless empty graphs are ignored,
those after the first empty one are not considered. -/
def Considered (L : Complex α) (ignoreEmpty : Bool) (maxK k : ℕ) : Prop :=
  1 ≤ k ∧ k ≤ maxK ∧ (∃ s ∈ L, #s.vset = k + 1) ∧ (ignoreEmpty = false → ∀ j, k ≤ j → j ≤ maxK → ∃ s ∈ L, #s.vset = j + 1)

/-- The label in the line of a vertex: none without labels, else the label of the vertex, in quotes if it contains blanks or tabs. -/
def LabelOf (labels : List (ℕ × List Char)) (v : ℕ) (r : Option (List Char)) : Prop :=
  (labels = [] ∧ r = none) ∨ ∃ t, labels.lookup v = some t ∧
    (('\t' ∉ t ∧ ' ' ∉ t ∧ r = some t) ∨ (('\t' ∈ t ∨ ' ' ∈ t) ∧ r = some ('"' :: t ++ ['"'])))

end Aleph.Spec
