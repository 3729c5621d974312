import Verif.Spec.UnionFind

/-!
# The extended persistence hierarchy

`S` is a filtered graph, i.e. a complex of vertices and edges, in filtration order.
-/

namespace Aleph.Spec.Hierarchy

open Finset

variable {α : Type}

/-- The vertices of a path from `a`, the last one first. -/
inductive Path (adj : ℕ → ℕ → Prop) (a : ℕ) : List ℕ → ℕ → Prop
  | start : Path adj a [a] a
  | step (w : List ℕ) (b c : ℕ) : Path adj a w b → adj b c → Path adj a (c :: w) c

/-- A path with the least number of vertices. -/
def Shortest (adj : ℕ → ℕ → Prop) (a : ℕ) (w : List ℕ) (b : ℕ) : Prop := Path adj a w b ∧ ∀ w', Path adj a w' b → w.length ≤ w'.length

/-- Breadth-first search: the predecessor of every vertex that is reached, other than the source, precedes it on a shortest path. -/
def IsSearch (bfs : List ℕ → List (ℕ × ℕ) → ℕ → ℕ → ℕ) : Prop :=
  ∀ vs es a b w, a ≠ b → Path (fun x y => (x, y) ∈ es ∨ (y, x) ∈ es) a w b →
    ∃ w', Shortest (fun x y => (x, y) ∈ es ∨ (y, x) ∈ es) a (b :: bfs vs es a b :: w') b

/-- The data at two positions is the same. -/
def SameData (S : Complex α) (i j : ℕ) : Prop := ∃ s t, S[i]? = some s ∧ S[j]? = some t ∧ s.data = t.data

/-- The edge at position `k` connects `v` to the older vertex `o` and has the data of `v`. -/
def Closes (S : Complex α) (k v o : ℕ) : Prop := ∃ i j, vsetAt S i = {v} ∧ vsetAt S j = {o} ∧ j < i ∧ vsetAt S k = {v, o} ∧ SameData S i k

/-- The critical point that a vertex belongs to, before position `t`: follow the latest edges that have the data of their younger vertex. -/
inductive Region (S : Complex α) : ℕ → ℕ → ℕ → Prop
  | own (t v : ℕ) : (∀ k < t, ∀ o, ¬ Closes S k v o) → Region S t v v
  | follow (t k v o c : ℕ) : k < t → Closes S k v o → (∀ k', k < k' → k' < t → ∀ o', ¬ Closes S k' v o') → Region S k o c → Region S t v c

/-- The critical point that an edge belongs to is the one of its older vertex. -/
def Tag (S : Complex α) (a b c : ℕ) : Prop :=
  ∃ k i j o y, vsetAt S k = {a, b} ∧ vsetAt S k = {o, y} ∧ vsetAt S i = {o} ∧ vsetAt S j = {y} ∧ i < j ∧ Region S k o c

/-- The edges of a path belong to exactly two critical points. -/
def TwoTags (S : Complex α) (w : List ℕ) : Prop :=
  ∃ c d, c ≠ d ∧ ∀ e, (∃ l a b r, w = l ++ a :: b :: r ∧ Tag S a b e) ↔ e = c ∨ e = d

/-- The edge at position `t` merges the component with oldest vertex `y` into the component with the even older vertex `o`. -/
def Merges (S : Complex α) (t y o : ℕ) : Prop :=
  ∃ u v i j, u ≠ v ∧ vsetAt S t = {u, v} ∧ vsetAt S i = {y} ∧ vsetAt S j = {o} ∧ j < i ∧ OldestAt S t i ∧ OldestAt S t j ∧
    Joined S t u y ∧ Joined S t v o

/-- The data of the vertex `y` differs from that at position `t`. -/
def Lasting (S : Complex α) (t y : ℕ) : Prop := ∃ i, vsetAt S i = {y} ∧ ¬ SameData S i t

/-- The vertex that was merged into `o` most recently before `t` with positive persistence, or `o` itself. -/
def Latest (S : Complex α) (t o c : ℕ) : Prop :=
  (c = o ∧ ∀ t' < t, ∀ y, Merges S t' y o → ¬ Lasting S t' y) ∨
  ∃ t' < t, Merges S t' c o ∧ Lasting S t' c ∧ ∀ t'', t' < t'' → t'' < t → ∀ y, Merges S t'' y o → ¬ Lasting S t'' y

/-- The data at position `k` lies between those at `i` and `j`. -/
def Between [LinearOrder α] (S : Complex α) (i j k : ℕ) : Prop :=
  ∃ a b c, S[i]? = some a ∧ S[j]? = some b ∧ S[k]? = some c ∧ min a.data b.data ≤ c.data ∧ c.data ≤ max a.data b.data

/-- Edges of the interlevel set between the data at positions `i` and `j`. -/
def LevelEdge [LinearOrder α] (S : Complex α) (i j : ℕ) (x y : ℕ) : Prop :=
  x ≠ y ∧ ∃ p q k, vsetAt S p = {x} ∧ vsetAt S q = {y} ∧ vsetAt S k = {x, y} ∧ Between S i j p ∧ Between S i j q ∧ Between S i j k

/-- The rule for the parent `p` of the component `y` that is destroyed at position `t`. -/
def ParentRule [LinearOrder α] (S : Complex α) (t p y : ℕ) : Prop :=
  ∃ o cy co a b i j, Merges S t y o ∧ Latest S t y cy ∧ Latest S t o co ∧ (a = cy ∧ b = co ∨ a = co ∧ b = cy) ∧
    vsetAt S i = {a} ∧ vsetAt S j = {b} ∧ i < j ∧
    (p = co ∧ (∃ w, Shortest (LevelEdge S i t) a w b ∧ TwoTags S w) ∨
     p = o ∧ ((∃ w, Shortest (LevelEdge S i t) a w b ∧ ¬ TwoTags S w) ∨ ¬ ∃ w, Path (LevelEdge S i t) a w b))

/-- The vertices and edges of a complex, in the same order. -/
def graphOf (K : Complex α) : Complex α := List.filter (fun s => #s.vset ≤ 2) K

/-- The data of the vertex `y` differs from that of the simplex that destroys its component, in the graph of `K`. -/
def Persistent (K : Complex α) (y : ℕ) : Prop :=
  ∃ i j, vsetAt (graphOf K) i = {y} ∧ PersPair (facets (graphOf K)) i j ∧ ¬ SameData (graphOf K) i j

end Aleph.Spec.Hierarchy
