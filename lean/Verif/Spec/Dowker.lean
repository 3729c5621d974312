import Verif.Spec.Complex
import Mathlib.Order.Bounds.Defs
import Mathlib.Algebra.Order.Monoid.Defs
import Mathlib.Order.WithBot

/-!
# Dowker complexes of weighted relations, and lengths of walks
-/

namespace Aleph.Spec

open Finset

variable {α : Type}

/-- `K` is the Dowker complex (up to a dimension, if it is not zero) of a weighted relation between base points and
vertices.  Its simplices are the sets of vertices related to a common base point; the weight of a simplex is at most `r`
exactly if its vertices are related to a common base point with weights of at most `r`. -/
def IsDowker [LE α] (rel : ℕ → ℕ → α → Prop) (dimension : ℕ) (K : Complex α) : Prop :=
  (∀ σ : Finset ℕ, (∃ s ∈ K, s.vset = σ) ↔
    σ.Nonempty ∧ (dimension = 0 ∨ #σ ≤ dimension + 1) ∧ ∃ p, ∀ v ∈ σ, ∃ w, rel p v w) ∧
  ∀ s ∈ K, ∀ r, s.data ≤ r ↔ ∃ p, ∀ v ∈ s.vset, ∃ w ≤ r, rel p v w

/-- A directed walk in a graph with weighted edges, and its length. -/
inductive Walk [Zero α] [Add α] (E : ℕ → ℕ → α → Prop) : ℕ → ℕ → α → Prop
  | nil (i) : Walk E i i 0
  | cons {i m j w l} : E i m w → Walk E m j l → Walk E i j (w + l)

/-- The contract of a function for all lengths of shortest paths in a graph with `n` vertices and positive weights. -/
def IsApsp [Zero α] [Add α] [Preorder α] (apsp : ℕ → (ℕ → ℕ → Option α) → ℕ → ℕ → WithTop α) : Prop :=
  ∀ n g, (∀ i j w, g i j = some w → i < n ∧ j < n ∧ 0 < w) → ∀ i < n, ∀ j < n,
    ((apsp n g i j = ⊤ ↔ ¬ ∃ l, Walk (fun i j w => g i j = some w) i j l) ∧
      ∀ l : α, apsp n g i j = l ↔ IsLeast {l | Walk (fun i j w => g i j = some w) i j l} l)

/-- `order` lists the keys `f x` of a map, in some order. -/
def IsKeyOrder {β : Type} (f : β → ℕ) (l : List β) (order : List ℕ) : Prop :=
  order.Nodup ∧ ∀ p, p ∈ order ↔ ∃ x ∈ l, f x = p

end Aleph.Spec
