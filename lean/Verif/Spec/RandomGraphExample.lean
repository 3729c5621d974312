import Verif.Spec.GmlReader
import Verif.Spec.RandomGraph

/-!
# Specification: texts of random graphs
-/

namespace Aleph.Spec

open Gml Pajek

/-- A text in GML format that describes a graph with vertices `0, …, n - 1`: two vertices `u < v` are adjacent if `weight u v` has a value, which is the weight of their edge.  This is what a
reader obtains from the text, whatever it does with weights of nodes, provided that it reads numbers correctly. -/
def IsGraphText {α : Type} [Zero α] [NatCast α] (n : ℕ) (weight : ℕ → ℕ → Option α) (text : List Char) : Prop :=
  ∀ (number : List Char → GmlReader.Parsed) (convert : List Char → α) (f : α → α → α), (∀ d v, Numeral d v → number d = .value v) → (∀ d v, Numeral d v → convert d = v) →
    ∃ st K, GmlReader.read number convert f text = .ok (st, K) ∧ IsGraphOn n K ∧ ∀ u v w, u < v → v < n → (HasData K {u, v} w ↔ weight u v = some w)

end Aleph.Spec
