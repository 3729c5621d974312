import Verif.Model.UnionFind
import Verif.Spec.Conversions
import Mathlib.Logic.Relation

/-!
# Equivalence relations generated by merges
-/

namespace Aleph.Spec

variable {α : Type}

/-- Connected by the listed pairs: the equivalence relation generated by them. -/
def Connected (ms : List (ℕ × ℕ)) : ℕ → ℕ → Prop := Relation.EqvGen fun a b => (a, b) ∈ ms

/-- The representatives after a list of directed merges `(u, v)`: initially each element
represents itself, then the representative of `v` takes over the class of `u`. -/
def repOf : List (ℕ × ℕ) → ℕ → ℕ
  | [], x => x
  | m :: ms, x => if repOf ms x = repOf ms m.1 then repOf ms m.2 else repOf ms x

/-- The pairs merged in a history of calls, latest first. -/
def mergesOf (ops : List ParentMap.Op) : List (ℕ × ℕ) :=
  (ops.filterMap fun
    | .merge _ u v => some (u, v)
    | _ => none).reverse

/-- Vertices `a` and `b` are joined by a path of edges among the first `t` simplices. -/
def Joined (K : Complex α) (t : ℕ) : ℕ → ℕ → Prop :=
  Relation.EqvGen fun a b => a ≠ b ∧ ∃ k < t, vsetAt K k = {a, b}

/-- Position `i` stores a vertex that is the oldest (first) one of its path component in the complex
of the first `t` simplices. -/
def OldestAt (K : Complex α) (t i : ℕ) : Prop :=
  ∃ v, vsetAt K i = {v} ∧ ∀ i' w, vsetAt K i' = {w} → Joined K t v w → i ≤ i'

end Aleph.Spec
