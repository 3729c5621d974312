import Verif.Spec.UnionFind
import Verif.Spec.Rips
import Verif.Model.ZeroDimFunctor

/-!
# Calls of the functor in zero-dimensional persistence
-/

namespace Aleph.Spec

variable {σ α : Type}

/-- One call of the functor. -/
inductive Call (α : Type)
  | init (v : ℕ)
  | merge (younger older : ℕ) (creation destruction : α) (u v : ℕ)
  | root (r : ℕ) (creation : α)

/-- The effect of a call. -/
def Call.on (F : Visitor σ α) (x : σ) : Call α → Option σ
  | .init v => F.init v x
  | .merge y o c d u v => F.merge y o c d u v x
  | .root r c => F.root r c x

/-- The simplex at position `t` is an edge between two different components of the complex of the first `t` simplices. -/
def Bridges (K : Complex α) (t : ℕ) : Prop := ∃ u v, u ≠ v ∧ vsetAt K t = {u, v} ∧ ¬ Joined K t u v

/-- The call for the edge at position `t`: its vertices are `u` and `v`, its data is the destruction; before, the
components of `u` and `v` have the oldest vertices `y` and `o`, in some order; `y` is younger than `o`, and its data is the
creation. -/
def MergeCall (K : Complex α) (t : ℕ) : Call α → Prop
  | .merge y o c d u v =>
    K[t]? = some ⟨[u, v], d⟩ ∧ ¬ Joined K t u v ∧
    ((Joined K t u y ∧ Joined K t v o) ∨ (Joined K t u o ∧ Joined K t v y)) ∧
    ∃ i j, K[i]? = some ⟨[y], c⟩ ∧ vsetAt K j = {o} ∧ OldestAt K t i ∧ OldestAt K t j ∧ j < i
  | _ => False

/-- The call for the component whose oldest vertex is at position `i`. -/
def RootCall (K : Complex α) (i : ℕ) : Call α → Prop
  | .root r c => K[i]? = some ⟨[r], c⟩
  | _ => False

/-- The point of the diagram and the pair of positions for a call: creation and destruction, and the positions of the oldest vertex
and of the edge; the components at the end are paired with the largest index and destroyed at infinity. -/
def EntryOf (K : Complex α) (inf : α) : Call α → (α × α) × (ℕ × ℕ) → Prop
  | .merge y _ c d u v, p => p.1 = (c, d) ∧ vsetAt K p.2.1 = {y} ∧ vsetAt K p.2.2 = {u, v}
  | .root r c, p => p.1 = (c, inf) ∧ vsetAt K p.2.1 = {r} ∧ p.2.2 = idxMax
  | _, _ => False

/-- The vertices of the component of `r` in the complex of the first `t` simplices. -/
def component (K : Complex α) (t r : ℕ) : Set ℕ := {w | Has K {w} ∧ Joined K t r w}

end Aleph.Spec
