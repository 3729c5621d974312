import Verif.Spec.ZeroDimFunctor
import Verif.Model.RelevantEdges
import Mathlib.Data.Set.Card

/-!
# Relevance of edges
-/

namespace Aleph.Spec

variable {α : Type}

/-- The simplex at position `t` is the edge with the vertices `e.1 < e.2`. -/
def EdgeAt (K : Complex α) (t : ℕ) (e : ℕ × ℕ) : Prop := e.1 < e.2 ∧ vsetAt K t = {e.1, e.2}

/-- The number of vertices of the component of `v` in the complex of the first `t` simplices. -/
noncomputable def componentSize (K : Complex α) (t v : ℕ) : ℕ := (component K t v).ncard

/-- The relevance of an edge at position `t`: the size of the smaller one of the components that it joins, divided by the
size of the larger one. -/
noncomputable def relevance (K : Complex α) (t : ℕ) (e : ℕ × ℕ) : ℚ :=
  min (componentSize K t e.1 : ℚ) (componentSize K t e.2) / max (componentSize K t e.1 : ℚ) (componentSize K t e.2)

/-- The line of the log for the edge at position `t`. -/
def LogLine (K : Complex α) (labels : List String) (t : ℕ) (l : RelevantEdges.Line α) : Prop :=
  ∃ e y o u v, EdgeAt K t e ∧ MergeCall K t (.merge y o l.creation l.destruction u v) ∧ l.relevance = relevance K t e ∧
    (labels = [] → l.first = toString e.1 ∧ l.second = toString e.2) ∧
    (labels ≠ [] → labels[e.1]? = some l.first ∧ labels[e.2]? = some l.second)

end Aleph.Spec
