import Verif.Model.Diagram

/-!
# Diagrams with the same points
-/

namespace Aleph.Spec

/-- Two diagrams have the same points, with multiplicities, apart from those on the diagonal. -/
def SamePoints {α : Type} [DecidableEq α] (D E : Diagram α) : Prop := (D.points.filter fun p => p.1 ≠ p.2).Perm (E.points.filter fun p => p.1 ≠ p.2)

end Aleph.Spec
