import Verif.Spec.Complex

/-!
# Complexes of a list of simplices
-/

namespace Aleph.Spec

/-- A complex consists of the given simplices: one for each set of vertices, in the order of their first occurrences, with the data of their first occurrence. -/
def Collects {α : Type} (K : Complex α) (entries : List (List ℕ × α)) : Prop :=
  WF K ∧ (∀ e ∈ entries, e.1.toFinset ∈ K.map Simplex.vset) ∧
  (K.map fun s => (s.vset, s.data)).Sublist (entries.map fun e => (e.1.toFinset, e.2)) ∧
  ∀ s ∈ K, (entries.find? fun e => decide (e.1.toFinset = s.vset)).map Prod.snd = some s.data

end Aleph.Spec
