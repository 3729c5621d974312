import Verif.Model.Complex

/-!
# Random graphs

Models `include/aleph/topology/RandomGraph.hh`.  The random numbers are given by a sequence `draw`; the call number `t` of the distribution
yields `draw t`.  They are elements of a linear order.
-/

namespace Aleph.RandomGraph

variable {β : Type} [LinearOrder β]

/-- The values of the loop `for( unsigned v = u+1; v < n; v++ )`, `RandomGraph.hh:40` and `RandomGraph.hh:70`. -/
def others (n u : ℕ) : List ℕ := List.range' (u + 1) (n - (u + 1))

/-- The inner loop of `generateErdosRenyiGraph`, `RandomGraph.hh:40-42`; the state is the number of calls of the distribution and the
simplices. -/
def rowLoop (draw : ℕ → β) (p : β) (u : ℕ) (st : ℕ × List (Simplex ℤ)) (vs : List ℕ) : ℕ × List (Simplex ℤ) :=
  vs.foldl (fun st v =>
    if draw st.1 < p then (st.1 + 1, st.2 ++ [Simplex.ofRange [u, v] 0]) else (st.1 + 1, st.2)) st

/-- `generateErdosRenyiGraph`, `RandomGraph.hh:25-45`. -/
def erdosRenyi (draw : ℕ → β) (n : ℕ) (p : β) : Complex ℤ :=
  let simplices := (List.range n).map fun i => Simplex.ofVertex i 0
  let (_, simplices) := (List.range n).foldl (fun st u => rowLoop draw p u st (others n u)) (0, simplices)
  (Complex.insertRange [] simplices).1

/-- The loop `while( distribution( mt ) < p ) ++w;`, `RandomGraph.hh:76-77`: the number of calls and the weight afterwards (simplification:
the weight does not overflow).  The first argument bounds the number of iterations; `none` if it is exceeded. -/
def trials (draw : ℕ → β) (p : β) : ℕ → ℕ → ℕ → Option (ℕ × ℕ)
  | 0, _, _ => none
  | fuel + 1, t, w => if draw t < p then trials draw p fuel (t + 1) (w + 1) else some (t + 1, w)

/-- The inner loop of `generateWeightedRandomGraph`, `RandomGraph.hh:70-81`. -/
def weightedRowLoop (draw : ℕ → β) (p : β) (fuel u : ℕ) (st : ℕ × List (Simplex ℕ)) (vs : List ℕ) : Option (ℕ × List (Simplex ℕ)) :=
  vs.foldlM (fun st v => do
    let (t, w) ← trials draw p fuel st.1 0
    if w ≠ 0 then some (t, st.2 ++ [Simplex.ofRange [u, v] w]) else some (t, st.2)) st

/-- `generateWeightedRandomGraph`, `RandomGraph.hh:54-88`; `none` if one of the inner loops needs more than `fuel` iterations. -/
def weighted (draw : ℕ → β) (n : ℕ) (p : β) (fuel : ℕ) : Option (Complex ℕ) := do
  let simplices := (List.range n).map fun i => Simplex.ofVertex i 0
  let (_, simplices) ← (List.range n).foldlM (fun st u => weightedRowLoop draw p fuel u st (others n u)) (0, simplices)
  let simplices := Complex.sort simplices (asLt (Filtration.data fun a b => decide (a < b)))
  some (Complex.insertRange [] simplices).1

end Aleph.RandomGraph
