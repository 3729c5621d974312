import Verif.Spec.Homology
import Verif.Spec.Json
import Verif.Spec.Subdivision
import Mathlib.Data.List.Lex
import Mathlib.Algebra.BigOperators.Group.Finset.Defs
import Mathlib.Algebra.Ring.Int.Defs

/-!
# Specification vocabulary for the tool `wicked_triangulations`
-/

namespace Aleph.Spec.Wicked

open Finset

/-- A perversity for a space of dimension `d`: numbers `p 1, …, p d` with `-1 ≤ p k ≤ k - 1`. -/
def IsPerversity (d : ℕ) (p : List ℤ) : Prop :=
  p.length = d ∧ ∀ (k : ℕ) (v : ℤ), p[k]? = some v → -1 ≤ v ∧ v ≤ k

/-- `b` is the Betti number in dimension `d` of a family of simplices: there are `2 ^ b` times as many cycles as boundaries. -/
def IsBetti (S : Finset (Finset ℕ)) (d b : ℕ) : Prop := #(setCycles S d) = 2 ^ b * #(setBoundaries S d)

/-- `b` is the Betti number in dimension `d` of intersection homology, where `A` are the allowable simplices: only chains of allowable simplices with a boundary of allowable
simplices are considered. -/
def IsIntersectionBetti (A : Finset (Finset ℕ)) (d b : ℕ) : Prop :=
  #{c ∈ setChains A d | setBd c = ∅} = 2 ^ b * #(({c ∈ setChains A (d + 1) | setBd c ⊆ A} : Finset _).image setBd)

/-- The Euler characteristic of a family of simplices. -/
def eulerOf (S : Finset (Finset ℕ)) : ℤ := ∑ σ ∈ S, (-1 : ℤ) ^ (#σ - 1)

/-- A list describes Betti numbers up to a dimension `D`. -/
def AreBetti (b : ℕ → ℕ → Prop) (D : ℕ) (s : List ℕ) : Prop := s.length = D + 1 ∧ ∀ (d n : ℕ), s[d]? = some n → b d n

/-- The largest dimension of a family of simplices is `D`. -/
def HasDimension (S : Finset (Finset ℕ)) (D : ℕ) : Prop := (∃ σ ∈ S, #σ = D + 1) ∧ ∀ σ ∈ S, #σ ≤ D + 1

/-- All faces of the simplices with the given vertices. -/
def faces (fs : List (List ℕ)) : Finset (Finset ℕ) := {σ ∈ fs.toFinset.biUnion fun f => f.toFinset.powerset | σ.Nonempty}

/-- The flags of a family of simplices. -/
def flags (S : Finset (Finset ℕ)) : Finset (Finset (Finset ℕ)) := {C ∈ S.powerset | IsFlag S C}

/-- A numbering of simplices: vertices keep their numbers, the other simplices have different numbers. -/
structure IsNumbering (S : Finset (Finset ℕ)) (b : Finset ℕ → ℕ) : Prop where
  inj : Set.InjOn b (S : Set (Finset ℕ))
  vertex : ∀ v, {v} ∈ S → b {v} = v
  new : ∀ s ∈ S, 1 < #s → ∀ v, {v} ∈ S → v < b s

/-- The barycentric subdivision. -/
def subdivided (S : Finset (Finset ℕ)) (b : Finset ℕ → ℕ) : Finset (Finset ℕ) := (flags S).image fun C => C.image b

/-- The simplices of the subdivision of a space of dimension `D` that are allowable for a perversity, where the strata are the skeletons of the space: the intersection of a simplex and the skeleton
of dimension `D - k`, i.e. the face whose vertices stand for simplices of at most this dimension, is empty or has at most the dimension of the simplex, minus `k`, plus `p k`. -/
def allowable (S : Finset (Finset ℕ)) (b : Finset ℕ → ℕ) (D : ℕ) (p : List ℤ) : Finset (Finset ℕ) :=
  ({C ∈ flags S | ∀ k : Fin p.length, (∃ s ∈ C, #s ≤ D - k) → (#{s ∈ C | #s ≤ D - k} : ℤ) - 1 ≤ (#C : ℤ) - 1 - (k + 1) + p[k]} : Finset _).image fun C => C.image b

/-- The simplices of the subdivision that contain no vertex of the original space, or have at least the dimension `k - p k`, for all `k`. -/
def permitted (S : Finset (Finset ℕ)) (b : Finset ℕ → ℕ) (p : List ℤ) : Finset (Finset ℕ) :=
  {σ ∈ subdivided S b | (∃ v ∈ σ, {v} ∈ S) → ∀ k : Fin p.length, (k : ℤ) + 1 - p[k] ≤ (#σ : ℤ) - 1}

/-- The JSON value for one complex with Betti numbers `s`. -/
def homologyValue (s : List ℕ) (chi : ℤ) : Json :=
  .object [("betti".toList, .array (s.map .number)), ("euler".toList, .integer chi)]

/-- The JSON value for one perversity with the Betti numbers of intersection homology. -/
def perversityValue (p : List ℤ) (s : List ℕ) : Json :=
  .object [("perversity".toList, .array (p.map .integer)), ("betti".toList, .array (s.map .number))]

/-- The members of an object with the keys `0, 1, 2, …`. -/
def Indexed (vs : List Json) (ms : List (List Char × Json)) : Prop :=
  List.Forall₂ (fun v m => m.2 = v) vs ms ∧ ∀ (i : ℕ) m, ms[i]? = some m → IsDecimal m.1 i

end Aleph.Spec.Wicked
