/-!
# Iteration over combinations

Models the functions `rotate_discontinuous`, `combine_discontinuous` and `for_each_combination` of
`include/aleph/math/Combinations.hh`.

The two iterator ranges are modelled by two lists, the callback by a function on a state `σ` that also returns
whether the iteration is to be stopped.
-/

namespace Aleph

namespace Combine

variable {σ τ : Type}

/-- `rotate_discontinuous(first1, last1, d1, first2, last2, d2)`, `Combinations.hh:66-83`. -/
def rotateDiscontinuous (A B : List τ) : List τ × List τ :=
  if A.length ≤ B.length then
    -- `std::swap_ranges( first1, last1, first2 )` followed by a rotation of the second range
    let A' := B.take A.length
    let B' := A ++ B.drop A.length
    (A', B'.drop A.length ++ B'.take A.length)
  else
    -- exchanges the last `d2` elements of both ranges, followed by a rotation of the first range
    let k := A.length - B.length
    let A' := A.take k ++ B
    let B' := A.drop k
    (A'.drop k ++ A'.take k, B')

/-- The loops over `i2` in `combine_discontinuous`, `Combinations.hh:127-135` and `136-146`.  The range
`[first1, last1)` consists of `a` and `A`; `pre` is the part of the second range before `i2`, and `post` the part
from `i2` on.  The first argument is the number of rounds, `inner` the call in the condition of the loop. -/
def loop (inner : τ → List τ → List τ → σ → σ × Bool × List τ × List τ) :
    Nat → τ → List τ → List τ → List τ → σ → σ × Bool × List τ × List τ
  | 0, a, A, pre, post, s => (s, false, a :: A, pre ++ post)
  | n + 1, a, A, pre, post, s =>
    match inner a A post s with
    | (s, true, A, post) => (s, true, a :: A, pre ++ post)
    | (s, false, A, []) => (s, false, a :: A, pre)
    | (s, false, A, b :: post) => loop inner n b A (pre ++ [a]) post s

/-- The end of `combine_discontinuous`, `Combinations.hh:147-153`: the last call of the callback and the final
rotation; `top` is the test `d == 0`, and `P` the part of the outermost first range before `first1`. -/
def finish (f : σ → List τ → σ × Bool) (top : Bool) (P : List τ) :
    σ × Bool × List τ × List τ → σ × Bool × List τ × List τ
  | (s, true, A, B) => (s, true, A, B)
  | (s, false, A, B) =>
    match f s (P ++ A) with
    | (s, true) => (s, true, A, B)
    | (s, false) =>
      if top then
        let r := rotateDiscontinuous A B
        (s, false, r.1, r.2)
      else
        let r := rotateDiscontinuous A (B.drop 1)
        (s, false, r.1, B.take 1 ++ r.2)

/-- `combine_discontinuous`, `Combinations.hh:114-154`, for ranges with the contents `A` (of length `d1`) and `B`. -/
def combine (f : σ → List τ → σ × Bool) : Nat → Bool → List τ → List τ → List τ → σ →
    σ × Bool × List τ × List τ
  | 0, _, P, A, B, s =>
    let r := f s (P ++ A)
    (r.1, r.2, A, B)
  | d1 + 1, top, P, A, B, s =>
    match A, B with
    | [], B =>
      let r := f s P
      (r.1, r.2, [], B)
    | A, [] =>
      let r := f s (P ++ A)
      (r.1, r.2, A, [])
    | a :: A, b :: B =>
      finish f top P
        (if d1 = 0 then
          loop (fun a A post s =>
            let r := f s (P ++ [a])
            (r.1, r.2, A, post)) (B.length + 1) a A [] (b :: B) s
        else
          loop (fun a A post s => combine f d1 false (P ++ [a]) A post s) (B.length + 1) a A [] (b :: B) s)

/-- `for_each_combination(first, mid, last, f)`, `Combinations.hh:440-450`, for the range `l` and the position `d`
of `mid`: the final state of the callback, whether it stopped the iteration, and the final content of the range. -/
def forEach (f : σ → List τ → σ × Bool) (d : Nat) (l : List τ) (s : σ) : σ × Bool × List τ :=
  match combine f d true [] (l.take d) (l.drop d) s with
  | (s, b, A, B) => (s, b, A ++ B)

end Combine

end Aleph
