import Verif.Model.OneDimExample
import Verif.Props.Function

/-!
# C174: the example `1D`
-/

namespace Aleph.OneDimExample

open FunctionIO

variable {α : Type} [LinearOrder α]

/-- C174. What the program does: it fails without arguments, if the file cannot be opened, and if it contains no numbers; for a single number, it writes an empty diagram.  Missing, and wrong: for two
or more numbers, there is no diagram (`C174_throws`). -/
theorem _root_.Aleph.C174_output_partial (parse : List Char → List α) (print : α → List Char) (files : List Char → Option (List Char)) (filename : List Char) (rest : List (List Char)) :
    main parse print files [] = some (-1, []) ∧ (files filename = none → main parse print files (filename :: rest) = none) ∧
    (∀ text, files filename = some text → parse text = [] → main parse print files (filename :: rest) = none) ∧
    ∀ text x, files filename = some text → parse text = [x] → main parse print files (filename :: rest) = some (0, ['\n']) := by
  refine ⟨rfl, ?_, ?_, ?_⟩
  · intro h
    simp only [main, h]
  · intro text h1 h2
    simp only [main, h1, h2]
    rfl
  · intro text x h1 h2
    obtain ⟨r, vs, e1, e2⟩ := C65_single_value .twist .vector x
    simp only [main, h1, h2, e1, e2]
    rfl

/-- C174, disagreement: for every file with at least two numbers, the program is ended by an exception. -/
theorem _root_.Aleph.C174_throws (parse : List Char → List α) (print : α → List Char) (files : List Char → Option (List Char)) (filename : List Char) (rest : List (List Char))
    (text : List Char) (h : files filename = some text) (h2 : 2 ≤ (parse text).length) (hn : 2 * (parse text).length - 1 ≤ idxMax) :
    main parse print files (filename :: rest) = none := by
  obtain ⟨r, vs, e1, e2⟩ := C65_throws .twist .vector (parse text) h2 hn
  simp only [main, h, e1, e2]

/-- Hypotheses of C174_throws: a file with three numbers. -/
example : main (fun _ => [3, 1, 2]) (fun n : ℕ => [Char.ofNat (48 + n)]) (fun _ => some "3 1 2".toList) ["f.txt".toList] = none :=
  C174_throws _ _ _ _ _ _ rfl (by simp) (by decide)

end Aleph.OneDimExample
