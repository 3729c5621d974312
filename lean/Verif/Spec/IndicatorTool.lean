import Verif.Model.StepFunction

/-!
# Specification: persistence indicator functions in files
-/

namespace Aleph.Spec

variable {α : Type}

/-- A step function as a text: for each interval there are two lines, one for each end point, which contain the end point and the value of the function. -/
inductive IsStepText (print : α → List Char) : Step.Fn α → List Char → Prop
  | nil : IsStepText print [] []
  | cons (a b y : α) (f : Step.Fn α) (text : List Char) : IsStepText print f text →
      IsStepText print (⟨a, b, y⟩ :: f) (print a ++ '\t' :: print y ++ '\n' :: print b ++ '\t' :: print y ++ '\n' :: text)

/-- The name of a directory, with a slash at its end; a directory without name is the one for temporary files. -/
def IsDirectory (word dir : List Char) : Prop :=
  word = [] ∧ dir = "/tmp/".toList ∨ (∃ w, word = w ++ ['/']) ∧ dir = word ∨ word ≠ [] ∧ (¬∃ w, word = w ++ ['/']) ∧ dir = word ++ ['/']

/-- The contents of a file after several files have been written, one after the other. -/
def FileContents (out : List (List Char × List Char)) (name text : List Char) : Prop :=
  ∃ before after, out = before ++ (name, text) :: after ∧ ∀ x ∈ after, x.1 ≠ name

end Aleph.Spec
