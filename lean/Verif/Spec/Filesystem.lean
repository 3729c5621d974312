import Mathlib.Data.List.Basic

/-!
# Names of files
-/

namespace Aleph.Spec.Files

/-- The name of a file: a path is a directory, a name without slashes and slashes at its end. -/
def Filename (path name : List Char) : Prop :=
  (path = [] ∧ name = []) ∨ (path ≠ [] ∧ (∀ c ∈ path, c = '/') ∧ name = ['/']) ∨
  ∃ directory slashes, path = directory ++ name ++ slashes ∧ name ≠ [] ∧ '/' ∉ name ∧ (∀ c ∈ slashes, c = '/') ∧ ∀ c, directory.getLast? = some c → c = '/'

/-- A name consists of a stem and an extension, which starts with the last dot; names without dots and the names of special directories have no extension. -/
def Extension (name stem ext : List Char) : Prop :=
  name = stem ++ ext ∧ (('.' ∉ name ∨ name = ['.'] ∨ name = ['.', '.']) ∧ ext = [] ∨ ('.' ∈ name ∧ name ≠ ['.'] ∧ name ≠ ['.', '.']) ∧ ∃ e, ext = '.' :: e ∧ '.' ∉ e)

end Aleph.Spec.Files
