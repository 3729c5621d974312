import Verif.Model.Strings
import Verif.Model.Complex
import Mathlib.Algebra.Order.Field.Basic
import Mathlib.Logic.Function.Basic

/-!
# Spectra

Models `include/aleph/topology/io/FlexSpectrum.hh`.  `parse` reads the two numbers at the beginning of a line (`converter >> x >> y`, line 64).
Intensities are not converted between `DataType` and `double`, and indices are not truncated.
-/

namespace Aleph.FlexSpectrum

variable {α β : Type}

/-- The maps of the reader, `FlexSpectrum.hh:151, 159`; `none` for indices without an entry. -/
structure Maps (α β : Type) where
  value : ℕ → Option β
  intensity : ℕ → Option α

/-- The local variables and the maps, `FlexSpectrum.hh:38-43, 151-159`. -/
structure State (α β : Type) where
  index : ℕ
  intensities : List α
  simplices : List (Simplex α)
  maps : Maps α β

/-- `std::isdigit`. -/
def isDigit (c : Char) : Bool := '0' ≤ c && c ≤ '9'

/-- The body of the first loop, `FlexSpectrum.hh:50-73`. -/
def line (parse : List Char → β × α) (st : State α β) (l : List Char) : State α β :=
  match l with
  | [] => st
  | c :: _ =>
    if !isDigit c then st
    else
      let x := (parse l).1
      let y := (parse l).2
      { index := st.index + 1
        intensities := st.intensities ++ [y]
        simplices := st.simplices ++ [Simplex.ofVertex st.index y]
        maps := ⟨Function.update st.maps.value st.index (some x), Function.update st.maps.intensity st.index (some y)⟩ }

/-- The second loop, `FlexSpectrum.hh:88-95`; `at` does not throw for the indices that occur. -/
def edges [LinearOrder α] (index : ℕ) (simplices : List (Simplex α)) : List (Simplex α) :=
  (List.range (index - 1)).filterMap fun i =>
    match simplices[i]?, simplices[i + 1]? with
    | some s, some t => some (Simplex.ofRange [i, i + 1] (min s.data t.data))
    | _, _ => none

/-- Everything after opening the file, `FlexSpectrum.hh:38-114`: the maps and the complex afterwards. -/
def read [Field α] [LinearOrder α] (parse : List Char → β × α) (normalize : Bool) (maps : Maps α β) (text : List Char) : Maps α β × Complex α :=
  let st := (Strings.getlines [] text).foldl (line parse) ⟨0, [], [], maps⟩
  if st.index ≤ 1 then (st.maps, (Complex.insertRange [] st.simplices).1)
  else
    let simplices := st.simplices ++ edges st.index st.simplices
    let total := st.intensities.foldl (· + ·) 0
    let simplices := if normalize then simplices.map fun s => { s with data := s.data / total } else simplices
    let maps := if normalize then ⟨st.maps.value, fun i => (st.maps.intensity i).map (· / total)⟩ else st.maps
    (maps, Complex.sort (Complex.insertRange [] simplices).1 (asLt (Filtration.data fun a b => decide (b < a))))

/-- `operator()( filename, K )`, `FlexSpectrum.hh:28-114`; `none` as argument is a file that cannot be opened, `none` as result the exception. -/
def readFile [Field α] [LinearOrder α] (parse : List Char → β × α) (normalize : Bool) (maps : Maps α β) (file : Option (List Char)) : Option (Maps α β × Complex α) :=
  file.map (read parse normalize maps)

end Aleph.FlexSpectrum
