import Verif.Model.Complex
import Verif.Model.Strings

/-!
# Lexicographic triangulations

Models `include/aleph/topology/io/LexicographicTriangulation.hh`.  `convert` is `utilities::convert` for the vertex type.
-/

namespace Aleph.TriangulationReader

variable {α : Type}

/-- Ways in which a call may fail. -/
inductive Failure
  /-- An exception reaches the caller. -/
  | exception
  /-- The program is terminated, because an exception is thrown in a function that is declared not to do this. -/
  | terminate
  /-- The loop has not finished after the given number of rounds. -/
  | running
  deriving DecidableEq

/-- `split` with the regular expression for a single character, `String.hh:80-95` (in contrast to `Strings.split`, adjacent separators are not merged): the parts
between two matches, and the part after the last match unless it is empty. -/
def splitEach (sep : Char) (current : List Char) (matched : Bool) : List Char → List (List Char)
  | [] => if matched && current.isEmpty then [] else [current.reverse]
  | c :: s => if c = sep then current.reverse :: splitEach sep [] true s else splitEach sep (c :: current) matched s

/-- `find_first_of( c, offset )` of a string. -/
def findFrom (c : Char) (block : List Char) (offset : ℕ) : Option ℕ := ((block.drop offset).idxOf? c).map (· + offset)

/-- `isBlockFinished`, `LexicographicTriangulation.hh:119-125`. -/
def isBlockFinished (block : List Char) : Bool := block.count '[' == block.count ']'

/-- `*it` for a position in a string; the end of a string is followed by a null character. -/
def charAt (block : List Char) (it : ℕ) : Char := block.getD it '\x00'

/-- The loop of `parseBlock`, `LexicographicTriangulation.hh:156-218`, with a bound on the number of rounds. -/
def parseLoop [Zero α] (convert : List Char → ℕ) (block : List Char) : ℕ → ℕ → Complex α → List ℕ → Bool → Except Failure (Complex α)
  | 0, _, _, _, _ => .error .running
  | fuel + 1, it, K, vertices, parsingSimplex =>
    if it = block.length then .ok K
    else
      -- the last part of the body, lines 196-218
      let rest (it : ℕ) (K : Complex α) (vertices : List ℕ) (parsingSimplex : Bool) : Except Failure (Complex α) :=
        let it := if charAt block it = ',' || Strings.isSpace (charAt block it) then it + 1 else it
        if parsingSimplex then
          let offset := it
          match findFrom '[' block offset, findFrom ']' block offset with
          | some positionBegin, some positionEnd =>
            let list := Strings.trim ((block.drop (positionBegin + 1)).take (positionEnd - positionBegin - 1))
            let tokens := splitEach ',' [] false list
            parseLoop convert block fuel (it + (positionEnd - offset)) K (vertices ++ tokens.map convert) parsingSimplex
          | _, _ => .ok []
        else parseLoop convert block fuel it K vertices parsingSimplex
      if charAt block it = '[' then
        if parsingSimplex then .ok [] else rest it K vertices true
      else if charAt block it = ']' then
        if parsingSimplex then
          match Complex.pushBack K (Simplex.ofRange vertices 0) with
          | none => .error .terminate
          | some K => rest (it + 1) K [] false
        else .ok K
      else rest it K vertices parsingSimplex

/-- `parseBlock`, `LexicographicTriangulation.hh:135-221`. -/
def parseBlock [Zero α] (convert : List Char → ℕ) (fuel : ℕ) (block : List Char) : Except Failure (Complex α) :=
  if !isBlockFinished block then .ok []
  else
    let start := match findFrom '[' block 0 with
      | some p => p + 1
      | none => 0
    parseLoop convert block fuel start [] [] false

/-- The variables of the loop in `operator()`: whether a list is being parsed, the current block, and the complexes. -/
structure State (α : Type) where
  parsingList : Bool
  block : List Char
  result : List (Complex α)

/-- The body of the loop, `LexicographicTriangulation.hh:73-106`. -/
def step [Zero α] (convert : List Char → ℕ) (fuel : ℕ) (st : State α) (line : List Char) : Except Failure (State α) :=
  let line := Strings.trim line
  let pos := line.idxOf? '='
  if line.isEmpty || line.head? == some '#' then .ok st
  else do
    let st ← match pos with
      | some p =>
        if st.parsingList then .error .exception
        else .ok { st with parsingList := true, block := Strings.trim (line.drop (p + 1)) }
      | none => .ok (if st.parsingList then { st with block := Strings.trim (st.block ++ line) } else st)
    if isBlockFinished st.block then
      let K ← parseBlock convert fuel st.block
      .ok { parsingList := false, block := [], result := st.result ++ [K] }
    else .ok st

/-- `operator()( in, result )`, `LexicographicTriangulation.hh:61-109`: all complexes of a text; earlier content of the result is removed. -/
def read [Zero α] (convert : List Char → ℕ) (fuel : ℕ) (text : List Char) : Except Failure (List (Complex α)) :=
  match (Strings.getlines [] text).foldlM (step convert fuel) ⟨false, [], []⟩ with
  | .ok st => .ok st.result
  | .error e => .error e

/-- `operator()( filename, result )`, `LexicographicTriangulation.hh:52-59`; `none` is a file that cannot be opened. -/
def readFile [Zero α] (convert : List Char → ℕ) (fuel : ℕ) : Option (List Char) → Except Failure (List (Complex α))
  | none => .error .exception
  | some text => read convert fuel text

end Aleph.TriangulationReader
