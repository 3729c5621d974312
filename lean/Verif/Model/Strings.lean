import Mathlib.Data.List.Basic

/-!
# String functions

Models `include/aleph/utilities/String.hh`.  Strings are lists of characters.  `convert` (lines 147-191) depends on the stream
extraction of the standard library and is a parameter wherever it is used.
-/

namespace Aleph.Strings

/-- `std::isspace` in the default locale, and the class `[:space:]` of regular expressions. -/
def isSpace (c : Char) : Bool := c.toNat == 32 || (9 ≤ c.toNat && c.toNat ≤ 13)

/-- `ltrim`, `String.hh:31-41`. -/
def ltrim (s : List Char) : List Char := s.dropWhile isSpace

/-- `rtrim`, `String.hh:48-58`: `find_if_not` on the reversed sequence. -/
def rtrim (s : List Char) : List Char := (s.reverse.dropWhile isSpace).reverse

/-- `trim`, `String.hh:65-68`. -/
def trim (s : List Char) : List Char := ltrim (rtrim s)

/-- The token iterator of `split`, `String.hh:80-95`, with the regular expression `[...]+` for a set of characters
(`sep`): the parts between two matches, and the part after the last match unless it is empty.  `current` is the reversed part
that is being read, `matched` tells whether a match has been found already. -/
def splitLoop (sep : Char → Bool) (current : List Char) (matched : Bool) : List Char → List (List Char)
  | [] => if matched && current.isEmpty then [] else [current.reverse]
  | c :: s =>
    if sep c then
      if matched && current.isEmpty then splitLoop sep [] true s
      else current.reverse :: splitLoop sep [] true s
    else splitLoop sep (c :: current) matched s

/-- `split(sequence, "[...]+")`, `String.hh:80-95` (only for regular expressions of this form; calls with other
expressions are modelled where they occur). -/
def split (sep : Char → Bool) (s : List Char) : List (List Char) := splitLoop sep [] false s

/-- Repeated extraction of strings from a stream: leading whitespace is skipped, then all characters up to the next
whitespace are read; `current` is the reversed string that is being read. -/
def extract (current : List Char) : List Char → List (List Char)
  | [] => if current.isEmpty then [] else [current.reverse]
  | c :: s =>
    if isSpace c then
      if current.isEmpty then extract [] s else current.reverse :: extract [] s
    else extract (c :: current) s

/-- `splitByWhitespace`, `String.hh:103-114`. -/
def splitByWhitespace (s : List Char) : List (List Char) := extract [] s

/-- `countTokens`, `String.hh:123-131`. -/
def countTokens (s : List Char) : ℕ := (extract [] s).length

/-- Repeated `std::getline`: the parts that end with a line feed, and the part after the last one unless it is empty. -/
def getlines (current : List Char) : List Char → List (List Char)
  | [] => if current.isEmpty then [] else [current.reverse]
  | c :: s => if c = '\n' then current.reverse :: getlines [] s else getlines (c :: current) s

end Aleph.Strings
