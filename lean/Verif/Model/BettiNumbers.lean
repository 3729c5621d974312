import Verif.Model.Conversions
import Verif.Model.GmlReader
import Verif.Model.Filesystem

/-!
# The tool `betti_numbers`

Models `src/tools/betti_numbers.cc`.  `files` yields the texts of files; the parameters `number`, `convert` and `f` are those of the reader for GML files.
-/

namespace Aleph.BettiNumbers

open GmlReader (Failure)

variable {α : Type}

/-- The characters that `.` does not match in a regular expression. -/
def isLineEnd (c : Char) : Bool := c == '\n' || c == '\r'

/-- The first group of the match of the regular expression `\D*([[:digit:]]+).*`, `betti_numbers.cc:81-86`. -/
def matchId (name : List Char) : Option (List Char) :=
  let rest := name.dropWhile fun c => !c.isDigit
  if rest.isEmpty || (rest.dropWhile Char.isDigit).any isLineEnd then none else some (rest.takeWhile Char.isDigit)

/-- The value of decimal digits, as calculated by `std::stoull`. -/
def value (digits : List Char) : ℕ := digits.foldl (fun v d => 10 * v + (d.toNat - '0'.toNat)) 0

/-- The identifier of a file, `betti_numbers.cc:78-86, 93-94`: `ulongMax` is the largest number of the type `unsigned long long`; the conversion to `unsigned` takes a remainder. -/
def idOf (ulongMax : ℕ) (filename : List Char) : Except Failure ℕ :=
  match matchId (Filesystem.basename filename) with
  | none => .error .exception
  | some digits => if value digits > ulongMax then .error .exception else .ok (value digits % (idxMax + 1))

/-- The number that is stored for a complex, `betti_numbers.cc:65-73, 88-91`, with the default algorithm and the default representation
(`config/Defaults.hh`). -/
def bettiOf [DecidableEq α] (inf : α) (K : Complex α) : Except Failure ℕ :=
  match calculatePersistenceDiagrams .twist .vector inf (K.sort Simplex.lt) true true with
  | none => .error .undefined
  | some diagrams =>
    match diagrams with
    | _ :: D :: _ => .ok (D.betti inf % (idxMax + 1))
    | _ => .ok 0

/-- `id_to_betti[id] = b`, `betti_numbers.cc:89, 91`: the map as a list with ascending keys. -/
def assign (id b : ℕ) : List (ℕ × ℕ) → List (ℕ × ℕ)
  | [] => [(id, b)]
  | (i, c) :: m => if id < i then (id, b) :: (i, c) :: m else if id = i then (id, b) :: m else (i, c) :: assign id b m

/-- The loop over all files, `betti_numbers.cc:57-95`. -/
def process [Zero α] [DecidableEq α] (number : List Char → GmlReader.Parsed) (convert : List Char → α) (f : α → α → α) (inf : α) (ulongMax : ℕ)
    (files : List Char → Option (List Char)) : List (List Char) → List (ℕ × ℕ) → Except Failure (List (ℕ × ℕ))
  | [], m => .ok m
  | filename :: rest, m =>
    match GmlReader.readFile number convert f (files filename) with
    | .error e => .error e
    | .ok (_, K) =>
      match bettiOf inf K with
      | .error e => .error e
      | .ok b =>
        match idOf ulongMax filename with
        | .error e => .error e
        | .ok id => process number convert f inf ulongMax files rest (assign id b m)

/-- The lines of the output, `betti_numbers.cc:100-103`. -/
def render (m : List (ℕ × ℕ)) : List Char :=
  (m.flatMap fun p => Nat.toDigits 10 p.1 ++ ['\t'] ++ Nat.toDigits 10 p.2 ++ ['\n']) ++ ['\n', '\n']

/-- `main`, `betti_numbers.cc:33-104`: the result and the output. -/
def main [Zero α] [DecidableEq α] (number : List Char → GmlReader.Parsed) (convert : List Char → α) (f : α → α → α) (inf : α) (ulongMax : ℕ)
    (files : List Char → Option (List Char)) (arguments : List (List Char)) : Except Failure (ℤ × List Char) :=
  if arguments.isEmpty then .ok (-1, [])
  else
    match process number convert f inf ulongMax files arguments [] with
    | .error e => .error e
    | .ok m => .ok (0, render m)

end Aleph.BettiNumbers
