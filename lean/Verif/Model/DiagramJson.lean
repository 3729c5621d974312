import Verif.Model.Diagram
import Verif.Spec.Json

/-!
# Persistence diagrams in JSON format

Models `include/aleph/persistenceDiagrams/io/JSON.hh`.  `printNat` and `print` are the insertions of numbers and coordinates into streams, `convert` is
`utilities::convert`.  The parser (RapidJSON) is not modelled: reading starts with the value that a text stands for.
-/

namespace Aleph.DiagramJson

open Spec (Json)

variable {α : Type}

/-- `level`, `JSON.hh:46`. -/
def level : List Char := [' ', ' ']

/-- A string in quotes. -/
def quoted (s : List Char) : List Char := '"' :: s ++ ['"']

/-- A line with a name and a value, `JSON.hh:50-65`. -/
def field (key value : List Char) : List Char := level ++ quoted key ++ [':', ' '] ++ value ++ [',', '\n']

/-- A point, `JSON.hh:72-76`. -/
def pointText (print : α → List Char) (p : α × α) : List Char :=
  level ++ level ++ '[' :: quoted (print p.1) ++ ',' :: quoted (print p.2) ++ [']']

/-- The loop over the points, `JSON.hh:67-77`. -/
def pointsText (print : α → List Char) : List (α × α) → List Char
  | [] => []
  | [p] => pointText print p
  | p :: q :: rest => pointText print p ++ [',', '\n'] ++ pointsText print (q :: rest)

/-- `writeJSON`, `JSON.hh:40-82`; `inf` is the second coordinate of unpaired points, `kvs` are the entries of the map in their order. -/
def write [DecidableEq α] (inf : α) (printNat : ℕ → List Char) (print : α → List Char) (name : List Char) (kvs : List (List Char × List Char))
    (D : Diagram α) : List Char :=
  ['{', '\n'] ++ field "betti".toList (printNat (D.betti inf)) ++ field "dimension".toList (printNat D.dimension) ++
    (kvs.map fun pair => field pair.1 (quoted pair.2)).flatten ++
    (if name.isEmpty then [] else field "name".toList (quoted name)) ++
    field "size".toList (printNat D.points.length) ++ level ++ quoted "diagram".toList ++ [':', ' ', '[', '\n'] ++
    pointsText print D.points ++ ['\n'] ++ level ++ [']', '\n', '}']

/-- Failures of the reader: an exception of the library, or an assertion of the JSON library (a value of the wrong type, or a missing member). -/
inductive Failure
  | exception
  | assertion
deriving DecidableEq

/-- Access to a member, `operator[]`; of members with the same name, the first one is found. -/
def member (key : List Char) : Json → Except Failure Json
  | .object ms =>
    match ms.lookup key with
    | some v => .ok v
    | none => .error .assertion
  | _ => .error .assertion

/-- `GetUint`, for numbers below `limit`. -/
def getUint (limit : ℕ) : Json → Except Failure ℕ
  | .number n => if n < limit then .ok n else .error .assertion
  | _ => .error .assertion

/-- `GetString`. -/
def getString : Json → Except Failure (List Char)
  | .text s => .ok s
  | _ => .error .assertion

/-- `GetArray`. -/
def getArray : Json → Except Failure (List Json)
  | .array vs => .ok vs
  | _ => .error .assertion

/-- A point, `JSON.hh:133-136`. -/
def readPoint (convert : List Char → α) (D : Diagram α) (v : Json) : Except Failure (Diagram α) := do
  let cs ← getArray v
  match cs with
  | a :: b :: _ =>
    let x ← getString a
    let y ← getString b
    .ok (D.add (convert x) (convert y))
  | _ => .error .assertion

/-- A diagram, `JSON.hh:122-146`. -/
def readDiagram [DecidableEq α] (inf : α) (limit : ℕ) (convert : List Char → α) (v : Json) : Except Failure (Diagram α) := do
  let dimension ← member "dimension".toList v >>= getUint limit
  let betti ← member "betti".toList v >>= getUint limit
  let size ← member "size".toList v >>= getUint limit
  let points ← member "diagram".toList v >>= getArray
  let D ← points.foldlM (readPoint convert) ((Diagram.empty : Diagram α).setDimension dimension)
  if D.points.length ≠ size then .error .exception
  else if D.betti inf ≠ betti then .error .exception
  else .ok D

/-- `readJSON`, `JSON.hh:104-158`. -/
def read [DecidableEq α] (inf : α) (limit : ℕ) (convert : List Char → α) (document : Json) : Except Failure (List (Diagram α)) :=
  match document with
  | .object ms =>
    match ms.lookup "diagrams".toList with
    | none => .error .exception
    | some v => do
      let ds ← getArray v
      ds.mapM (readDiagram inf limit convert)
  | _ => .error .assertion

end Aleph.DiagramJson
