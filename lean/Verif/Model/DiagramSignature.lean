import Verif.Model.Hausdorff
import Verif.Model.TextReaders
import Mathlib.Algebra.Order.Field.Basic

/-!
# The tool `make_signature`

Models `src/tools/make_signature.cc`.

Data are elements of an ordered field; simplification: arithmetic is exact.  `inf` is the second coordinate of unpaired points.  `convert` is the conversion of words to numbers; messages on standard
error are not modelled.
-/

namespace Aleph.DiagramSignature

variable {α : Type}

/-- What may happen instead of an ordinary end of the program. -/
inductive Failure
  | exception
  deriving DecidableEq

/-- `filterDiagram`, `make_signature.cc:24-42`. -/
def filterDiagram [AddGroup α] [LinearOrder α] (lower : Bool) (threshold : α) (D : Diagram α) : Diagram α :=
  { D with points := D.points.filter fun p => !(if lower then decide (|p.2 - p.1| < threshold) else decide (|p.2 - p.1| > threshold)) }

/-- The smallest and the largest coordinate, `make_signature.cc:46-47` and `make_signature.cc:52-56`; `maxv` and `lowest` are the largest and the smallest number. -/
def range [LinearOrder α] (maxv lowest : α) (points : List (α × α)) : α × α :=
  points.foldl (fun r p => (min r.1 (min p.1 p.2), max r.2 (max p.1 p.2))) (maxv, lowest)

/-- `normalizeDiagram`, `make_signature.cc:44-72`. -/
def normalizeDiagram [Field α] [LinearOrder α] (inf maxv lowest : α) (D : Diagram α) : Except Failure (Diagram α) :=
  if D.betti inf ≠ 0 then .error .exception
  else
    let r := range maxv lowest D.points
    if r.1 = r.2 then .ok D
    else .ok { D with points := D.points.map fun p => ((p.1 - r.1) / (r.2 - r.1), (p.2 - r.1) / (r.2 - r.1)) }

/-- The value of a pair of points, `make_signature.cc:87-91`. -/
def value [AddGroup α] [LinearOrder α] (p q : α × α) : α := min (infinityDistance p q) (min |p.2 - p.1| |q.2 - q.1|)

/-- The loops over all pairs, `make_signature.cc:83-93`. -/
def pairValues [AddGroup α] [LinearOrder α] : List (α × α) → List α
  | [] => []
  | p :: l => l.map (value p) ++ pairValues l

/-- The argument of `reserve`, `make_signature.cc:81`: unsigned arithmetic modulo `word`. -/
def request (word n : ℕ) : ℕ := ((n * n + (word - 1)) % word) / 2

/-- `makeSignature`, `make_signature.cc:74-99`; `reserve` raises an exception for more than `maxSize` elements (a lack of memory for a smaller number is not modelled). -/
def makeSignature [AddGroup α] [LinearOrder α] (word maxSize : ℕ) (D : Diagram α) : Except Failure (List α) :=
  if request word D.points.length > maxSize then .error .exception
  else .ok ((pairValues D.points).insertionSort fun x y => y ≤ x)

/-- `resize`, `make_signature.cc:190-191`. -/
def kept [Zero α] (keep : ℕ) (s : List α) : List α :=
  if keep ≠ 0 then s.take keep ++ List.replicate (keep - s.length) 0 else s

/-- The loop of `printSignature`, `make_signature.cc:106-112`. -/
def spaced (print : α → List Char) : List α → List Char
  | [] => []
  | x :: l => print x ++ l.flatMap fun y => ' ' :: print y

/-- `printSignature`, `make_signature.cc:101-115`. -/
def printSignature (print : α → List Char) (s : List α) : List Char := spaced print s ++ ['\n']

/-- The options, `make_signature.cc:124-130`; any other option is ignored. -/
inductive Opt (α : Type)
  | filter (x : α)
  | keep (n : ℕ)
  | normalize
  | unknown

/-- The variables that are set by the options, `make_signature.cc:119-121`. -/
structure Settings (α : Type) where
  normalized : Bool
  number : ℕ
  threshold : α

/-- The cases of the `switch`, `make_signature.cc:136-149`; `unsignedMax` is the largest value of this type. -/
def setOption (unsignedMax : ℕ) (s : Settings α) : Opt α → Settings α
  | .filter x => { s with threshold := x }
  | .keep n => { s with number := n % (unsignedMax + 1) }
  | .normalize => { s with normalized := true }
  | .unknown => s

/-- The initial values and the loop over all options, `make_signature.cc:119-151`. -/
def settings [Zero α] (unsignedMax : ℕ) (opts : List (Opt α)) : Settings α := opts.foldl (setOption unsignedMax) ⟨false, 0, 0⟩

/-- The changes of a diagram after it has been loaded, `make_signature.cc:166-183`. -/
def prepare [Field α] [LinearOrder α] (inf maxv lowest : α) (s : Settings α) (D : Diagram α) : Except Failure (Diagram α) :=
  let D := if s.threshold ≠ 0 then filterDiagram true s.threshold D else D
  if s.normalized then normalizeDiagram inf maxv lowest D else .ok D

/-- The loop that loads the files, `make_signature.cc:156-187`. -/
def loadAll [Field α] [LinearOrder α] (inf maxv lowest : α) (convert : List Char → α) (files : List Char → Option (List Char)) (s : Settings α) (filenames : List (List Char)) :
    Except Failure (List (Diagram α)) :=
  filenames.mapM fun filename =>
    match TextReaders.loadDiagram convert (files filename) with
    | none => .error .exception
    | some D => prepare inf maxv lowest s D

/-- `main`, `make_signature.cc:117-198`: the result and the output. -/
def main [Field α] [LinearOrder α] (word maxSize unsignedMax : ℕ) (inf maxv lowest : α) (convert : List Char → α) (print : α → List Char) (files : List Char → Option (List Char))
    (opts : List (Opt α)) (filenames : List (List Char)) : Except Failure (ℤ × List Char) :=
  let s := settings unsignedMax opts
  match loadAll inf maxv lowest convert files s filenames with
  | .error e => .error e
  | .ok diagrams =>
    match diagrams.mapM (makeSignature word maxSize) with
    | .error e => .error e
    | .ok signatures => .ok (0, signatures.flatMap fun signature => printSignature print (kept s.number signature))

end Aleph.DiagramSignature
