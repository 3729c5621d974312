import Verif.Model.FlexSpectrum
import Verif.Model.FunctionAnalysis
import Verif.Model.UnionFind

/-!
# The tool `spectral_analysis`

Models `src/tools/spectral_analysis.cc`.

Simplifications: arithmetic is exact.  Messages on standard error are not modelled, neither is the output of a program that is ended by an exception.  Assertions are
checked.
-/

namespace Aleph.SpectralAnalysis

/-- What may happen instead of an ordinary end of the program. -/
inductive Failure
  | exception
  | assertion
  deriving DecidableEq

/-- The options, `spectral_analysis.cc:51-56`; any other option is skipped, `spectral_analysis.cc:61-69`. -/
inductive Opt
  | mode (word : List Char)
  | normalize
  | unknown

/-- The variables that are set by options. -/
structure Settings where
  mode : List Char
  normalize : Bool

/-- The cases of the `switch`, `spectral_analysis.cc:61-69`. -/
def setOption (s : Settings) : Opt → Settings
  | .mode word => { s with mode := word }
  | .normalize => { s with normalize := true }
  | .unknown => s

/-- The initial values and the loop over all options, `spectral_analysis.cc:47-71`. -/
def settings (opts : List Opt) : Settings := opts.foldl setOption ⟨"diagram".toList, false⟩

/-- The conversion of lines to pairs of numbers (`FlexSpectrum.hh:64`), the output of numbers with eleven digits, the infinite value of points that are never destroyed, and
the order of evaluation in `UnionFind.hh:39`. -/
structure Context (α : Type) where
  parse : List Char → α × α
  print : α → List Char
  inf : α
  leftFirst : Bool

variable {α : Type} [Field α] [LinearOrder α]

/-- The function that replaces unpaired points, `spectral_analysis.cc:122-131`. -/
def close (inf : α) (p : α × α) : α × α := if Diagram.isUnpaired inf p then (p.1, 0) else p

/-- The mode `diagram`, `spectral_analysis.cc:112-134`. -/
def diagram (c : Context α) (pts : List (α × α)) : Except Failure (List Char) :=
  let D : Diagram α := ⟨0, pts⟩
  if D.betti c.inf ≠ 1 then .error .assertion
  else
    let D := D.removeDiagonal
    .ok (FunctionAnalysis.diagramText c.print { D with points := D.points.map (close c.inf) } ++ "\n".toList)

/-- `transformedFunction[x] = v`, `spectral_analysis.cc:162`: a map, which is sorted by its keys. -/
def assign (x v : α) : List (α × α) → List (α × α)
  | [] => [(x, v)]
  | e :: m => if x < e.1 then (x, v) :: e :: m else if x = e.1 then (e.1, v) :: m else e :: assign x v m

/-- The body of the loop over all pairs, `spectral_analysis.cc:149-162`. -/
def transformPair (maps : FlexSpectrum.Maps α α) (K : Complex α) (m : List (α × α)) (pair : ℕ × ℕ) : Except Failure (List (α × α)) :=
  match K.get pair.1, if pair.2 < K.length then K.get pair.2 else some (Simplex.ofRange [0, 1] 0) with
  | some sigma, some tau =>
    if sigma.dimension ≠ some 0 ∨ tau.dimension ≠ some 1 then .error .assertion
    else
      match sigma.vertices[0]? with
      | none => .error .exception
      | some v =>
        match maps.value v with
        | none => .error .exception
        | some x => .ok (assign x |sigma.data - tau.data| m)
  | _, _ => .error .exception

/-- Lines with two numbers, `spectral_analysis.cc:165-166, 182`. -/
def lines (c : Context α) (m : List (α × α)) : List Char := m.flatMap fun e => c.print e.1 ++ "\t".toList ++ c.print e.2 ++ "\n".toList

/-- The mode `transformation`, `spectral_analysis.cc:139-167`. -/
def transformation (c : Context α) (maps : FlexSpectrum.Maps α α) (K : Complex α) (pairs : List (ℕ × ℕ)) : Except Failure (List Char) :=
  match pairs.foldlM (transformPair maps K) [] with
  | .error e => .error e
  | .ok m => .ok (lines c m)

/-- The entries of both maps for an index, `spectral_analysis.cc:177-180`. -/
def sample (maps : FlexSpectrum.Maps α α) (i : ℕ) : Option (α × α) :=
  match maps.value i, maps.intensity i with
  | some x, some y => some (x, y)
  | _, _ => none

/-- The mode `identity`, `spectral_analysis.cc:172-184`.  The keys of the map are the vertices of the complex: `FlexSpectrum.hh:66-72` adds both. -/
def identity (c : Context α) (maps : FlexSpectrum.Maps α α) (K : Complex α) : Except Failure (List Char) :=
  match K.vertices.mapM (sample maps) with
  | none => .error .exception
  | some m => .ok (lines c m)

/-- `main`, `spectral_analysis.cc:45-188`: the result and the output.  `args` are the arguments that are not options. -/
def main (c : Context α) (files : List Char → Option (List Char)) (opts : List Opt) (args : List (List Char)) : Except Failure (ℤ × List Char) :=
  match args with
  | [] => .ok (-1, [])
  | input :: _ =>
    match FlexSpectrum.readFile c.parse (settings opts).normalize ⟨fun _ => none, fun _ => none⟩ (files input) with
    | none => .error .exception
    | some (maps, K) =>
      match zeroDimensional true c.leftFirst c.inf K with
      | none => .error .exception
      | some (pts, pairs) =>
        let text :=
          if (settings opts).mode = "diagram".toList then diagram c pts
          else if (settings opts).mode = "transformation".toList then transformation c maps K pairs
          else if (settings opts).mode = "identity".toList then identity c maps K
          else .ok []
        match text with
        | .error e => .error e
        | .ok t => .ok (0, t)

end Aleph.SpectralAnalysis
