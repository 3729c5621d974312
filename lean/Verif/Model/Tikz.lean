import Verif.Model.Complex
import Verif.Model.Utilities
import Mathlib.Data.Rat.Defs

/-!
# Output of pictures for TikZ

Models `include/aleph/topology/io/TikZ.hh`.  `coordinate` is the output operator for coordinates, `number` the one for the numbers of options.  A container is a list of points.
-/

namespace Aleph.Tikz

variable {α β : Type}

/-- What may happen while writing. -/
inductive Failure
  | exception
  | undefined
  deriving DecidableEq

/-- Options and their default values, `TikZ.hh:246-270`. -/
structure Options where
  showBalls : Bool := false
  ballOpacity : ℚ := 1 / 10
  ballRadius : ℚ := 0
  ballColour : List Char := "black".toList
  showVertexLabels : Bool := false
  labelPosition : List Char := "above".toList
  pointColour : List Char := "black".toList
  pointSizeUnit : List Char := "pt".toList
  pointSize : ℚ := 1
  lineColour : List Char := "black".toList
  lineWidthUnit : List Char := "mm".toList
  lineWidth : ℚ := 1 / 2
  showTriangles : Bool := false
  triangleColour : List Char := "black".toList
  triangleOpacity : ℚ := 1 / 5

/-- `showVertexLabels( value )`, `TikZ.hh:116-119`. -/
def setShowVertexLabels (o : Options) (value : Bool) : Options := { o with showVertexLabels := value }

/-- `pointSize( value )`, `TikZ.hh:121-124`. -/
def setPointSize (o : Options) (value : ℚ) : Options := { o with pointSize := value }

/-- `pointColour( value )`, `TikZ.hh:126-129`. -/
def setPointColour (o : Options) (value : List Char) : Options := { o with pointColour := value }

/-- `lineColour( value )`, `TikZ.hh:131-134`. -/
def setLineColour (o : Options) (value : List Char) : Options := { o with lineColour := value }

/-- `showBalls( value )`, `TikZ.hh:141-144`. -/
def setShowBalls (o : Options) (value : Bool) : Options := { o with showBalls := value }

/-- `ballRadius( radius )`, `TikZ.hh:151-154`. -/
def setBallRadius (o : Options) (radius : ℚ) : Options := { o with ballRadius := radius }

/-- `showTriangles( value )`, `TikZ.hh:161-164`. -/
def setShowTriangles (o : Options) (value : Bool) : Options := { o with showTriangles := value }

/-- `triangleColour( value )`, `TikZ.hh:166-169`. -/
def setTriangleColour (o : Options) (value : List Char) : Options := { o with triangleColour := value }

/-- `triangleOpacity( value )`, `TikZ.hh:171-174`. -/
def setTriangleOpacity (o : Options) (value : ℚ) : Options := { o with triangleOpacity := value }

/-- `writePoint`, `TikZ.hh:187-208`. -/
def point (o : Options) (coordinate : β → List Char) (number : ℚ → List Char) (v : ℕ) (x y : β) : List Char :=
  "\\coordinate".toList ++ (if o.showVertexLabels then "[label=".toList ++ o.labelPosition ++ ":".toList ++ Utilities.decimal v ++ "] ".toList else []) ++
  "(".toList ++ Utilities.decimal v ++ ") at (".toList ++ coordinate x ++ ",".toList ++ coordinate y ++ ");\n".toList ++
  "\\filldraw[".toList ++ o.pointColour ++ "] (".toList ++ Utilities.decimal v ++ ") circle (".toList ++ number o.pointSize ++ o.pointSizeUnit ++ ");\n".toList ++
  if o.showBalls then
    "\\fill[".toList ++ o.ballColour ++ ", fill opacity=".toList ++ number o.ballOpacity ++ "] (".toList ++ Utilities.decimal v ++ ") circle (".toList ++ number o.ballRadius ++ "cm);\n".toList
  else []

/-- `writeEdge`, `TikZ.hh:220-226`. -/
def edge (o : Options) (number : ℚ → List Char) (u v : ℕ) : List Char :=
  "\\draw[".toList ++ o.lineColour ++ ", line width=".toList ++ number o.lineWidth ++ o.lineWidthUnit ++ "] (".toList ++ Utilities.decimal u ++ ") -- (".toList ++ Utilities.decimal v ++ ");\n".toList

/-- `writeTriangle`, `TikZ.hh:238-244`. -/
def triangle (o : Options) (number : ℚ → List Char) (u v w : ℕ) : List Char :=
  "\\fill[".toList ++ o.triangleColour ++ ", fill opacity=".toList ++ number o.triangleOpacity ++ "] (".toList ++ Utilities.decimal u ++ ") -- (".toList ++ Utilities.decimal v ++ ") -- (".toList ++
  Utilities.decimal w ++ ") -- cycle;\n".toList

/-- The first loop, `TikZ.hh:60-72`, for a simplex; `container[u]` is undefined if there is no such element. -/
def pointOf (o : Options) (coordinate : β → List Char) (number : ℚ → List Char) (container : List (List β)) (s : Simplex α) : Except Failure (List Char) :=
  match s.vertices with
  | [u] =>
    match container[u]? with
    | none => .error .undefined
    | some (x :: y :: _) => .ok (point o coordinate number u x y)
    | some _ => .error .exception
  | _ => .ok []

/-- The second loop, `TikZ.hh:80-90`, for a simplex. -/
def triangleOf (o : Options) (number : ℚ → List Char) (s : Simplex α) : List Char :=
  match s.vertices with
  | [u, v, w] => triangle o number u v w
  | _ => []

/-- The third loop, `TikZ.hh:97-106`, for a simplex. -/
def edgeOf (o : Options) (number : ℚ → List Char) (s : Simplex α) : List Char :=
  match s.vertices with
  | [u, v] => edge o number u v
  | _ => []

/-- `operator()( out, K, container )`, `TikZ.hh:50-109`; `dimension()` throws an exception for empty simplices, which are not modelled. -/
def write (o : Options) (coordinate : β → List Char) (number : ℚ → List Char) (K : Complex α) (container : List (List β)) : Except Failure (List Char) :=
  match K.mapM (pointOf o coordinate number container) with
  | .error e => .error e
  | .ok points =>
    .ok ("\\begin{tikzpicture}\n".toList ++ "% 0-simplices\n".toList ++ points.flatten ++
      (if o.showTriangles then "% 2-simplices\n".toList ++ K.flatMap (triangleOf o number) else []) ++
      "% 1-simplices\n".toList ++ K.flatMap (edgeOf o number) ++ "\\end{tikzpicture}\n".toList)

end Aleph.Tikz
