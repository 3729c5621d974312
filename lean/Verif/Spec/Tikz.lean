import Verif.Spec.LinesAndPoints
import Verif.Spec.PajekReader

/-!
# Pictures
-/

namespace Aleph.Spec.Tikz

open Pajek

/-- A number in decimal notation, without superfluous zeros. -/
def Decimal (d : List Char) (v : ℕ) : Prop := Numeral d v ∧ (d.head? = some '0' → d = ['0'])

/-- The commands of a picture: the declaration of a position, a dot, a ball, a triangle and a line. -/
inductive Command (β : Type)
  | declare (v : ℕ) (x y : β)
  | dot (v : ℕ)
  | ball (v : ℕ)
  | fill (u v w : ℕ)
  | line (u v : ℕ)

/-- Texts that determine the appearance of a picture. -/
structure Style where
  labels : Bool
  dotColour : List Char
  dotSize : List Char
  ballColour : List Char
  ballOpacity : List Char
  ballRadius : List Char
  triangleColour : List Char
  triangleOpacity : List Char
  lineColour : List Char
  lineWidth : List Char

/-- The line of a command. -/
def Renders {β : Type} (coordinate : β → List Char) (s : Style) : Command β → List Char → Prop
  | .declare v x y, l => ∃ d, Decimal d v ∧ l = "\\coordinate".toList ++ (if s.labels then "[label=above:".toList ++ d ++ "] ".toList else []) ++ '(' :: d ++ ") at (".toList ++ coordinate x ++
      ',' :: coordinate y ++ ");".toList
  | .dot v, l => ∃ d, Decimal d v ∧ l = "\\filldraw[".toList ++ s.dotColour ++ "] (".toList ++ d ++ ") circle (".toList ++ s.dotSize ++ "pt);".toList
  | .ball v, l => ∃ d, Decimal d v ∧ l = "\\fill[".toList ++ s.ballColour ++ ", fill opacity=".toList ++ s.ballOpacity ++ "] (".toList ++ d ++ ") circle (".toList ++ s.ballRadius ++ "cm);".toList
  | .fill u v w, l => ∃ d e f, Decimal d u ∧ Decimal e v ∧ Decimal f w ∧
      l = "\\fill[".toList ++ s.triangleColour ++ ", fill opacity=".toList ++ s.triangleOpacity ++ "] (".toList ++ d ++ ") -- (".toList ++ e ++ ") -- (".toList ++ f ++ ") -- cycle;".toList
  | .line u v, l => ∃ d e, Decimal d u ∧ Decimal e v ∧ l = "\\draw[".toList ++ s.lineColour ++ ", line width=".toList ++ s.lineWidth ++ "mm] (".toList ++ d ++ ") -- (".toList ++ e ++ ");".toList

/-- The texts of a style do not contain line feeds. -/
def Plain (s : Style) : Prop :=
  '\n' ∉ s.dotColour ∧ '\n' ∉ s.dotSize ∧ '\n' ∉ s.ballColour ∧ '\n' ∉ s.ballOpacity ∧ '\n' ∉ s.ballRadius ∧ '\n' ∉ s.triangleColour ∧ '\n' ∉ s.triangleOpacity ∧ '\n' ∉ s.lineColour ∧ '\n' ∉ s.lineWidth

/-- A text with the commands of a picture; other lines are comments. -/
def Picture {β : Type} (coordinate : β → List Char) (s : Style) (commands : List (Command β)) (text : List Char) : Prop :=
  ∃ ls : List (List Char), Lines text (["\\begin{tikzpicture}".toList] ++ ls ++ ["\\end{tikzpicture}".toList]) false ∧
    List.Forall₂ (Renders coordinate s) commands (ls.filter fun l => decide (l.head? ≠ some '%'))

/-- The triangles of a sequence of simplices, in their order. -/
def triangles {α : Type} (K : List (Simplex α)) : List (ℕ × ℕ × ℕ) :=
  K.filterMap fun s => match s.vertices with
    | [u, v, w] => some (u, v, w)
    | _ => none

/-- The commands for a vertex. -/
def vertexCommands {β : Type} (balls : Bool) (container : List (List β)) (u : ℕ) : List (Command β) :=
  match container[u]? with
  | some (x :: y :: _) => .declare u x y :: .dot u :: if balls then [.ball u] else []
  | _ => []

/-- The commands of the picture of a complex. -/
def commands {α β : Type} (balls fills : Bool) (container : List (List β)) (K : List (Simplex α)) : List (Command β) :=
  (Plot.vertices K).flatMap (vertexCommands balls container) ++ (if fills then (triangles K).map fun t => .fill t.1 t.2.1 t.2.2 else []) ++ (Plot.edges K).map fun e => .line e.1 e.2

/-- The vertices that are used by a command. -/
def uses {β : Type} : Command β → List ℕ
  | .declare _ _ _ => []
  | .dot v => [v]
  | .ball v => [v]
  | .fill u v w => [u, v, w]
  | .line u v => [u, v]

/-- All positions are declared before they are used. -/
def Declared {β : Type} (commands : List (Command β)) : Prop :=
  ∀ a c b, commands = a ++ c :: b → ∀ v ∈ uses c, ∃ x y, Command.declare v x y ∈ a

end Aleph.Spec.Tikz
