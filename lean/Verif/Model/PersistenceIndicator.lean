import Verif.Model.StepFunction
import Verif.Model.Diagram

/-!
# Persistence indicator functions

Models `include/aleph/persistenceDiagrams/PersistenceIndicatorFunction.hh`.
-/

namespace Aleph.Pif

variable {α : Type}

/-- `EventPoint`, `PersistenceIndicatorFunction.hh:21-41`: value and the flag `destroyer`. -/
abbrev Event (α : Type) := α × Bool

/-- The order in which `std::sort` puts event points, `PersistenceIndicatorFunction.hh:26-32`: `a` may stand before `b`. -/
def le [LinearOrder α] (a b : Event α) : Prop := a.1 < b.1 ∨ a.1 = b.1 ∧ (a.2 = true ∨ b.2 = false)

instance [LinearOrder α] : DecidableRel (le (α := α)) := fun _ _ => by unfold le; infer_instance

/-- `isInverted`, `PersistenceIndicatorFunction.hh:51-65`. -/
def isInverted [LinearOrder α] (inf : α) (D : List (α × α)) : Bool :=
  D.any fun p => !Diagram.isUnpaired inf p && p.1 > p.2

/-- The event points in the order of the diagram, `PersistenceIndicatorFunction.hh:90-102`. -/
def events (inverted : Bool) (D : List (α × α)) : List (Event α) :=
  D.flatMap fun p => if inverted then [(p.1, true), (p.2, false)] else [(p.1, false), (p.2, true)]

/-- The arithmetic of `unsigned`: `active + creators - destroyers`, `PersistenceIndicatorFunction.hh:163-164`. -/
def update (active creators destroyers : Nat) : Nat :=
  ((active + creators) % 2 ^ 32 + 2 ^ 32 - destroyers) % 2 ^ 32

/-- The main loop, `PersistenceIndicatorFunction.hh:134-168`; the list consists of the event points from index `i` on, and
`first` is `i = 0`.  The function `numDuplicateValues` (`111-126`) counts the event points with the same value.  The first
argument bounds the number of rounds; see `pif`. -/
def loop [LinearOrder α] [Ring α] (next : α → α) :
    Nat → List (Event α) → Bool → Nat → α → Step.Fn α → Option (Step.Fn α)
  | _, [], _, _, _, f => some f
  | 0, _ :: _, _, _, _, _ => none
  | n + 1, e :: l, first, active, previous, f =>
    let same := e :: l.takeWhile fun e' => e'.1 = e.1
    let rest := l.dropWhile fun e' => e'.1 = e.1
    let destroyers := same.countP fun e' => e'.2
    let creators := same.length - destroyers
    let active' := update active creators destroyers
    if same.length = 1 ∨ creators = same.length ∨ creators = 0 then
      if first then loop next n rest false active' e.1 f
      else (Step.add f previous e.1 (active : α)).bind fun f => loop next n rest false active' e.1 f
    else (Step.add f previous e.1 (active : α)).bind fun f => loop next n rest false active' (next e.1) f

/-- `persistenceIndicatorFunction`, `PersistenceIndicatorFunction.hh:78-171`.  `next` is the function of lines 43-49 (the
successor of a number), `inf` the value that marks unpaired points.  Every round of the loop removes an event point, so that as
many rounds as there are event points suffice. -/
def pif [LinearOrder α] [Ring α] (next : α → α) (inf : α) (D : List (α × α)) : Option (Step.Fn α) :=
  let E := (events (isInverted inf D) D).insertionSort le
  loop next E.length E true 0 0 []

end Aleph.Pif
