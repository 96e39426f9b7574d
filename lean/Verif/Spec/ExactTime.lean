import Verif.Model.ExactTime
import Verif.Spec.Sync
/-
Vocabulary for the ExactTime properties.
-/
namespace MF.ExactTime

/-- The sets given to the output signal, in order. -/
def outs {n : Nat} : List (Action n) → List (Tuple n)
  | [] => []
  | .out t :: l => t :: outs l
  | _ :: l => outs l

/-- The sets given to the drop signal, in order. -/
def drops {n : Nat} : List (Action n) → List (Tuple n)
  | [] => []
  | .drop t :: l => t :: drops l
  | _ :: l => drops l

/-- The messages of input `i` that a later message with the same stamp replaced. -/
def replacedOn {n : Nat} (i : Fin n) : List (Action n) → List Ev
  | [] => []
  | .replaced j e :: l => if j = i then e :: replacedOn i l else replacedOn i l
  | _ :: l => replacedOn i l

/-- How many of the sets hold message `e` in slot `i`. -/
def occurrences {n : Nat} (i : Fin n) (e : Ev) (l : List (Tuple n)) : Nat :=
  l.countP (fun t => decide (t i = some e))

/-- All messages in the set carry stamp `T`. -/
def HasStamp {n : Nat} (t : Tuple n) (T : Int) : Prop := ∀ i e, t i = some e → e.stamp = T

/-- The set has a message for every input. -/
def Complete {n : Nat} (t : Tuple n) : Prop := ∀ i, ∃ e, t i = some e

/-- The pending sets. -/
def pending {n : Nat} (s : State n) : List (Tuple n) := s.tuples.map (·.2)

end MF.ExactTime
