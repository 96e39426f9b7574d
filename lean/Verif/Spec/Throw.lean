import Verif.Spec.Sync
import Verif.Spec.ExactTime
/-
Vocabulary for the properties about callbacks that throw.  `boom k` says that call number `k` throws.
-/
namespace MF.Throw

/-- The entries of a log of calls that returned normally. -/
def delivered {α : Type} (boom : Nat → Bool) (log : List α) : List α :=
  (log.zipIdx.filter (fun p => !boom p.2)).map (·.1)

/-- The number of calls in the log that threw. -/
def throws {α : Type} (boom : Nat → Bool) (log : List α) : Nat :=
  (List.range log.length).countP boom

/-- An entry of the log of an ExactTime policy that is a set given to the drop callbacks. -/
def isDrop {n : Nat} : ExactTime.Action n → Bool
  | .drop _ => true
  | _ => false

end MF.Throw
