import Verif.Spec.Sync
/-
Vocabulary for property C125: what is left when messages are lost on the way to a synchronizer.  The calls `ops'` that are
made in the end are a sublist of those that would have been made.
-/
namespace MF

variable {n : Nat}

/-- None of the messages of the set was lost. -/
def survives (ops' : List (Fin n × Ev)) (t : Fin n → Option Ev) : Bool :=
  decide (∀ i, ∀ e ∈ t i, (i, e) ∈ ops')

end MF
