import Verif.Spec.Basic
import Verif.Model.Aligner
import Verif.Model.Sequencer
/-
Vocabulary for C88: histories in which the stamps jump back.
-/

namespace MF.Aligner

/-- The calls of a history that are not messages older than `t`. -/
def notOlder {n : Nat} (t : Int) (ops : List (Op n)) : List (Op n) :=
  ops.filter (fun op => match op with | .add _ e => decide (t ≤ e.stamp) | _ => true)

end MF.Aligner

namespace MF.Sequencer

/-- The events of a history that are not messages older than `t`. -/
def notOlder (t : Int) (ops : List Op) : List Op :=
  ops.filter (fun op => match op with | .add m => decide (t ≤ m.ev.stamp) | _ => true)

end MF.Sequencer
