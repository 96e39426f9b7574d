import Verif.Model.Sequencer
import Verif.Spec.Basic
/-
Vocabulary for the TimeSequencer properties.
-/
namespace MF.Sequencer

/-- The messages of a history whose stamps are of source `system`, in arrival order. -/
def added (ops : List Op) : List Ev :=
  ops.filterMap (fun op => match op with | .add m => if m.source = Source.system then some m.ev else none | _ => none)

/-- The stamp of the message output last (0 if there is none). -/
def lastOutput (s : State) : Int := match s.out.getLast? with | some e => e.stamp | none => 0

end MF.Sequencer
