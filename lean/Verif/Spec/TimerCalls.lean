import Verif.Model.Sequencer
/-
Vocabulary for the timer calls of a TimeSequencer.
-/
namespace MF.Sequencer

/-- The second history is the first one without some of its timer calls. -/
inductive Thinned : List Op → List Op → Prop where
  | nil : Thinned [] []
  | keep (op : Op) {ops ops' : List Op} (h : Thinned ops ops') : Thinned (op :: ops) (op :: ops')
  | skip (now : Nat → Int) {ops ops' : List Op} (h : Thinned ops ops') : Thinned (.tick now :: ops) ops'

end MF.Sequencer
