import Verif.Model.SequencerConc
import Verif.Spec.Sequencer
/-
Vocabulary for the concurrent TimeSequencer properties.
-/
namespace MF.Sequencer

/-- The `add` calls of a schedule, as a history of a sequencer used by one thread. -/
def addCalls (acts : List Act) : List Op :=
  acts.filterMap (fun a => match a with | .add m => some (.add m) | _ => none)

/-- The `add` calls of a history. -/
def addsOf (ops : List Op) : List Op := ops.filter (fun o => match o with | .add _ => true | .tick _ => false)

/-- Timer callbacks run on thread `w` only. -/
def OnlyTimer (w : Nat) (acts : List Act) : Prop :=
  ∀ a ∈ acts, match a with | .add _ => True | .take v _ => v = w | .deliver v => v = w

/-- Timer callbacks run on the threads below `W` only. -/
def TimersBelow (W : Nat) (acts : List Act) : Prop :=
  ∀ a ∈ acts, match a with | .add _ => True | .take v _ => v < W | .deliver v => v < W

/-- Everything taken from the queue by timer threads below `W` and not passed on yet. -/
def inFlight (W : Nat) (c : Conc) : List Ev := (List.range W).flatMap c.flight

end MF.Sequencer
