import Verif.Spec.Pipeline
/-
Vocabulary for property C103: what a TimeSequencer with punctual messages outputs.
-/
namespace MF.Sequencer

/-- The clock does not change while a timer call runs. -/
def Steady (ops : List Op) : Prop := ∀ now, Op.tick now ∈ ops → ∀ k, now k = now 0

/-- In some timer call of the history the clock has reached the stamp of `x` plus `delay`. -/
def due (delay : Int) (ops : List Op) (x : Ev) : Bool :=
  ops.any (fun op => match op with | .tick now => decide (x.stamp + delay ≤ now 0) | .add _ => false)

/-- The messages received that are not due yet. -/
def waiting (delay : Int) (ops : List Op) : List Ev := (added ops).filter (fun x => !due delay ops x)

/-- The queue size is sufficient for a history: there is no limit, or never more messages than that are waiting. -/
def Room (delay : Int) (queueSize : Nat) (ops : List Op) : Prop :=
  queueSize = 0 ∨ ∀ pre, pre <+: ops → (waiting delay pre).length ≤ queueSize

/-- The same messages, those with equal stamps in the same order; otherwise in any order. -/
def SameMessages (l l' : List Ev) : Prop :=
  ∀ t : Int, l.filter (fun x => decide (x.stamp = t)) = l'.filter (fun x => decide (x.stamp = t))

end MF.Sequencer
