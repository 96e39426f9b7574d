import Verif.Model.Pipeline
import Verif.Spec.Aligner
import Verif.Spec.Sequencer
import Verif.Spec.ExactTime
/-
Vocabulary for the properties of filters connected to each other.
-/
namespace MF.Pipeline

/-- No two messages carry the same stamp. -/
def DistinctStamps (l : List Ev) : Prop := l.Pairwise (fun a b => a.stamp ≠ b.stamp)

/-- Every message carries a system time stamp that is not negative, and arrives before any clock reading of an earlier timer
call has reached its stamp plus `delay`: transport took less than `delay`. -/
def Punctual (delay : Int) (ops : List Sequencer.Op) : Prop :=
  ∀ pre m post, ops = pre ++ .add m :: post →
    m.source = Source.system ∧ 0 ≤ m.ev.stamp ∧ ∀ now, Sequencer.Op.tick now ∈ pre → ∀ k, now k < m.ev.stamp + delay

/-- The calls of a history that concern input `i`. -/
def callsOf {n : Nat} (i : Fin n) (ops : List (Fin n × Sequencer.Op)) : List Sequencer.Op :=
  (ops.filter (fun op => decide (op.1 = i))).map (·.2)

/-- The sets of a sequence are in strictly increasing time order. -/
def SetsInOrder {n : Nat} (l : List (ExactTime.Tuple n)) : Prop :=
  l.Pairwise (fun t u => ∀ i j x y, t i = some x → u j = some y → x.stamp < y.stamp)

/-- `t` consists of one message of every stream, all with the same stamp. -/
def MatchOf {n : Nat} (streams : Fin n → List Ev) (t : ExactTime.Tuple n) : Prop :=
  ∃ T, ∀ i, ∃ e ∈ streams i, e.stamp = T ∧ t i = some e

end MF.Pipeline
