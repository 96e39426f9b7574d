import Verif.Model.ClockMix
import Verif.Spec.Cache
import Verif.Spec.ExactTime
/-
Vocabulary for the properties about messages whose stamps are of different clock types: `src id` is the clock type of the stamp of
the message with identity `id`.
-/
namespace MF.ClockMix

/-- The messages of a list all have the same clock type. -/
def OneClock (src : Nat → Source) (l : List Ev) : Prop := ∀ x ∈ l, ∀ y ∈ l, src x.id = src y.id

/-- The messages waiting in the sets of an ExactTime policy. -/
def Waiting {n : Nat} (s : ExactTime.State n) (x : Ev) : Prop := ∃ p ∈ s.tuples, ∃ i, p.2 i = some x

/-- Input `i` delivers only messages of clock type `clk i`. -/
def Fixed {n : Nat} (src : Nat → Source) (clk : Fin n → Source) (ops : List (Fin n × Ev)) : Prop :=
  ∀ op ∈ ops, src op.2.id = clk op.1

/-- The newest `q` messages of an input. -/
def keep (q : Nat) (l : List Ev) : List Ev := l.drop (l.length - q)

end MF.ClockMix
