import Verif.Spec.Aligner
/-
Vocabulary for property C102: what an InputAligner with well-behaved inputs outputs.
-/
namespace MF.Aligner

variable {n : Nat}

/-- Message `a` does not come after message `b`: it has the smaller stamp, or the same stamp and not the larger input. -/
def NotAfter (a b : Fin n × Ev) : Prop := a.2.stamp < b.2.stamp ∨ (a.2.stamp = b.2.stamp ∧ a.1 ≤ b.1)

/-- Nothing that input `i` may still deliver comes before message `m`: the next message of `i` is expected, at the earliest,
one period after the last message received from it.  An input that has delivered nothing is not waited for. -/
def DueFor (per : Fin n → Int) (ops : List (Op n)) (m : Fin n × Ev) (i : Fin n) : Prop :=
  ∀ last, (stream (adds ops) i).getLast? = some last →
    m.2.stamp < last.stamp + per i ∨ (m.2.stamp = last.stamp + per i ∧ m.1 ≤ i)

/-- A message is due: no input may still deliver one that comes before it. -/
def Due (per : Fin n → Int) (ops : List (Op n)) (m : Fin n × Ev) : Prop := ∀ i, DueFor per ops m i

/-- The inputs of an aligner are well-behaved in a history: periods are not negative and set before the first message; every
input delivers in order with at least its period between messages; stamps are between 0 and `Time::max`; no dispatch happens
before the first message of an input that delivers anything; at no dispatch is an input overdue by the timeout. -/
structure WellBehaved (timeout : Int) (per : Fin n → Int) (ops : List (Op n)) : Prop where
  period : ∀ i, 0 ≤ per i ∧ ConstPeriod i (per i) ops
  spaced : ∀ i, Spaced (per i) (stream (adds ops) i)
  stamps : ∀ m ∈ adds ops, 0 ≤ m.2.stamp ∧ m.2.stamp < maxTime
  started : ∀ pre, pre ++ [Op.dispatch] <+: ops → ∀ i, stream (adds ops) i ≠ [] → stream (adds pre) i ≠ []
  alive : ∀ pre, pre ++ [Op.dispatch] <+: ops → ∀ i last, (stream (adds pre) i).getLast? = some last →
    newest pre - (last.stamp + per i) < timeout

end MF.Aligner
