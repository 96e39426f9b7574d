import Verif.Model.Approx
import Verif.Model.Epsilon
/-
What it means that the queue limit of an approximate policy plays no role in a history of `add` calls.
-/
namespace MF.Approx

variable {n : Nat}

/-- No queue overflows: if the queues had room for every message, no input would hold more than `queue_size` messages
after any of the calls. -/
def NoOverflow [NeZero n] (fuel : Nat) (cfg : Cfg n) (ops : List (Fin n × Ev)) : Prop :=
  ∀ k s, run fuel { cfg with queueSize := ops.length + 1 } (ops.take k) = .ok s →
    ∀ i, (s.past i).length + (s.deques i).length ≤ cfg.queueSize

end MF.Approx

namespace MF.Epsilon

variable {n : Nat}

/-- No queue overflows: if the queues had room for every message, no input would hold more than `q` messages after any of
the calls. -/
def NoOverflow (fuel q : Nat) (eps : Int) (ops : List (Fin n × Ev)) : Prop :=
  ∀ k s, run fuel (construct n (ops.length + 1) eps) (ops.take k) = .ok s → ∀ i, (s.events i).length ≤ q

end MF.Epsilon
