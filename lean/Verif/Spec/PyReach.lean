import Verif.Spec.ExactRoom
/-
Vocabulary for property C106: which queue size a Python ApproximateTimeSynchronizer needs.
-/
namespace MF.Py

/-- Queues of `q` places reach far enough back: whenever a message arrives, fewer than `q` newer ones of its own input have
come before it, and every message of another input that is within the slop of it is among the `q` newest ones of that input. -/
def Reach {n : Nat} (q : Nat) (slop : Int) (ops : List (Fin n × Ev)) : Prop :=
  ∀ pre i e post, ops = pre ++ (i, e) :: post →
    newerOn pre i e.stamp < q ∧
    ∀ j, j ≠ i → ∀ x ∈ stream pre j, x.stamp - e.stamp < slop → e.stamp - x.stamp < slop → newerOn pre j x.stamp < q

end MF.Py
