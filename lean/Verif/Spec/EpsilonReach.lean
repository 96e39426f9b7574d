import Verif.Spec.Sync
/-
Vocabulary for property C107: which queue size an ApproximateEpsilonTime synchronizer with two inputs needs.
-/
namespace MF.Epsilon

/-- Queues of `q` places reach far enough back: whenever a message arrives, each message of another input that is within
epsilon of it is among the last `q` ones of that input. -/
def Recent {n : Nat} (q : Nat) (eps : Int) (ops : List (Fin n × Ev)) : Prop :=
  ∀ pre j e post, ops = pre ++ (j, e) :: post → ∀ i, i ≠ j → ∀ older x newer, stream pre i = older ++ x :: newer →
    x.stamp - e.stamp ≤ eps → e.stamp - x.stamp ≤ eps → newer.length < q

end MF.Epsilon
