import Verif.Spec.Sync
/-
Vocabulary for the room an ApproximateEpsilonTime synchronizer needs.
-/
namespace MF.Epsilon

/-- The messages of input `i` that are not older, by more than epsilon, than something input `j` has delivered. -/
def notBehind {n : Nat} (eps : Int) (ops : List (Fin n × Ev)) (i j : Fin n) : List Ev :=
  (stream ops i).filter (fun x => (stream ops j).all (fun y => decide (y.stamp - eps ≤ x.stamp)))

/-- No input runs ahead of another one by more than `q` messages: at no time has an input delivered more than `q` messages
that are not older, by more than epsilon, than what another input has delivered. -/
def AheadAtMost {n : Nat} (q : Nat) (eps : Int) (ops : List (Fin n × Ev)) : Prop :=
  ∀ k i j, i ≠ j → (notBehind eps (ops.take k) i j).length ≤ q

end MF.Epsilon
