import Verif.Spec.EpsilonRoom
/-
Vocabulary for the room an ApproximateTime synchronizer needs.
-/
namespace MF.Approx

/-- No input delivers more than `q` messages whose stamps lie within an interval of length `M`. -/
def AtMostWithin {n : Nat} (q : Nat) (M : Int) (ops : List (Fin n × Ev)) : Prop :=
  ∀ i T, ((stream ops i).filter (fun x => decide (T - M ≤ x.stamp) && decide (x.stamp ≤ T))).length ≤ q

end MF.Approx
