import Verif.Model.PolicyAssign
import Verif.Spec.PolicyCopy
/-
Vocabulary for the properties of assigning a policy to the policy of an existing Synchronizer.
-/
namespace MF.Copy

/-- The number of inputs on which an ApproximateEpsilonTime policy has a waiting message. -/
def inputsWaiting {n : Nat} (s : Epsilon.State n) : Nat :=
  (List.finRange n).countP (fun i => decide (s.events i ≠ []))

end MF.Copy
