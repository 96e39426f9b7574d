import Verif.Spec.Approx
/-
What it means that received messages, and what is known about later ones, determine a set.
-/
namespace MF.ApproxSpec

variable {n : Nat}

/-- `C` is determined as the `k`-th set (counting from 0): whatever else arrives, as long as every input keeps the minimum
distance `lower` between its messages, the `k`-th set of the complete streams is `C`. -/
def Determined [NeZero n] (f : Int → Int) (maxInterval : Int) (lower : Fin n → Int) (received : Fin n → List Ev) (k : Nat)
    (C : Fin n → Ev) : Prop :=
  ∀ later : Fin n → List Ev, (∀ i, Spaced (lower i) (received i ++ later i)) →
    (sets true f maxInterval (fun i => received i ++ later i))[k]? = some C

end MF.ApproxSpec
