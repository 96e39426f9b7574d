import Verif.Spec.Rounds
/-
Vocabulary for inputs of which the rate and the delay are known: C104.  Message `R k i` is the `k`-th one that input `i` sends,
`arr k i` is the time at which it arrives.
-/
namespace MF

variable {n : Nat}

/-- Stamps of one input are at least `p` apart. -/
def Paced (R : Nat → Fin n → Ev) (p : Int) : Prop := ∀ k i, (R k i).stamp + p ≤ (R (k + 1) i).stamp

/-- No input pauses for more than `G`, and all of them start within `G`. -/
def Alive (R : Nat → Fin n → Ev) (G : Int) : Prop :=
  (∀ k i, (R (k + 1) i).stamp ≤ (R k i).stamp + G) ∧ ∀ i j, (R 0 i).stamp ≤ (R 0 j).stamp + G

/-- No message arrives before it is stamped or more than `D` after that, and none overtakes another one of the same
input. -/
def Delayed (R : Nat → Fin n → Ev) (arr : Nat → Fin n → Int) (D : Int) : Prop :=
  (∀ k i, (R k i).stamp ≤ arr k i ∧ arr k i ≤ (R k i).stamp + D) ∧ ∀ k i, arr k i ≤ arr (k + 1) i

/-- The history is in the order of the arrival times: no message that is still to come on an input arrived before the one
that is delivered. -/
def ByArrival (arr : Nat → Fin n → Int) (ops : List (Fin n × Ev)) : Prop :=
  ∀ pre i e, pre ++ [(i, e)] <+: ops → ∀ j, arr (stream pre i).length i ≤ arr (stream pre j).length j

end MF
