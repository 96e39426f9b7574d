import Verif.Spec.Sync
/-
Vocabulary for property C108: inputs whose stamps are far apart compared with the tolerance of a synchronizer.
-/
namespace MF

variable {n : Nat}

/-- The stamps of any two messages of the list differ by more than `g`. -/
def FarApart (g : Int) (l : List Ev) : Prop := l.Pairwise (fun x y => x.stamp + g < y.stamp ∨ y.stamp + g < x.stamp)

/-- `T` consists of one delivered message of each input, and the stamps of any two of them differ by at most `w`. -/
def Matches (w : Int) (ops : List (Fin n × Ev)) (T : Fin n → Ev) : Prop :=
  (∀ i, (i, T i) ∈ ops) ∧ ∀ i j, (T i).stamp - (T j).stamp ≤ w

end MF
