import Verif.Spec.Sync
import Verif.Model.Warnings
/-
Vocabulary for the warnings of ApproximateTime: C91.
-/
namespace MF

/-- Message `b` directly follows message `a` in the list. -/
def Follows (l : List Ev) (a b : Ev) : Prop := ∃ pre post, l = pre ++ a :: b :: post

/-- Message `b` should not follow `a` on an input with this lower bound: it is older, or closer than the bound. -/
def Violates (bound : Int) (a b : Ev) : Prop := b.stamp < a.stamp ∨ b.stamp - a.stamp < bound

end MF

namespace MF.Approx

/-- What synchronizer `k` received in a history of a process. -/
def opsOf {n m : Nat} (k : Fin m) (ops : List (Fin m × Fin n × Ev)) : List (Fin n × Ev) :=
  ops.filterMap (fun op => if op.1 = k then some op.2 else none)

/-- The input that a warning is about. -/
def Warning.input {n : Nat} : Warning n → Fin n
  | .outOfOrder i => i
  | .tooClose i _ _ => i

/-- The text of a warning, up to the two times in it: the input, and whether it is about the order. -/
def Warning.text {n : Nat} : Warning n → Fin n × Bool
  | .outOfOrder i => (i, true)
  | .tooClose i _ _ => (i, false)

/-- A warning tells the truth about an input with this lower bound on which `b` follows `a`. -/
def Warning.True {n : Nat} (lower : Fin n → Int) (l : Fin n → List Ev) : Warning n → Prop
  | .outOfOrder i => ∃ a b, Follows (l i) a b ∧ b.stamp < a.stamp
  | .tooClose i gap bound => bound = lower i ∧ ∃ a b, Follows (l i) a b ∧ gap = b.stamp - a.stamp ∧ 0 ≤ gap ∧ gap < bound

end MF.Approx
