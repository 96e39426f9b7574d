import Verif.Spec.Sync
/-
When two sets of messages cannot both be output.
-/
namespace MF

/-- The sets `S` and `T` share a message, or they cross: `S` has an earlier message than `T` on one input and a later one on
another.  Sets that do not conflict follow one another on every input. -/
def Conflict {n : Nat} (S : Fin n → Option Ev) (T : Fin n → Ev) : Prop :=
  (∃ i, S i = some (T i)) ∨
  ∃ i j a b, S i = some a ∧ S j = some b ∧ a.stamp < (T i).stamp ∧ (T j).stamp < b.stamp

end MF
