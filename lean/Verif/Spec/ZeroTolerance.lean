import Verif.Spec.Sync
/-
Vocabulary for synchronization without tolerance.
-/
namespace MF

/-- `t` consists of one delivered message of every input, all with the same stamp. -/
def EqualStamps {n : Nat} (ops : List (Fin n × Ev)) (t : Fin n → Option Ev) : Prop :=
  ∃ T, ∀ i, ∃ e, (i, e) ∈ ops ∧ e.stamp = T ∧ t i = some e

/-- The sets are in time order: every message of an earlier set is older than every message of a later one. -/
def SetsInOrder {n : Nat} (l : List (Fin n → Option Ev)) : Prop :=
  l.Pairwise (fun t u => ∀ i j x y, t i = some x → u j = some y → x.stamp < y.stamp)

end MF
