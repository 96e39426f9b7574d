import Verif.Spec.Sync
/-
Vocabulary for what a bounded queue loses.
-/
namespace MF

/-- Fewer than `q` different stamps newer than `T` have been delivered, on any of the inputs. -/
def FewNewer {n : Nat} (q : Nat) (ops : List (Fin n × Ev)) (T : Int) : Prop :=
  ∀ l : List Int, l.Nodup → (∀ x ∈ l, T < x ∧ ∃ op ∈ ops, op.2.stamp = x) → l.length < q

/-- The message `e`, delivered on input `i` after the calls of `pre`, is the last one of the set `t`: every other
input has already delivered its message with the same stamp. -/
def Completes {n : Nat} (pre : List (Fin n × Ev)) (i : Fin n) (e : Ev) (t : Fin n → Option Ev) : Prop :=
  t i = some e ∧ ∀ j, j ≠ i → ∃ x ∈ stream pre j, x.stamp = e.stamp ∧ t j = some x

/-- How many messages newer than `T` input `j` has delivered. -/
def newerOn {n : Nat} (ops : List (Fin n × Ev)) (j : Fin n) (T : Int) : Nat :=
  ((stream ops j).filter (fun x => decide (T < x.stamp))).length

end MF
