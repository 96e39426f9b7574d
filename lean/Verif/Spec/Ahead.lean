import Verif.Spec.Pairing
/-
Comparing two outputs place by place.
-/
namespace MF.Epsilon

/-- `k` for `k`, the sets of `out'` are at least as old as those of `out`, on every input, and there are at least as many. -/
def Ahead (out' out : List (Fin 2 → Option Ev)) : Prop :=
  ∀ (k : Nat) (t : Fin 2 → Option Ev), out[k]? = some t →
    ∃ t', out'[k]? = some t' ∧ ∀ i a, t i = some a → ∃ b, t' i = some b ∧ b.stamp ≤ a.stamp

end MF.Epsilon
