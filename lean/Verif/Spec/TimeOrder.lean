import Verif.Spec.ApproxRoom
/-
Vocabulary for property C112: messages delivered in time order over all inputs.
-/
namespace MF

/-- The messages of all inputs together are delivered in the order of their stamps, as behind an InputAligner or when a recording
is played back. -/
def InTimeOrder {n : Nat} (ops : List (Fin n × Ev)) : Prop := TimeSorted (ops.map (·.2))

/-- No input pauses for more than `G`: whenever a message is delivered, every other input has delivered one that is at most `G`
older, unless everything delivered so far is at most `G` older. -/
def PausesAtMost {n : Nat} (G : Int) (ops : List (Fin n × Ev)) : Prop :=
  ∀ pre i e post, ops = pre ++ (i, e) :: post → ∀ j, j ≠ i →
    (∃ y ∈ stream pre j, e.stamp - G ≤ y.stamp) ∨ ∀ op ∈ pre, e.stamp - G ≤ op.2.stamp

namespace Approx

/-- Input 1 sends `q + 1` messages, 200 apart, while input 0 pauses; the first ones of the two inputs are 1 apart. -/
def pausing (q : Nat) : List (Fin 2 × Ev) :=
  [(0, ⟨0, 0⟩), (1, ⟨1, 1⟩)] ++ (List.range q).map (fun m => ((1 : Fin 2), (⟨m + 2, 200 * (m + 1)⟩ : Ev)))

/-- Input 0 goes on. -/
def pausingEnd (q : Nat) : List (Fin 2 × Ev) := pausing q ++ [(0, ⟨q + 2, 200 * (q + 1)⟩)]

end Approx

end MF
