import Verif.Model.ExactTime
/-
Specification for property C122: the same calls with the inputs numbered differently.
-/
namespace MF

variable {n : Nat}

/-- `σ` gives every input its new number, `τ` every new number the old one. -/
structure Renumbering (σ τ : Fin n → Fin n) : Prop where
  back : ∀ i, τ (σ i) = i
  forth : ∀ j, σ (τ j) = j

/-- The same calls, with the inputs under their new numbers. -/
def renumber {α : Type} (σ : Fin n → Fin n) (ops : List (Fin n × α)) : List (Fin n × α) := ops.map (fun op => (σ op.1, op.2))

/-- The same set, with the inputs under their new numbers. -/
def renumberSet {α : Type} (τ : Fin n → Fin n) (t : Fin n → α) : Fin n → α := fun j => t (τ j)

end MF

namespace MF.ExactTime

variable {n : Nat}

/-- What happened to the messages, with the inputs under their new numbers. -/
def renumberAction (σ τ : Fin n → Fin n) : Action n → Action n
  | .out t => .out (renumberSet τ t)
  | .drop t => .drop (renumberSet τ t)
  | .replaced i e => .replaced (σ i) e

end MF.ExactTime
