import Verif.Spec.Sync
/-
Vocabulary for inputs that have not delivered anything yet: C115.
-/
namespace MF

variable {n : Nat}

/-- The last `k` elements of a list (all of it, if there are not as many). -/
def lastN {α : Type} (k : Nat) (l : List α) : List α := l.drop (l.length - k)

/-- Nothing is delivered on input `j`. -/
def Silent (j : Fin n) (ops : List (Fin n × Ev)) : Prop := ∀ op ∈ ops, op.1 ≠ j

/-- On each input the last `k` messages are the same. -/
def SameLast (k : Nat) (ops ops' : List (Fin n × Ev)) : Prop := ∀ i, lastN k (stream ops i) = lastN k (stream ops' i)

/-- Among the messages at least `q` different stamps are not earlier than `T`. -/
def StampsFrom (q : Nat) (T : Int) (ops : List (Fin n × Ev)) : Prop :=
  ∃ l : List Int, l.Nodup ∧ l.length = q ∧ ∀ t ∈ l, T ≤ t ∧ ∃ op ∈ ops, op.2.stamp = t

/-- The messages whose stamp is not earlier than `T`. -/
def from_ (T : Int) (ops : List (Fin n × Ev)) : List (Fin n × Ev) := ops.filter (fun op => decide (T ≤ op.2.stamp))

end MF
