import Verif.Model.Basic
import Verif.Spec.Basic
/-
Vocabulary for synchronizer properties.
-/
namespace MF

/-- The messages a history delivered on input `i`, in order. -/
def stream {n : Nat} (ops : List (Fin n × Ev)) (i : Fin n) : List Ev :=
  (ops.filter (fun op => decide (op.1 = i))).map (·.2)

/-- Two histories that deliver the same messages on each input, possibly interleaved differently. -/
def SameStreams {n : Nat} (ops ops' : List (Fin n × Ev)) : Prop := ∀ i, stream ops i = stream ops' i

end MF
