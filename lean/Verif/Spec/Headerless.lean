import Verif.Model.Traits
import Verif.Spec.Sync
import Verif.Model.Aligner
import Verif.Model.Latest
/-
What is to be expected of filters whose messages have no header.
-/
namespace MF.Headerless

variable {n : Nat}

/-- None of the messages has a header. -/
def NoHeaders (msgs : List (Fin n × Traits.Msg)) : Prop := ∀ o ∈ msgs, Traits.hasHeader o.2 = false

/-- Collecting sets: the newest message of every input is kept, and as soon as there is one from every input they are
output together and the collection starts anew. -/
def collect (held : Fin n → Option Ev) : List (Fin n × Ev) → List (Fin n → Option Ev)
  | [] => []
  | op :: ops =>
    if ∀ j, (upd held op.1 (some op.2) j).isSome then upd held op.1 (some op.2) :: collect (fun _ => none) ops
    else collect (upd held op.1 (some op.2)) ops

/-- The first sets are made of the first messages of the inputs, the second of the second ones, and so on, up to the last
message of the input that has received the fewest. -/
structure OneByOne (S : Fin n → List Ev) (out : List (Fin n → Option Ev)) : Prop where
  sets : ∀ k (h : k < out.length) i, out[k] i = (S i)[k]?
  most : ∀ i, out.length ≤ (S i).length
  all : ∃ i, out.length = (S i).length

/-- No input is ever more than `q` messages ahead of another. -/
def InStepUpTo (q : Nat) (ops : List (Fin n × Ev)) : Prop :=
  ∀ pre, pre <+: ops → ∀ i j, (stream pre i).length ≤ (stream pre j).length + q

end MF.Headerless

namespace MF.Aligner

/-- The event is that of a message without a header. -/
def OfNoHeader (e : Ev) : Prop := ∃ m, Traits.hasHeader m = false ∧ e = Traits.event m

/-- Calls that deliver a message without a header or dispatch. -/
def HeaderlessOp {n : Nat} : Op n → Prop
  | .add _ e => OfNoHeader e
  | .setPeriod _ _ => False
  | .dispatch => True

end MF.Aligner

namespace MF.Latest

/-- The state with every message replaced. -/
def relabel {n : Nat} {D : Type} (g : Ev → Ev) (s : State n D) : State n D :=
  { s with events := fun i => (s.events i).map g, out := s.out.map (fun t i => g (t i)) }

end MF.Latest
