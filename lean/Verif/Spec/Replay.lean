import Verif.Spec.Sync
/-
Vocabulary for giving the sets output by one synchronizer, message by message, to another one: C123.
-/
namespace MF

variable {n : Nat}

/-- What a synchronizer receives when its inputs are fed with the sets of the first list: the messages of a set all arrive, each
on its input, before those of the next set.  The order within a set may differ from set to set. -/
inductive Replay : List (Fin n → Ev) → List (Fin n × Ev) → Prop
  | nil : Replay [] []
  | next {sets : List (Fin n → Ev)} {ops : List (Fin n × Ev)} (h : Replay sets ops) (t : Fin n → Ev) (order : List (Fin n))
      (once : order.Nodup) (all : ∀ i, i ∈ order) : Replay (sets ++ [t]) (ops ++ order.map (fun i => (i, t i)))

/-- A set as it is given to the callbacks of a C++ synchronizer. -/
def full (t : Fin n → Ev) : Fin n → Option Ev := fun i => some (t i)

end MF
