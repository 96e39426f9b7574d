import Verif.Model.PySync
import Verif.Spec.Sync
/-
Vocabulary for the Python classes.
-/
namespace MF.Py

/-- A history in which every message has a header. -/
def withHeaders {n : Nat} (ops : List (Fin n × Ev)) : List (Fin n × Msg) := ops.map (fun o => (o.1, ⟨o.2, true⟩))

/-- The messages of a history that an ApproximateTimeSynchronizer uses: those with a header, and the others if it was told to
allow them. -/
def accepted {n : Nat} (allowHeaderless : Bool) (ops : List (Fin n × Msg)) : List (Fin n × Ev) :=
  (ops.filter (fun o => o.2.header || allowHeaderless)).map (fun o => (o.1, o.2.ev))

/-- No callback raises an exception. -/
def noRaise : Nat → Bool := fun _ => false

/-- No two messages of the list have the same stamp. -/
def DistinctStamps (l : List Ev) : Prop := (l.map (·.stamp)).Nodup

/-- The messages of input `j` that a synchronizer holds. -/
def held {n : Nat} (s : State n) (j : Fin n) : List Ev := (s.queues j).map (·.2)

/-- A matching set for TimeSynchronizer: one message of each input, all with the same stamp. -/
def ExactSet {n : Nat} (ops : List (Fin n × Ev)) (t : Fin n → Ev) : Prop :=
  (∀ i, t i ∈ stream ops i) ∧ ∀ i j, (t i).stamp = (t j).stamp

/-- One of the stamps of a set. -/
def stampOf {n : Nat} [NeZero n] (t : Fin n → Ev) : Int := (t ⟨0, Nat.pos_of_ne_zero (NeZero.ne n)⟩).stamp

end MF.Py
