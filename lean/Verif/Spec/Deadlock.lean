import Verif.Model.Deadlock
/-
Vocabulary for deadlock properties.
-/
namespace MF.Lock

/-- Every thread has done everything. -/
def Finished (s : State) : Prop := ∀ t, s.todo t = []

/-- Thread `t` waits for a mutex that is held. -/
def Waiting (s : State) (t : Nat) : Prop := ∃ m rest, s.todo t = .acquire m :: rest ∧ s.holder m ≠ none

/-- Thread `t` has something to do and need not wait. -/
def Enabled (s : State) (t : Nat) : Prop := s.todo t ≠ [] ∧ ¬ Waiting s t

/-- The filter that is called. -/
def Call.target : Call → Nat
  | .deliver f => f
  | .timer f => f
  | .connect f _ => f
  | .query f => f
  | .output f _ => f

/-- Callbacks only call filters further downstream: there is a numbering of the filters that increases from a filter to every filter
which the callbacks of its outputs call (deliver to, query, or change the connections of). -/
def Acyclic (net : Net) : Prop :=
  ∃ rank : Nat → Nat, ∀ f k, ∀ cb ∈ net.callbacks f k, ∀ c ∈ cb, rank f < rank c.target

/-- The number of lock operations that `k` threads still have to do. -/
def work (k : Nat) (s : State) : Nat := ((List.range k).map (fun t => (s.todo t).length)).sum

end MF.Lock
