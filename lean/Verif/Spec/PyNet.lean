import Verif.Model.PyNet
/-
Vocabulary for C93: waiting and blocking in a network of Python filters.
-/
namespace MF.PyNet

/-- Thread `t` has done everything. -/
def Done (s : State) (t : Nat) : Prop := s.todo t = []

/-- Thread `t` waits for the lock of the synchronizer `f`. -/
def WaitsFor (s : State) (t f : Nat) : Prop := (∃ rest, s.todo t = .acquire f :: rest) ∧ s.lock f ≠ .free

/-- Thread `t` has something to do and need not wait. -/
def Enabled (s : State) (t : Nat) : Prop := ¬ Done s t ∧ ∀ f, ¬ WaitsFor s t f

/-- Thread `t` waits, directly or through other threads, until thread `u` goes on. -/
inductive DependsOn (s : State) : Nat → Nat → Prop where
  | self (t : Nat) : DependsOn s t t
  | wait {t f u v : Nat} (h : WaitsFor s t f) (hf : s.lock f = .held u) (h' : DependsOn s u v) : DependsOn s t v

/-- No message comes back to a synchronizer from its own callbacks: there is a numbering of the filters that increases from a synchronizer
to the filters which its callbacks deliver to, and does not decrease from other filters. -/
def NoFeedback (net : Net) : Prop :=
  ∃ rank : Nat → Nat, ∀ f, ∀ cb ∈ net.callbacks f, ∀ g, Call.deliver g ∈ cb →
    rank f ≤ rank g ∧ (net.kind f ≠ .plain → rank f < rank g)

/-- The number of operations that `k` threads still have to do. -/
def work (k : Nat) (s : State) : Nat := ((List.range k).map (fun t => (s.todo t).length)).sum

/-- The synchronizers whose `add` was left by an exception. -/
def End.traceback : End → List Nat
  | .returned => []
  | .raised tb => tb

end MF.PyNet
