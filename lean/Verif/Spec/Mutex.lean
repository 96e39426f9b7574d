import Verif.Model.Mutex
/-
Vocabulary for the concurrency properties: sequential meaning of a body, program order, happens-before, data race.
-/
namespace MF.Mutex

variable {σ Op L : Type}

/-- Running the body from local state `l` and filter state `s`, alone, ends in `r` (a state or a fault). -/
inductive Runs (impl : Impl σ Op L) : L → σ → Except Fault σ → Prop where
  | fault {l s f} (h : impl.micro l s = .error f) : Runs impl l s (.error f)
  | last {l s s'} (h : impl.micro l s = .ok (s', none)) : Runs impl l s (.ok s')
  | more {l s s' l' r} (h : impl.micro l s = .ok (s', some l')) (hr : Runs impl l' s' r) : Runs impl l s r

/-- The bodies, run alone, have the effect described by `seq`. -/
def Implements (impl : Impl σ Op L) (seq : σ → Op → Except Fault σ) : Prop :=
  ∀ op s r, Runs impl (impl.enter op) s r → seq s op = r

/-- The calls of thread `t` in a sequence of calls. -/
def callsOf (t : Nat) (order : List (Nat × Op)) : List Op :=
  (order.filter (fun p => decide (p.1 = t))).map (·.2)

/-- The calls made one after the other by a single thread. -/
def sequentially (seq : σ → Op → Except Fault σ) (s : σ) (order : List (Nat × Op)) : Except Fault σ :=
  runE seq s (order.map (·.2))

/-- No thread is inside a call. -/
def Quiet (c : Config σ Op L) : Prop := ∀ t, (c.threads t).inside = none

/-- Every thread has made all its calls. -/
def Finished (c : Config σ Op L) : Prop := ∀ t, (c.threads t).inside = none ∧ (c.threads t).todo = []

/-- The thread of an event. -/
def Event.thread : Event → Nat
  | .acquire t => t
  | .access t => t
  | .release t => t

/-- Happens-before: program order, and every release of the mutex before every later acquisition of it. -/
inductive HB (tr : List Event) : Nat → Nat → Prop where
  | po {i j a b} (hi : tr[i]? = some a) (hj : tr[j]? = some b) (hlt : i < j) (ht : a.thread = b.thread) : HB tr i j
  | sync {i j t u} (hi : tr[i]? = some (.release t)) (hj : tr[j]? = some (.acquire u)) (hlt : i < j) : HB tr i j
  | trans {i j k} (h1 : HB tr i j) (h2 : HB tr j k) : HB tr i k

/-- Two accesses by different threads, neither of which happens before the other (the first cannot come after the second).
All accesses are taken to conflict. -/
def Race (tr : List Event) : Prop :=
  ∃ i j t u, i < j ∧ t ≠ u ∧ tr[i]? = some (.access t) ∧ tr[j]? = some (.access u) ∧ ¬ HB tr i j

end MF.Mutex
