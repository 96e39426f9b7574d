import Verif.Model.Basic
/-
Model of include/message_filters/sync_policies/exact_time.hpp (struct ExactTime) for `n` inputs.
-/
namespace MF.ExactTime

/-- exact_time.hpp:60, `Tuple`: one possibly null event per input. -/
abbrev Tuple (n : Nat) := Fin n → Option Ev

/-- A value initialised `Tuple`, as created by `std::map::operator[]`. -/
def emptyTuple (n : Nat) : Tuple n := fun _ => none

/-- What an observer can see: a set given to the synchronizer's output signal (line 146), a set given to the drop
signal (line 177).  `replaced` is a ghost entry: the event overwritten by line 99. -/
inductive Action (n : Nat) where
  | out (t : Tuple n)
  | drop (t : Tuple n)
  | replaced (i : Fin n) (e : Ev)

/-- exact_time.hpp:186-194.  `tuples` is the ordered map `tuples_` as an association list in increasing key order;
`last` is `last_signal_time_` (default constructed: 0).  `parent_` is assumed to be set (Synchronizer::init).
The mutex is not represented here. -/
structure State (n : Nat) where
  queueSize : Nat
  tuples : List (Int × Tuple n)
  last : Int
  log : List (Action n)

/-- exact_time.hpp:62-66. -/
def construct (n : Nat) (queueSize : Nat) : State n :=
  { queueSize := queueSize, tuples := [], last := 0, log := [] }

/-- `tuples_[k]` as a read (line 98): the tuple stored under `k`, or a fresh one. -/
def tupleAt {n : Nat} (k : Int) : List (Int × Tuple n) → Tuple n
  | [] => emptyTuple n
  | (k', t) :: m => if k' = k then t else tupleAt k m

/-- `tuples_[k] = t`, keeping the keys ordered (lines 98-99). -/
def store {n : Nat} (k : Int) (t : Tuple n) : List (Int × Tuple n) → List (Int × Tuple n)
  | [] => [(k, t)]
  | (k', t') :: m =>
    if k' < k then (k', t') :: store k t m
    else if k' = k then (k, t) :: m
    else (k, t) :: (k', t') :: m

/-- exact_time.hpp:129-136, `isFull`. -/
def isFull {n : Nat} (t : Tuple n) : Bool := (List.finRange n).all (fun i => (t i).isSome)

/-- exact_time.hpp:180-184, `drop_range(begin, it)` where `dropped` is the prefix up to `it` and `kept` the rest. -/
def dropRange {n : Nat} (s : State n) (dropped kept : List (Int × Tuple n)) : State n :=
  { s with tuples := kept, log := s.log ++ dropped.map (fun p => .drop p.2) }

/-- exact_time.hpp:165-169, `clearOldTuples`: everything before `upper_bound(last_signal_time_)`. -/
def clearOldTuples {n : Nat} (s : State n) : State n :=
  dropRange s (s.tuples.takeWhile (fun p => decide (p.1 ≤ s.last))) (s.tuples.dropWhile (fun p => decide (p.1 ≤ s.last)))

/-- exact_time.hpp:156-160, the overflow part of `checkTuple`. -/
def dropExceeding {n : Nat} (s : State n) : State n :=
  if s.queueSize > 0 ∧ s.tuples.length > s.queueSize then
    dropRange s (s.tuples.take (s.tuples.length - s.queueSize)) (s.tuples.drop (s.tuples.length - s.queueSize))
  else s

/-- exact_time.hpp:139-161, `checkTuple`.  Reading the stamp of a null message is undefined behaviour. -/
def checkTuple {n : Nat} [NeZero n] (s : State n) (t : Tuple n) : Except Fault (State n) :=
  if isFull t then
    match t 0 with
    | none => .error .ub
    | some e0 =>
      let s1 := { s with log := s.log ++ [.out t], last := e0.stamp,
                         tuples := s.tuples.filter (fun p => decide (p.1 ≠ e0.stamp)) }
      .ok (dropExceeding (clearOldTuples s1))
  else .ok (dropExceeding s)

/-- exact_time.hpp:88-102, `add<i>(evt)`. -/
def add {n : Nat} [NeZero n] (s : State n) (i : Fin n) (e : Ev) : Except Fault (State n) :=
  let t := tupleAt e.stamp s.tuples
  let t' := upd t i (some e)
  let ghost := (t i).toList.map (.replaced i)
  checkTuple { s with tuples := store e.stamp t' s.tuples, log := s.log ++ ghost } t'

/-- A history of `add` calls, each tagged with its input. -/
def run {n : Nat} [NeZero n] (s : State n) (ops : List (Fin n × Ev)) : Except Fault (State n) :=
  runE (fun s op => add s op.1 op.2) s ops

end MF.ExactTime
