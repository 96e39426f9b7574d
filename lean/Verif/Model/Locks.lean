import Verif.Model.Mutex
import Verif.Model.ExactTime
import Verif.Model.Approx
import Verif.Model.Epsilon
import Verif.Model.Latest
import Verif.Model.Aligner
import Verif.Model.Signal
import Verif.Model.Cache
/-
Which calls of each filter hold its mutex, and the body of `ExactTime::add` statement by statement.
-/
namespace MF.Mutex

variable {n : Nat}

/-- exact_time.hpp:96: `add` locks `mutex_` before it touches a member. -/
def lockedExact (_ : Fin n × Ev) : Bool := true

/-- approximate_time.hpp:168: `add` locks `data_mutex_`; the setters (203-225) do not. -/
def lockedApprox : Approx.Op n → Bool
  | .add _ _ => true
  | .setAgePenalty _ _ => false
  | .setInterMessageLowerBound _ _ => false
  | .setMaxIntervalDuration _ => false

/-- approximate_epsilon_time.hpp:101: `add` locks `mutex_`. -/
def lockedEpsilon (_ : Fin n × Ev) : Bool := true

/-- The public operations of `LatestTime` that touch its members. -/
inductive LatestOp (n : Nat) (D : Type) where
  | add (op : Latest.Op n)
  | setRateConfigs (configs : List (Latest.Config D))

/-- latest_time.hpp:129-137 and 145-180.  (`setClock`, 139-142, is not represented: the times read are part of the operation.) -/
def stepLatest {D : Type} [Latest.Arith D] (dflt : Latest.Config D) (s : Latest.State n D) :
    LatestOp n D → Except Fault (Latest.State n D)
  | .add op => Latest.add dflt s op.input op.msg op.now
  | .setRateConfigs configs => .ok (Latest.setRateConfigPerMessage s configs)

/-- latest_time.hpp:149: `add` locks `data_mutex_`; the setters (129-142) do not. -/
def lockedLatest {D : Type} : LatestOp n D → Bool
  | .add _ => true
  | .setRateConfigs _ => false

/-- input_aligner.hpp:230 and 347: `dispatchMessages` and `addEvent` lock `mutex_`; `setInputPeriod` (196-200) does not. -/
def lockedAligner : Aligner.Op n → Bool
  | .add _ _ => true
  | .dispatch => true
  | .setPeriod _ _ => false

/-- signal1.hpp:89, 96, 106 and signal9.hpp:96, 131, 141: adding, removing and calling lock `mutex_`. -/
def lockedSignal {β : Type} (_ : Signal.Op β) : Bool := true

/-- The operations of a signal as calls that cannot fail. -/
def stepSignal {β : Type} (r : Signal.Registry β) (op : Signal.Op β) : Except Fault (Signal.Registry β) := .ok (Signal.step r op)

end MF.Mutex

namespace MF.ExactTime
open MF.Mutex

variable {n : Nat}

/-- The point which a call of `ExactTime::add` has reached. -/
inductive Point (n : Nat) where
  /-- exact_time.hpp:98, `tuples_[stamp]` -/
  | find (i : Fin n) (e : Ev)
  /-- line 99, `std::get<i>(t) = evt` -/
  | assign (i : Fin n) (e : Ev)
  /-- lines 143-146, `isFull` and the output signal -/
  | check (t : Tuple n)
  /-- line 149, `last_signal_time_ = stamp of message 0` -/
  | remember (t : Tuple n)
  /-- line 151, `tuples_.erase(last_signal_time_)` -/
  | erase
  /-- lines 165-168, `clearOldTuples`: the range to drop -/
  | clear
  /-- lines 156-159: the range to drop -/
  | overflow
  /-- lines 180-184, `drop_range`: `todo` are the sets still to be given to the drop signal, `keep` the entries after the
  range; afterwards `overflow` follows, or nothing. -/
  | drop (todo : List (Tuple n)) (keep : List (Int × Tuple n)) (overflowNext : Bool)

/-- exact_time.hpp:88-102, 129-184, one statement per step (each drop signal is a step). -/
def statement [NeZero n] : Point n → State n → Except Fault (State n × Option (Point n))
  | .find i e, s =>
    .ok ({ s with tuples := store e.stamp (tupleAt e.stamp s.tuples) s.tuples }, some (.assign i e))
  | .assign i e, s =>
    .ok ({ s with tuples := store e.stamp (upd (tupleAt e.stamp s.tuples) i (some e)) s.tuples,
                  log := s.log ++ ((tupleAt e.stamp s.tuples) i).toList.map (.replaced i) },
         some (.check (upd (tupleAt e.stamp s.tuples) i (some e))))
  | .check t, s =>
    if isFull t then .ok ({ s with log := s.log ++ [.out t] }, some (.remember t)) else .ok (s, some .overflow)
  | .remember t, s =>
    match t 0 with
    | none => .error .ub
    | some e0 => .ok ({ s with last := e0.stamp }, some .erase)
  | .erase, s => .ok ({ s with tuples := s.tuples.filter (fun p => decide (p.1 ≠ s.last)) }, some .clear)
  | .clear, s =>
    .ok (s, some (.drop ((s.tuples.takeWhile (fun p => decide (p.1 ≤ s.last))).map (·.2))
                        (s.tuples.dropWhile (fun p => decide (p.1 ≤ s.last))) true))
  | .overflow, s =>
    if s.queueSize > 0 ∧ s.tuples.length > s.queueSize then
      .ok (s, some (.drop ((s.tuples.take (s.tuples.length - s.queueSize)).map (·.2))
                          (s.tuples.drop (s.tuples.length - s.queueSize)) false))
    else .ok (s, none)
  | .drop (t :: todo) keep next, s => .ok ({ s with log := s.log ++ [.drop t] }, some (.drop todo keep next))
  | .drop [] keep next, s => .ok ({ s with tuples := keep }, if next then some .overflow else none)

/-- `ExactTime::add` as a body of a locked call. -/
def body [NeZero n] : Impl (State n) (Fin n × Ev) (Point n) :=
  { enter := fun op => .find op.1 op.2, micro := statement }

end MF.ExactTime
