import Verif.Model.Multiset
/-
Model of include/message_filters/input_aligner.hpp (class InputAligner) for `n` inputs.
-/
namespace MF.Aligner

/-- `rclcpp::Time::max(RCL_ROS_TIME)` in nanoseconds (2147483647 s and 999999999 ns). -/
def maxTime : Int := 2147483647 * 1000000000 + 999999999

/-- input_aligner.hpp:254-313, `EventQueue`: the multiset in iteration order and the bookkeeping members. -/
structure Queue where
  items : List Ev
  next : Int
  period : Int
  active : Bool
  processed : Nat
  dropped : Nat

/-- input_aligner.hpp:260-262, the constructor of `EventQueue`. -/
def Queue.init : Queue := { items := [], next := maxTime, period := 0, active := false, processed := 0, dropped := 0 }

/-- input_aligner.hpp:264-277, `firstTimeStamp`: the new queue and the result.  Simplification: `first_ts + period_`
is an unbounded sum (see C56). -/
def Queue.firstTimeStamp (q : Queue) : Queue × Int :=
  match q.items with
  | e :: _ => ({ q with next := e.stamp + q.period, active := true }, e.stamp)
  | [] => if q.active then (q, q.next) else (q, maxTime)

/-- input_aligner.hpp:279-283, `popFirst`; erasing the end iterator is undefined. -/
def Queue.popFirst (q : Queue) : Except Fault Queue :=
  match q.items with
  | [] => .error .ub
  | _ :: l => .ok { q with items := l, processed := q.processed + 1 }

/-- input_aligner.hpp:422-431: the members of `InputAligner`.  `out` logs the calls of the output signals.  The mutex,
the connections, the name and the timer are not represented. -/
structure State (n : Nat) where
  timeout : Int
  lastIn : Int
  lastOut : Int
  queues : Fin n → Queue
  out : List (Fin n × Ev)

/-- input_aligner.hpp:95-109, the constructors (connections are modelled elsewhere). -/
def construct (n : Nat) (timeout : Int) : State n :=
  { timeout := timeout, lastIn := 0, lastOut := 0, queues := fun _ => Queue.init, out := [] }

/-- input_aligner.hpp:339-364, `addEvent<I>`.  Simplifications: the message is not null, its stamp is ROS time. -/
def add {n : Nat} (s : State n) (i : Fin n) (e : Ev) : State n :=
  if e.stamp < s.lastOut then
    { s with queues := upd s.queues i { s.queues i with dropped := (s.queues i).dropped + 1 } }
  else
    let s1 : State n := if e.stamp > s.lastIn then { s with lastIn := e.stamp } else s
    { s1 with queues := upd s1.queues i { s1.queues i with items := insertEv e (s1.queues i).items } }

/-- input_aligner.hpp:196-200, `setInputPeriod<I>`. -/
def setInputPeriod {n : Nat} (s : State n) (i : Fin n) (period : Int) : State n :=
  { s with queues := upd s.queues i { s.queues i with period := period } }

/-- input_aligner.hpp:366-373, `inputsAvailable`. -/
def inputsAvailable {n : Nat} (s : State n) : Bool :=
  (List.finRange n).any (fun i => !(s.queues i).items.isEmpty)

/-- input_aligner.hpp:416-420, `getFirstSampleIdx`: `std::min_element`, the first of the smallest elements; `none` is the
end of an empty range. -/
def getFirstSampleIdx {n : Nat} (ts : Fin n → Int) : Option (Fin n) :=
  (List.finRange n).foldl
    (fun best i => match best with
      | none => some i
      | some j => if ts i < ts j then some i else some j) none

/-- input_aligner.hpp:379-380: `firstTimeStamp` is evaluated for every queue. -/
def stamped {n : Nat} (s : State n) : State n :=
  { s with queues := fun i => (s.queues i).firstTimeStamp.1 }

/-- input_aligner.hpp:390-414, `dispatchFirstMessage<I>(idx)` for `I = idx`; for the other `I` it only returns false. -/
def dispatchAt {n : Nat} (s : State n) (i : Fin n) : Except Fault (State n × Bool) :=
  match (s.queues i).items with
  | e :: _ =>
    let s1 : State n := { s with lastOut := e.stamp, out := s.out ++ [(i, e)] }
    match (s1.queues i).popFirst with
    | .error f => .error f
    | .ok q => .ok ({ s1 with queues := upd s1.queues i q }, true)
  | [] =>
    let r := (s.queues i).firstTimeStamp
    let s1 : State n := { s with queues := upd s.queues i r.1 }
    if s1.lastIn - r.2 ≥ s1.timeout then
      .ok ({ s1 with queues := upd s1.queues i { s1.queues i with active := false } }, true)
    else .ok (s1, false)

/-- input_aligner.hpp:375-388, `dispatchFirstMessage()`. -/
def dispatchFirst {n : Nat} (s : State n) : Except Fault (State n × Bool) :=
  let ts := fun i => (s.queues i).firstTimeStamp.2
  match getFirstSampleIdx ts with
  | none => .ok (stamped s, false)
  | some i => dispatchAt (stamped s) i

/-- input_aligner.hpp:234-238: the loop of `dispatchMessages`; the first argument bounds the iterations. -/
def dispatchLoop {n : Nat} : Nat → State n → Except Fault (State n)
  | 0, _ => .error .hang
  | fuel + 1, s =>
    match dispatchFirst s with
    | .error f => .error f
    | .ok (s', true) => dispatchLoop fuel s'
    | .ok (s', false) => .ok s'

/-- input_aligner.hpp:226-240, `dispatchMessages`. -/
def dispatch {n : Nat} (fuel : Nat) (s : State n) : Except Fault (State n) :=
  if inputsAvailable s then dispatchLoop fuel s else .ok s

/-- Calls of the public interface. -/
inductive Op (n : Nat) where
  | add (i : Fin n) (e : Ev)
  | setPeriod (i : Fin n) (d : Int)
  | dispatch

def step {n : Nat} (fuel : Nat) (s : State n) : Op n → Except Fault (State n)
  | .add i e => .ok (add s i e)
  | .setPeriod i d => .ok (setInputPeriod s i d)
  | .dispatch => dispatch fuel s

/-- A history of calls of a freshly constructed aligner. -/
def run {n : Nat} (fuel : Nat) (timeout : Int) (ops : List (Op n)) : Except Fault (State n) :=
  runE (step fuel) (construct n timeout) ops

/-- input_aligner.hpp:87-93, 202-206 and 300-303, `getQueueStatus<I>`. -/
structure QueueStatus where
  active : Bool
  queueSize : Nat
  processed : Nat
  dropped : Nat
deriving DecidableEq, Repr

def getQueueStatus {n : Nat} (s : State n) (i : Fin n) : QueueStatus :=
  { active := (s.queues i).active, queueSize := (s.queues i).items.length,
    processed := (s.queues i).processed, dropped := (s.queues i).dropped }

end MF.Aligner
