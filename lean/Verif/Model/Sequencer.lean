import Verif.Model.Multiset
/-
Model of include/message_filters/time_sequencer.hpp (class TimeSequencer).
-/
namespace MF.Sequencer

/-- A message event together with the clock source of its stamp.  Comparing times of different sources throws
`std::runtime_error` (rclcpp, trusted). -/
structure Msg where
  ev : Ev
  source : Source
deriving DecidableEq, Repr

/-- time_sequencer.hpp:229-239: the members.  `last` is `last_time_`, default constructed: time 0 of source `system`, and
only ever assigned stamps that have passed the comparison with it, hence of source `system`.  `out` logs the calls of
`signalMessage`.  The timer, the connection, the node and the mutex are not represented. -/
structure State where
  delay : Int
  queueSize : Nat
  messages : List Ev
  last : Int
  out : List Ev

/-- time_sequencer.hpp:91-123, the constructors. -/
def construct (delay : Int) (queueSize : Nat) : State :=
  { delay := delay, queueSize := queueSize, messages := [], last := 0, out := [] }

/-- `messages_.erase(*messages_.begin())` (time_sequencer.hpp:158): erasing by key removes every element that is
equivalent to the first. -/
def eraseKeyOfFirst : List Ev → List Ev
  | [] => []
  | x :: l => (x :: l).filter (fun y => decide (y.stamp ≠ x.stamp))

/-- time_sequencer.hpp:146-160, `add`.  The comparison with `last_time_` throws before anything is changed if the stamp is
not of source `system`; queued messages all have source `system`, so the comparisons made by `insert` do not throw.
Simplification: the message is not null. -/
def add (s : State) (m : Msg) : Except Fault State :=
  if m.source ≠ Source.system then .error .threw
  else if m.ev.stamp < s.last then .ok s
  else
    let ms := insertEv m.ev s.messages
    .ok { s with messages := if s.queueSize ≠ 0 ∧ ms.length > s.queueSize then eraseKeyOfFirst ms else ms }

/-- time_sequencer.hpp:199-209: the loop of `dispatch`.  `now k` is the reading of `rclcpp::Clock().now()` in iteration `k`
(any value: the system clock may jump).  The result is `to_call`, the messages left and `last_time_`.
Simplification: `stamp + delay_` is an unbounded sum (see C56). -/
def takeReady (delay : Int) (now : Nat → Int) : Nat → List Ev → Int → List Ev × List Ev × Int
  | _, [], last => ([], [], last)
  | k, e :: l, last =>
    if e.stamp + delay ≤ now k then
      let r := takeReady delay now (k + 1) l e.stamp
      (e :: r.1, r.2)
    else ([], e :: l, last)

/-- time_sequencer.hpp:190-219, `dispatch` without interference of other threads between the two blocks. -/
def dispatch (s : State) (now : Nat → Int) : State :=
  let r := takeReady s.delay now 0 s.messages s.last
  { s with messages := r.2.1, last := r.2.2, out := s.out ++ r.1 }

/-- A message arrives, or the timer fires. -/
inductive Op where
  | add (m : Msg)
  | tick (now : Nat → Int)

/-- One call.  An exception thrown by `add` goes to the caller and leaves the sequencer as it was. -/
def step (s : State) : Op → State
  | .add m => match add s m with
    | .ok s' => s'
    | .error _ => s
  | .tick now => dispatch s now

/-- A history of a freshly constructed sequencer. -/
def run (delay : Int) (queueSize : Nat) (ops : List Op) : State := ops.foldl step (construct delay queueSize)

end MF.Sequencer
