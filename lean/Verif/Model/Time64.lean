import Verif.Model.Approx
import Verif.Model.Epsilon
import Verif.Model.Aligner
import Verif.Model.Sequencer
/-
The filters with the arithmetic of `rclcpp::Time` and `rclcpp::Duration`: 64-bit nanoseconds, every sum, difference and product
that does not fit throws (`std::overflow_error`, `std::underflow_error`; rclcpp, trusted).  The functions are those of the other
models with each arithmetic operation replaced by its checked version; those that only compare times (the multisets, ExactTime,
Cache) have none and are not repeated.
-/
namespace MF.Time64

/-- `std::numeric_limits<int64_t>::max()`. -/
def int64Max : Int := 9223372036854775807

/-- `std::numeric_limits<int64_t>::min()`. -/
def int64Min : Int := -9223372036854775808

/-- The result of an operation of `rclcpp::Time` or `rclcpp::Duration` whose exact value is `x`. -/
def checked (x : Int) : Except Fault Int := if int64Min ≤ x ∧ x ≤ int64Max then .ok x else .error .threw

/-- The stamp of a `std_msgs/Header`: an `int32` and a `uint32` field. -/
structure Header where
  sec : Int
  nanosec : Int

/-- The range of the fields of a header. -/
def Header.typed (h : Header) : Prop :=
  -2147483648 ≤ h.sec ∧ h.sec ≤ 2147483647 ∧ 0 ≤ h.nanosec ∧ h.nanosec ≤ 4294967295

/-- message_traits.hpp:98-101: `rclcpp::Time(m.header.stamp, RCL_ROS_TIME)`, which throws for negative seconds (rclcpp,
trusted). -/
def Header.time (h : Header) : Except Fault Int :=
  if h.sec < 0 then .error .threw else checked (h.sec * 1000000000 + h.nanosec)

/-! ### ApproximateTime -/

section
open Approx
variable {n : Nat}

/-- approximate_time.hpp:117-162, `checkInterMessageBound<i>`. -/
def approxCheckBound (s : State n) (i : Fin n) : Except Fault (State n) :=
  if s.warned i then .ok s
  else
    match (s.deques i).getLast? with
    | none => .error .assertFailed
    | some msg =>
      let prev := if (s.deques i).length = 1 then (s.past i).getLast? else (s.deques i)[(s.deques i).length - 2]?
      match prev with
      | none => .ok s
      | some prev =>
        if msg.stamp < prev.stamp then .ok { s with warned := upd s.warned i true }
        else
          match checked (msg.stamp - prev.stamp) with
          | .error f => .error f
          | .ok d => if d < s.cfg.lower i then .ok { s with warned := upd s.warned i true } else .ok s

/-- approximate_time.hpp:444-468, `getVirtualTime<i>`. -/
def approxVirtualTime (s : State n) (i : Fin n) : Except Fault Int :=
  if s.pivot = none then .error .assertFailed
  else
    match s.deques i with
    | [] =>
      match (s.past i).getLast? with
      | none => .error .assertFailed
      | some last =>
        match checked (last.stamp + s.cfg.lower i) with
        | .error f => .error f
        | .ok lowerBound => if lowerBound > s.pivotTime then .ok lowerBound else .ok s.pivotTime
    | e :: _ => .ok e.stamp

/-- approximate_time.hpp:486. -/
def approxVirtualStep (s : State n) (times : Fin n → Int) (i : Fin n) : Except Fault (Fin n → Int) :=
  match approxVirtualTime s i with
  | .error f => .error f
  | .ok t => .ok (upd times i t)

/-- approximate_time.hpp:471-504, `getVirtualCandidateStart` / `getVirtualCandidateEnd`. -/
def approxVirtualBoundary [NeZero n] (s : State n) (isEnd : Bool) : Except Fault (Fin n × Int) :=
  match (List.finRange n).foldlM (approxVirtualStep s) (fun _ => 0) with
  | .error f => .error f
  | .ok times => .ok ((List.finRange n).foldl (virtualBoundaryStep times isEnd) (0, times 0))

/-- The expression `(end_time - candidate_end_) * (1 + age_penalty_)` of lines 549, 565, 586 and 595. -/
def approxAge (s : State n) (endTime : Int) : Except Fault Int :=
  match checked (endTime - s.candEnd) with
  | .error f => .error f
  | .ok d => checked (s.cfg.scale d)

/-- approximate_time.hpp:581-615: the loop of the virtual search.  The product of line 595 is that of line 586. -/
def approxSearch [NeZero n] : Nat → Int → (Fin n → Nat) → State n → Except Fault (State n)
  | 0, _, _, _ => .error .hang
  | fuel + 1, before, moves, s =>
    match approxVirtualBoundary s true with
    | .error f => .error f
    | .ok (_, endTime) =>
    match approxVirtualBoundary s false with
    | .error f => .error f
    | .ok (startIndex, startTime) =>
    match approxAge s endTime with
    | .error f => .error f
    | .ok age =>
    match checked (s.pivotTime - s.candStart) with
    | .error f => .error f
    | .ok gap =>
      if age ≥ gap then publishCandidate s
      else
        match checked (startTime - s.candStart) with
        | .error f => .error f
        | .ok shift =>
        if age < shift then
          match recoverAllN moves { s with num := 0 } with
          | .error f => .error f
          | .ok s' => if before = s'.num then .ok s' else .error .assertFailed
        else if some startIndex = s.pivot then .error .assertFailed
        else if ¬ startTime < s.pivotTime then .error .assertFailed
        else
          match dequeMoveFrontToPast s startIndex with
          | .error f => .error f
          | .ok s' => approxSearch fuel before (upd moves startIndex (moves startIndex + 1)) s'

/-- approximate_time.hpp:524-562. -/
def approxExamine (s : State n) (endIndex : Fin n) (endTime : Int) (startIndex : Fin n) (startTime : Int) :
    Except Fault (Bool × State n) :=
  match s.pivot with
  | none =>
    match checked (endTime - startTime) with
    | .error f => .error f
    | .ok interval =>
    if interval > s.cfg.maxInterval then (dequeDeleteFront s startIndex).map (fun s => (false, s))
    else if s.hasDropped endIndex then (dequeDeleteFront s startIndex).map (fun s => (false, s))
    else
      match makeCandidate s with
      | .error f => .error f
      | .ok s1 =>
        (dequeMoveFrontToPast { s1 with candStart := startTime, candEnd := endTime, pivot := some endIndex,
                                        pivotTime := endTime } startIndex).map (fun s => (true, s))
  | some _ =>
    match approxAge s endTime with
    | .error f => .error f
    | .ok age =>
    match checked (startTime - s.candStart) with
    | .error f => .error f
    | .ok shift =>
    if age ≥ shift then (dequeMoveFrontToPast s startIndex).map (fun s => (true, s))
    else
      match makeCandidate s with
      | .error f => .error f
      | .ok s1 =>
        (dequeMoveFrontToPast { s1 with candStart := startTime, candEnd := endTime } startIndex).map (fun s => (true, s))

/-- approximate_time.hpp:563-616; the product of line 565 is computed in any case. -/
def approxConclude [NeZero n] (fuel : Nat) (s : State n) (endTime : Int) (startIndex : Fin n) : Except Fault (State n) :=
  if s.pivot = none then .error .assertFailed
  else
    match approxAge s endTime with
    | .error f => .error f
    | .ok age =>
    if some startIndex = s.pivot then publishCandidate s
    else
      match checked (s.pivotTime - s.candStart) with
      | .error f => .error f
      | .ok gap =>
      if age ≥ gap then publishCandidate s
      else if s.num < n then approxSearch fuel s.num (fun _ => 0) s
      else .ok s

/-- approximate_time.hpp:512-616: one iteration of the loop of `process`. -/
def approxIteration [NeZero n] (fuel : Nat) (s : State n) : Except Fault (State n) :=
  match getCandidateBoundary s.deques true with
  | .error f => .error f
  | .ok (endIndex, endTime) =>
  match getCandidateBoundary s.deques false with
  | .error f => .error f
  | .ok (startIndex, startTime) =>
  match approxExamine { s with hasDropped := fun i => if i ≠ endIndex then false else s.hasDropped i }
      endIndex endTime startIndex startTime with
  | .error f => .error f
  | .ok (false, s1) => .ok s1
  | .ok (true, s1) => approxConclude fuel s1 endTime startIndex

/-- approximate_time.hpp:508-618, `process`. -/
def approxProcess [NeZero n] : Nat → State n → Except Fault (State n)
  | 0, s => if s.num = n then .error .hang else .ok s
  | fuel + 1, s =>
    if s.num = n then
      match approxIteration fuel s with
      | .error f => .error f
      | .ok s' => approxProcess fuel s'
    else .ok s

/-- approximate_time.hpp:170-181. -/
def approxAddPush [NeZero n] (fuel : Nat) (s : State n) (i : Fin n) (e : Ev) : Except Fault (State n) :=
  let s1 : State n := { s with deques := upd s.deques i (s.deques i ++ [e]) }
  if (s1.deques i).length = 1 then
    let s2 : State n := { s1 with num := s1.num + 1 }
    if s2.num = n then approxProcess fuel s2 else .ok s2
  else approxCheckBound s1 i

/-- approximate_time.hpp:184-200. -/
def approxAddLimit [NeZero n] (fuel : Nat) (s : State n) (i : Fin n) : Except Fault (State n) :=
  if (s.deques i).length + (s.past i).length > s.cfg.queueSize then
    let s1 := recoverAll { s with num := 0 }
    match s1.deques i with
    | [] => .error .assertFailed
    | _ :: rest =>
      let s2 : State n := { s1 with deques := upd s1.deques i rest, hasDropped := upd s1.hasDropped i true }
      if s2.pivot = none then .ok s2
      else approxProcess fuel { s2 with cand := fun _ => none, pivot := none }
  else .ok s

/-- approximate_time.hpp:165-201, `add<i>(evt)`. -/
def approxAdd [NeZero n] (fuel : Nat) (s : State n) (i : Fin n) (e : Ev) : Except Fault (State n) :=
  match approxAddPush fuel s i e with
  | .error f => .error f
  | .ok s1 => approxAddLimit fuel s1 i

/-- approximate_time.hpp:165-225. -/
def approxStep [NeZero n] (fuel : Nat) (s : State n) : Op n → Except Fault (State n)
  | .add i e => approxAdd fuel s i e
  | op => Approx.step fuel s op

/-- A history of calls of a freshly constructed policy. -/
def approxRun [NeZero n] (fuel : Nat) (cfg : Cfg n) (ops : List (Op n)) : Except Fault (State n) :=
  match construct n cfg with
  | .error f => .error f
  | .ok s => runE (approxStep fuel) s ops

end

/-! ### ApproximateEpsilonTime -/

section
open Epsilon
variable {n : Nat}

/-- approximate_epsilon_time.hpp:155-176, `check_timestamp_within_epsilon<i>`. -/
def epsilonWithin (v : Fin n → List Ev) (eps : Int) (older : Int × Option (Fin n)) (i : Fin n) : Except Fault Bool :=
  if some i = older.2 then .ok true
  else
    match v i with
    | [] => .ok false
    | e :: _ =>
      match checked (older.1 + eps) with
      | .error f => .error f
      | .ok t => .ok (decide (t ≥ e.stamp))

/-- approximate_epsilon_time.hpp:178-193, `check_all_timestamp_within_epsilon`: `&&` of the results, from left to right. -/
def epsilonCheckAll (v : Fin n → List Ev) (eps : Int) (older : Int × Option (Fin n)) : List (Fin n) → Except Fault Bool
  | [] => .ok true
  | i :: l =>
    match epsilonWithin v eps older i with
    | .error f => .error f
    | .ok false => .ok false
    | .ok true => epsilonCheckAll v eps older l

/-- approximate_epsilon_time.hpp:220-239, `erase_beginning_of_vector_if_on_sync_with_ts<i>`. -/
def epsilonEraseIfOnSync (ts : Int) (s : State n) (i : Fin n) : Except Fault (State n) :=
  match s.events i with
  | [] => .ok s
  | e :: _ =>
    match checked (ts + s.epsilon) with
    | .error f => .error f
    | .ok t => if t < e.stamp then .ok s else .ok (eraseFront s i)

/-- approximate_epsilon_time.hpp:269-280, `process`. -/
def epsilonProcess : Nat → State n → Except Fault (State n)
  | 0, s => if s.num = n then .error .hang else .ok s
  | fuel + 1, s =>
    if s.num = n then
      let older := getOlder s.events
      match epsilonCheckAll s.events s.epsilon older (List.finRange n) with
      | .error f => .error f
      | .ok true =>
        match signal s with
        | .error f => .error f
        | .ok s' => epsilonProcess fuel (eraseFronts s')
      | .ok false =>
        match (List.finRange n).foldlM (epsilonEraseIfOnSync older.1) s with
        | .error f => .error f
        | .ok s' => epsilonProcess fuel s'
    else .ok s

/-- approximate_epsilon_time.hpp:96-113, `add<i>(evt)`. -/
def epsilonAdd (fuel : Nat) (s : State n) (i : Fin n) (e : Ev) : Except Fault (State n) :=
  let num := if (s.events i).length = 0 then s.num + 1 else s.num
  let s1 : State n := { s with num := num, events := upd s.events i (s.events i ++ [e]) }
  if s1.num = (n : Int) then epsilonProcess fuel s1
  else if (s1.events i).length > s1.queueSize then .ok (eraseFront s1 i)
  else .ok s1

/-- A history of `add` calls. -/
def epsilonRun (fuel : Nat) (s : State n) (ops : List (Fin n × Ev)) : Except Fault (State n) :=
  runE (fun s op => epsilonAdd fuel s op.1 op.2) s ops

end

/-! ### InputAligner -/

section
open Aligner
variable {n : Nat}

/-- input_aligner.hpp:264-277, `firstTimeStamp`. -/
def firstTimeStamp (q : Queue) : Except Fault (Queue × Int) :=
  match q.items with
  | e :: _ =>
    match checked (e.stamp + q.period) with
    | .error f => .error f
    | .ok t => .ok ({ q with next := t, active := true }, e.stamp)
  | [] => if q.active then .ok (q, q.next) else .ok (q, maxTime)

/-- input_aligner.hpp:379-380: `firstTimeStamp` is evaluated for every queue, in order. -/
def alignerStampStep (x : State n × (Fin n → Int)) (i : Fin n) : Except Fault (State n × (Fin n → Int)) :=
  match firstTimeStamp (x.1.queues i) with
  | .error f => .error f
  | .ok (q, t) => .ok ({ x.1 with queues := upd x.1.queues i q }, upd x.2 i t)

/-- input_aligner.hpp:390-414, `dispatchFirstMessage<I>(idx)` for `I = idx`. -/
def alignerDispatchAt (s : State n) (i : Fin n) : Except Fault (State n × Bool) :=
  match (s.queues i).items with
  | e :: _ =>
    let s1 : State n := { s with lastOut := e.stamp, out := s.out ++ [(i, e)] }
    match (s1.queues i).popFirst with
    | .error f => .error f
    | .ok q => .ok ({ s1 with queues := upd s1.queues i q }, true)
  | [] =>
    match firstTimeStamp (s.queues i) with
    | .error f => .error f
    | .ok r =>
      let s1 : State n := { s with queues := upd s.queues i r.1 }
      match checked (s1.lastIn - r.2) with
      | .error f => .error f
      | .ok d =>
        if d ≥ s1.timeout then .ok ({ s1 with queues := upd s1.queues i { s1.queues i with active := false } }, true)
        else .ok (s1, false)

/-- input_aligner.hpp:375-388, `dispatchFirstMessage()`. -/
def alignerDispatchFirst (s : State n) : Except Fault (State n × Bool) :=
  match (List.finRange n).foldlM alignerStampStep (s, fun _ => 0) with
  | .error f => .error f
  | .ok (s1, ts) =>
    match getFirstSampleIdx ts with
    | none => .ok (s1, false)
    | some i => alignerDispatchAt s1 i

/-- input_aligner.hpp:234-238. -/
def alignerLoop : Nat → State n → Except Fault (State n)
  | 0, _ => .error .hang
  | fuel + 1, s =>
    match alignerDispatchFirst s with
    | .error f => .error f
    | .ok (s', true) => alignerLoop fuel s'
    | .ok (s', false) => .ok s'

/-- input_aligner.hpp:226-240, `dispatchMessages`. -/
def alignerDispatch (fuel : Nat) (s : State n) : Except Fault (State n) :=
  if inputsAvailable s then alignerLoop fuel s else .ok s

def alignerStep (fuel : Nat) (s : State n) : Op n → Except Fault (State n)
  | .dispatch => alignerDispatch fuel s
  | op => Aligner.step fuel s op

/-- A history of calls of a freshly constructed aligner. -/
def alignerRun (fuel : Nat) (timeout : Int) (ops : List (Op n)) : Except Fault (State n) :=
  runE (alignerStep fuel) (construct n timeout) ops

end

/-! ### TimeSequencer -/

section
open Sequencer

/-- time_sequencer.hpp:199-209: the loop of `dispatch`. -/
def takeReady (delay : Int) (now : Nat → Int) : Nat → List Ev → Int → Except Fault (List Ev × List Ev × Int)
  | _, [], last => .ok ([], [], last)
  | k, e :: l, last =>
    match checked (e.stamp + delay) with
    | .error f => .error f
    | .ok t =>
      if t ≤ now k then
        match takeReady delay now (k + 1) l e.stamp with
        | .error f => .error f
        | .ok r => .ok (e :: r.1, r.2)
      else .ok ([], e :: l, last)

/-- time_sequencer.hpp:190-219, `dispatch`. -/
def sequencerDispatch (s : State) (now : Nat → Int) : Except Fault State :=
  match takeReady s.delay now 0 s.messages s.last with
  | .error f => .error f
  | .ok r => .ok { s with messages := r.2.1, last := r.2.2, out := s.out ++ r.1 }

def sequencerStep (s : State) : Op → Except Fault State
  | .tick now => sequencerDispatch s now
  | op => .ok (Sequencer.step s op)

/-- A history of a freshly constructed sequencer. -/
def sequencerRun (delay : Int) (queueSize : Nat) (ops : List Op) : Except Fault State :=
  runE sequencerStep (construct delay queueSize) ops

end

end MF.Time64
