import Verif.Model.Basic
/-
Model of include/message_filters/sync_policies/approximate_time.hpp (class ApproximateTime) for `n` inputs.
-/
namespace MF.Approx

/-- The configuration members, approximate_time.hpp:621, 636-640.  `scale d` stands for the expression
`d * (1 + age_penalty_)` of lines 549, 565, 586, 595, i.e. rclcpp's `Duration::operator*(double)`; it is an arbitrary
function, so that nothing is assumed about floating point unless a theorem says so. -/
structure Cfg (n : Nat) where
  queueSize : Nat
  maxInterval : Int
  scale : Int → Int
  lower : Fin n → Int

/-- approximate_time.hpp:620-641.  `num` is `num_non_empty_deques_` (an integer, so that wrap-around would be visible),
`pivot = none` is `NO_PIVOT`, a null slot of `cand` is an empty `MessageEvent`.  `past i` is in push order (its last
element is `back()`).  `out` logs the sets given to the synchronizer's output signal.  Simplifications: `parent_` is
assumed to be set; the mutex is not represented. -/
structure State (n : Nat) where
  cfg : Cfg n
  deques : Fin n → List Ev
  num : Int
  past : Fin n → List Ev
  cand : Fin n → Option Ev
  candStart : Int
  candEnd : Int
  pivotTime : Int
  pivot : Option (Fin n)
  hasDropped : Fin n → Bool
  warned : Fin n → Bool
  out : List (Fin n → Option Ev)

/-- `rclcpp::Duration(std::numeric_limits<int32_t>::max(), 999999999)`, line 75, in nanoseconds. -/
def maxDuration : Int := 2147483647 * 1000000000 + 999999999

/-- approximate_time.hpp:70-84.  The default age penalty 0.1 is part of `scale`. -/
def construct (n : Nat) (cfg : Cfg n) : Except Fault (State n) :=
  if cfg.queueSize > 0 then
    .ok { cfg := cfg, deques := fun _ => [], num := 0, past := fun _ => [], cand := fun _ => none, candStart := 0,
          candEnd := 0, pivotTime := 0, pivot := none, hasDropped := fun _ => false, warned := fun _ => false, out := [] }
  else .error .assertFailed

/-- approximate_time.hpp:117-162, `checkInterMessageBound<i>`; only the warning flag is kept of the log output. -/
def checkInterMessageBound {n : Nat} (s : State n) (i : Fin n) : Except Fault (State n) :=
  if s.warned i then .ok s
  else
    match (s.deques i).getLast? with
    | none => .error .assertFailed
    | some msg =>
      let prev := if (s.deques i).length = 1 then (s.past i).getLast? else (s.deques i)[(s.deques i).length - 2]?
      match prev with
      | none => .ok s
      | some prev =>
        if msg.stamp < prev.stamp then .ok { s with warned := upd s.warned i true }
        else if msg.stamp - prev.stamp < s.cfg.lower i then .ok { s with warned := upd s.warned i true }
        else .ok s

/-- approximate_time.hpp:229-258, `dequeDeleteFront(index)`. -/
def dequeDeleteFront {n : Nat} (s : State n) (i : Fin n) : Except Fault (State n) :=
  match s.deques i with
  | [] => .error .assertFailed
  | _ :: rest => .ok { s with deques := upd s.deques i rest, num := if rest.isEmpty then s.num - 1 else s.num }

/-- approximate_time.hpp:261-292, `dequeMoveFrontToPast(index)`. -/
def dequeMoveFrontToPast {n : Nat} (s : State n) (i : Fin n) : Except Fault (State n) :=
  match s.deques i with
  | [] => .error .assertFailed
  | e :: rest =>
    .ok { s with past := upd s.past i (s.past i ++ [e]), deques := upd s.deques i rest,
                 num := if rest.isEmpty then s.num - 1 else s.num }

/-- approximate_time.hpp:294-314, `makeCandidate`; `front()` of an empty deque is undefined. -/
def makeCandidate {n : Nat} (s : State n) : Except Fault (State n) :=
  if (List.finRange n).all (fun i => !(s.deques i).isEmpty) then
    .ok { s with cand := fun i => (s.deques i).head?, past := fun _ => [] }
  else .error .ub

/-- The loops of lines 329-333, 351-354 and 372-375: `k` times `q.push_front(v.back()); v.pop_back()`. -/
def moveBack : Nat → List Ev → List Ev → List Ev × List Ev
  | 0, v, q => (v, q)
  | k + 1, v, q =>
    match v.getLast? with
    | none => (v, q)
    | some e => moveBack k v.dropLast (e :: q)

/-- Lines 335-337 and 356-358: count a non-empty deque. -/
def countNonEmpty {n : Nat} (s : State n) (i : Fin n) : State n :=
  if (s.deques i).isEmpty then s else { s with num := s.num + 1 }

/-- approximate_time.hpp:323-338, `recover<i>(num_messages)`. -/
def recoverN {n : Nat} (moves : Fin n → Nat) (s : State n) (i : Fin n) : Except Fault (State n) :=
  if moves i ≤ (s.past i).length then
    let r := moveBack (moves i) (s.past i) (s.deques i)
    .ok (countNonEmpty { s with past := upd s.past i r.1, deques := upd s.deques i r.2 } i)
  else .error .assertFailed

/-- approximate_time.hpp:316-320, `recoverAll(num_messages)`. -/
def recoverAllN {n : Nat} (moves : Fin n → Nat) (s : State n) : Except Fault (State n) :=
  (List.finRange n).foldlM (recoverN moves) s

/-- approximate_time.hpp:346-359, `recover<i>()`. -/
def recover {n : Nat} (s : State n) (i : Fin n) : State n :=
  let r := moveBack (s.past i).length (s.past i) (s.deques i)
  countNonEmpty { s with past := upd s.past i r.1, deques := upd s.deques i r.2 } i

/-- approximate_time.hpp:340-344, `recoverAll()`. -/
def recoverAll {n : Nat} (s : State n) : State n :=
  (List.finRange n).foldl recover s

/-- approximate_time.hpp:367-383, `recoverAndDelete<i>()`. -/
def recoverAndDelete {n : Nat} (s : State n) (i : Fin n) : Except Fault (State n) :=
  let r := moveBack (s.past i).length (s.past i) (s.deques i)
  match r.2 with
  | [] => .error .assertFailed
  | _ :: rest => .ok (countNonEmpty { s with past := upd s.past i r.1, deques := upd s.deques i rest } i)

/-- approximate_time.hpp:386-397, `publishCandidate`. -/
def publishCandidate {n : Nat} (s : State n) : Except Fault (State n) :=
  (List.finRange n).foldlM recoverAndDelete
    { s with out := s.out ++ [s.cand], cand := fun _ => none, pivot := none, num := 0 }

/-- approximate_time.hpp:414-425, `checkBoundary<I>`.  `acc = none` means that `index` and `time` are still
uninitialised. -/
def checkBoundary {n : Nat} (d : Fin n → List Ev) (isEnd : Bool) (acc : Option (Fin n × Int)) (i : Fin n) :
    Except Fault (Option (Fin n × Int)) :=
  match d i with
  | [] => .error .ub
  | e :: _ =>
    if i.val = 0 then .ok (some (i, e.stamp))
    else
      match acc with
      | none => .error .ub
      | some (j, time) => if (decide (e.stamp < time) ^^ isEnd) then .ok (some (i, e.stamp)) else .ok (some (j, time))

/-- approximate_time.hpp:399-441, `getCandidateStart` (`isEnd = false`) and `getCandidateEnd` (`isEnd = true`). -/
def getCandidateBoundary {n : Nat} (d : Fin n → List Ev) (isEnd : Bool) : Except Fault (Fin n × Int) :=
  match (List.finRange n).foldlM (checkBoundary d isEnd) none with
  | .error f => .error f
  | .ok none => .error .ub
  | .ok (some r) => .ok r

/-- approximate_time.hpp:444-468, `getVirtualTime<i>`. -/
def getVirtualTime {n : Nat} (s : State n) (i : Fin n) : Except Fault Int :=
  if s.pivot = none then .error .assertFailed
  else
    match s.deques i with
    | [] =>
      match (s.past i).getLast? with
      | none => .error .assertFailed
      | some last =>
        let lowerBound := last.stamp + s.cfg.lower i
        if lowerBound > s.pivotTime then .ok lowerBound else .ok s.pivotTime
    | e :: _ => .ok e.stamp

/-- approximate_time.hpp:499-502: one round of the loop of `getVirtualCandidateBoundary`. -/
def virtualBoundaryStep {n : Nat} (times : Fin n → Int) (isEnd : Bool) (acc : Fin n × Int) (i : Fin n) : Fin n × Int :=
  if (decide (times i < acc.2) ^^ isEnd) then (i, times i) else acc

/-- approximate_time.hpp:486: one element of the array built by `getVirtualTimes`. -/
def virtualTimesStep {n : Nat} (s : State n) (times : Fin n → Int) (i : Fin n) : Except Fault (Fin n → Int) :=
  match getVirtualTime s i with
  | .error f => .error f
  | .ok t => .ok (upd times i t)

/-- approximate_time.hpp:483-487, `getVirtualTimes`: all virtual times, or the first fault. -/
def getVirtualTimes {n : Nat} (s : State n) : Except Fault (Fin n → Int) :=
  (List.finRange n).foldlM (virtualTimesStep s) (fun _ => 0)

/-- approximate_time.hpp:471-504, `getVirtualCandidateStart` / `getVirtualCandidateEnd`. -/
def getVirtualCandidateBoundary {n : Nat} [NeZero n] (s : State n) (isEnd : Bool) : Except Fault (Fin n × Int) :=
  match getVirtualTimes s with
  | .error f => .error f
  | .ok times => .ok ((List.finRange n).foldl (virtualBoundaryStep times isEnd) (0, times 0))

/-- approximate_time.hpp:581-615: the `while (1)` loop of the virtual search. `before` is
`num_non_empty_deques_before_virtual_search`, the first argument bounds the number of iterations. -/
def virtualSearch {n : Nat} [NeZero n] : Nat → Int → (Fin n → Nat) → State n → Except Fault (State n)
  | 0, _, _, _ => .error .hang
  | fuel + 1, before, moves, s =>
    match getVirtualCandidateBoundary s true with
    | .error f => .error f
    | .ok (_, endTime) =>
    match getVirtualCandidateBoundary s false with
    | .error f => .error f
    | .ok (startIndex, startTime) =>
      if s.cfg.scale (endTime - s.candEnd) ≥ s.pivotTime - s.candStart then publishCandidate s
      else if s.cfg.scale (endTime - s.candEnd) < startTime - s.candStart then
        match recoverAllN moves { s with num := 0 } with
        | .error f => .error f
        | .ok s' => if before = s'.num then .ok s' else .error .assertFailed
      else if some startIndex = s.pivot then .error .assertFailed
      else if ¬ startTime < s.pivotTime then .error .assertFailed
      else
        match dequeMoveFrontToPast s startIndex with
        | .error f => .error f
        | .ok s' => virtualSearch fuel before (upd moves startIndex (moves startIndex + 1)) s'

/-- approximate_time.hpp:524-562: with the boundaries of the current interval found, either `none` (the front of the
oldest deque was deleted, `continue`) or the state from which the iteration goes on. -/
def examine {n : Nat} (s : State n) (endIndex : Fin n) (endTime : Int) (startIndex : Fin n) (startTime : Int) :
    Except Fault (Bool × State n) :=
  match s.pivot with
  | none =>
    if endTime - startTime > s.cfg.maxInterval then (dequeDeleteFront s startIndex).map (fun s => (false, s))
    else if s.hasDropped endIndex then (dequeDeleteFront s startIndex).map (fun s => (false, s))
    else
      match makeCandidate s with
      | .error f => .error f
      | .ok s1 =>
        (dequeMoveFrontToPast { s1 with candStart := startTime, candEnd := endTime, pivot := some endIndex,
                                        pivotTime := endTime } startIndex).map (fun s => (true, s))
  | some _ =>
    if s.cfg.scale (endTime - s.candEnd) ≥ startTime - s.candStart then
      (dequeMoveFrontToPast s startIndex).map (fun s => (true, s))
    else
      match makeCandidate s with
      | .error f => .error f
      | .ok s1 =>
        (dequeMoveFrontToPast { s1 with candStart := startTime, candEnd := endTime } startIndex).map (fun s => (true, s))

/-- approximate_time.hpp:563-616: the rest of the iteration. -/
def conclude {n : Nat} [NeZero n] (fuel : Nat) (s : State n) (endTime : Int) (startIndex : Fin n) :
    Except Fault (State n) :=
  if s.pivot = none then .error .assertFailed
  else if some startIndex = s.pivot then publishCandidate s
  else if s.cfg.scale (endTime - s.candEnd) ≥ s.pivotTime - s.candStart then publishCandidate s
  else if s.num < n then virtualSearch fuel s.num (fun _ => 0) s
  else .ok s

/-- approximate_time.hpp:512-616: one iteration of the loop of `process`. -/
def iteration {n : Nat} [NeZero n] (fuel : Nat) (s : State n) : Except Fault (State n) :=
  match getCandidateBoundary s.deques true with
  | .error f => .error f
  | .ok (endIndex, endTime) =>
  match getCandidateBoundary s.deques false with
  | .error f => .error f
  | .ok (startIndex, startTime) =>
  match examine { s with hasDropped := fun i => if i ≠ endIndex then false else s.hasDropped i }
      endIndex endTime startIndex startTime with
  | .error f => .error f
  | .ok (false, s1) => .ok s1
  | .ok (true, s1) => conclude fuel s1 endTime startIndex

/-- approximate_time.hpp:508-618, `process`.  The first argument bounds the number of iterations (of this loop and of
each virtual search). -/
def process {n : Nat} [NeZero n] : Nat → State n → Except Fault (State n)
  | 0, s => if s.num = n then .error .hang else .ok s
  | fuel + 1, s =>
    if s.num = n then
      match iteration fuel s with
      | .error f => .error f
      | .ok s' => process fuel s'
    else .ok s

/-- approximate_time.hpp:170-181: the first half of `add<i>(evt)`. -/
def addPush {n : Nat} [NeZero n] (fuel : Nat) (s : State n) (i : Fin n) (e : Ev) : Except Fault (State n) :=
  let s1 : State n := { s with deques := upd s.deques i (s.deques i ++ [e]) }
  if (s1.deques i).length = 1 then
    let s2 : State n := { s1 with num := s1.num + 1 }
    if s2.num = n then process fuel s2 else .ok s2
  else checkInterMessageBound s1 i

/-- approximate_time.hpp:184-200: the second half of `add<i>(evt)`, the queue limit. -/
def addLimit {n : Nat} [NeZero n] (fuel : Nat) (s : State n) (i : Fin n) : Except Fault (State n) :=
  if (s.deques i).length + (s.past i).length > s.cfg.queueSize then
    let s1 := recoverAll { s with num := 0 }
    match s1.deques i with
    | [] => .error .assertFailed
    | _ :: rest =>
      let s2 : State n := { s1 with deques := upd s1.deques i rest, hasDropped := upd s1.hasDropped i true }
      if s2.pivot = none then .ok s2
      else process fuel { s2 with cand := fun _ => none, pivot := none }
  else .ok s

/-- approximate_time.hpp:165-201, `add<i>(evt)`. -/
def add {n : Nat} [NeZero n] (fuel : Nat) (s : State n) (i : Fin n) (e : Ev) : Except Fault (State n) :=
  match addPush fuel s i e with
  | .error f => .error f
  | .ok s1 => addLimit fuel s1 i

/-- Calls of the policy's public interface. -/
inductive Op (n : Nat) where
  | add (i : Fin n) (e : Ev)
  | setAgePenalty (nonneg : Bool) (scale : Int → Int)
  | setInterMessageLowerBound (i : Fin n) (d : Int)
  | setMaxIntervalDuration (d : Int)

/-- approximate_time.hpp:165-225: `add` and the three setters with their assertions. -/
def step {n : Nat} [NeZero n] (fuel : Nat) (s : State n) : Op n → Except Fault (State n)
  | .add i e => add fuel s i e
  | .setAgePenalty nonneg scale =>
    if nonneg then .ok { s with cfg := { s.cfg with scale := scale } } else .error .assertFailed
  | .setInterMessageLowerBound i d =>
    if d ≥ 0 then .ok { s with cfg := { s.cfg with lower := upd s.cfg.lower i d } } else .error .assertFailed
  | .setMaxIntervalDuration d =>
    if d ≥ 0 then .ok { s with cfg := { s.cfg with maxInterval := d } } else .error .assertFailed

/-- A history of calls of a freshly constructed policy. -/
def runOps {n : Nat} [NeZero n] (fuel : Nat) (cfg : Cfg n) (ops : List (Op n)) : Except Fault (State n) :=
  match construct n cfg with
  | .error f => .error f
  | .ok s => runE (step fuel) s ops

/-- A history of `add` calls of a freshly constructed policy. -/
def run {n : Nat} [NeZero n] (fuel : Nat) (cfg : Cfg n) (ops : List (Fin n × Ev)) : Except Fault (State n) :=
  runOps fuel cfg (ops.map (fun op => .add op.1 op.2))

end MF.Approx
