import Verif.Model.Basic
/-
Model of include/message_filters/sync_policies/approximate_epsilon_time.hpp (class ApproximateEpsilonTime) for `n` inputs.
-/
namespace MF.Epsilon

/-- approximate_epsilon_time.hpp:282-290.  `num` is the counter `number_of_non_empty_events_` (an integer here, so that
a wrap-around of the unsigned counter would be visible as a negative value).  `out` logs the sets given to the
synchronizer's output signal.  Simplifications: `parent_` is assumed to be set; the mutex is not represented. -/
structure State (n : Nat) where
  queueSize : Nat
  epsilon : Int
  num : Int
  events : Fin n → List Ev
  out : List (Fin n → Option Ev)

/-- approximate_epsilon_time.hpp:68-73. -/
def construct (n queueSize : Nat) (epsilon : Int) : State n :=
  { queueSize := queueSize, epsilon := epsilon, num := 0, events := fun _ => [], out := [] }

/-- `std::numeric_limits<int64_t>::max()`, line 143. -/
def maxTime : Int := 9223372036854775807

/-- approximate_epsilon_time.hpp:118-136, `get_older_timestamp_between<i>`. -/
def olderBetween {n : Nat} (v : Fin n → List Ev) (cur : Int × Option (Fin n)) (i : Fin n) : Int × Option (Fin n) :=
  match v i with
  | [] => cur
  | e :: _ => if cur.1 > e.stamp then (e.stamp, some i) else cur

/-- approximate_epsilon_time.hpp:138-153, `get_older_timestamp`; index `none` is the initial
`numeric_limits<size_t>::max()`. -/
def getOlder {n : Nat} (v : Fin n → List Ev) : Int × Option (Fin n) :=
  (List.finRange n).foldl (olderBetween v) (maxTime, none)

/-- approximate_epsilon_time.hpp:155-176, `check_timestamp_within_epsilon<i>`. -/
def withinEpsilon {n : Nat} (v : Fin n → List Ev) (eps : Int) (older : Int × Option (Fin n)) (i : Fin n) : Bool :=
  if some i = older.2 then true
  else
    match v i with
    | [] => false
    | e :: _ => decide (older.1 + eps ≥ e.stamp)

/-- approximate_epsilon_time.hpp:178-193, `check_all_timestamp_within_epsilon`. -/
def checkAll {n : Nat} (v : Fin n → List Ev) (eps : Int) (older : Int × Option (Fin n)) : Bool :=
  (List.finRange n).all (withinEpsilon v eps older)

/-- approximate_epsilon_time.hpp:195-206, `erase_beginning_of_vector<i>` (also the tail of 220-239). -/
def eraseFront {n : Nat} (s : State n) (i : Fin n) : State n :=
  match s.events i with
  | [] => s
  | _ :: rest => { s with events := upd s.events i rest, num := if rest.isEmpty then s.num - 1 else s.num }

/-- approximate_epsilon_time.hpp:208-218, `erase_beginning_of_vectors`. -/
def eraseFronts {n : Nat} (s : State n) : State n :=
  (List.finRange n).foldl eraseFront s

/-- approximate_epsilon_time.hpp:220-239, `erase_beginning_of_vector_if_on_sync_with_ts<i>`. -/
def eraseIfOnSync {n : Nat} (ts : Int) (s : State n) (i : Fin n) : State n :=
  match s.events i with
  | [] => s
  | e :: _ => if ts + s.epsilon < e.stamp then s else eraseFront s i

/-- approximate_epsilon_time.hpp:241-255, `erase_old_events_if_on_sync_with_ts`. -/
def eraseOld {n : Nat} (ts : Int) (s : State n) : State n :=
  (List.finRange n).foldl (eraseIfOnSync ts) s

/-- approximate_epsilon_time.hpp:257-266, `signal`; `at(0)` of an empty vector throws. -/
def signal {n : Nat} (s : State n) : Except Fault (State n) :=
  if (List.finRange n).all (fun i => !(s.events i).isEmpty) then
    .ok { s with out := s.out ++ [fun i => (s.events i).head?] }
  else .error .threw

/-- approximate_epsilon_time.hpp:269-280, `process`.  The first argument bounds the number of iterations. -/
def process {n : Nat} : Nat → State n → Except Fault (State n)
  | 0, s => if s.num = n then .error .hang else .ok s
  | fuel + 1, s =>
    if s.num = n then
      let older := getOlder s.events
      if checkAll s.events s.epsilon older then
        match signal s with
        | .error f => .error f
        | .ok s' => process fuel (eraseFronts s')
      else process fuel (eraseOld older.1 s)
    else .ok s

/-- approximate_epsilon_time.hpp:96-113, `add<i>(evt)`. -/
def add {n : Nat} (fuel : Nat) (s : State n) (i : Fin n) (e : Ev) : Except Fault (State n) :=
  let num := if (s.events i).length = 0 then s.num + 1 else s.num
  let s1 : State n := { s with num := num, events := upd s.events i (s.events i ++ [e]) }
  if s1.num = (n : Int) then process fuel s1
  else if (s1.events i).length > s1.queueSize then .ok (eraseFront s1 i)
  else .ok s1

/-- A history of `add` calls. -/
def run {n : Nat} (fuel : Nat) (s : State n) (ops : List (Fin n × Ev)) : Except Fault (State n) :=
  runE (fun s op => add fuel s op.1 op.2) s ops

end MF.Epsilon
