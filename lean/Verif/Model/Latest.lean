import Verif.Model.Event
/-
Model of include/message_filters/sync_policies/latest_time.hpp (struct LatestTime) for `n` inputs.

Floating point numbers are abstract: the model is parametrised by a type `D` with arbitrary operations (`Arith D`), so what
is proved without further assumptions holds for IEEE doubles whatever the rounding; NaN is allowed.
-/
namespace MF.Latest

open MF.Event (Time)

/-- The operations on `double` used by latest_time.hpp.  `seconds` is `rclcpp::Duration(ns).seconds()`. -/
class Arith (D : Type) where
  zero : D
  one : D
  add : D → D → D
  sub : D → D → D
  mul : D → D → D
  div : D → D → D
  fabs : D → D
  gt : D → D → Bool
  le : D → D → Bool
  eq : D → D → Bool
  seconds : Int → D

open Arith

/-- latest_time.hpp:94-96, `RateConfig`: `<rate_ema_alpha, error_ema_alpha, rate_step_change_margin_factor>`. -/
structure Config (D : Type) where
  rateAlpha : D
  errorAlpha : D
  marginFactor : D
deriving DecidableEq

/-- latest_time.hpp:213-220, the members of `Rate`. -/
structure Rate (D : Type) where
  prev : Time
  hz : D
  error : D
  config : Config D
  doHzInit : Bool
  doErrorInit : Bool
deriving DecidableEq

variable {D : Type} [Arith D]

/-- latest_time.hpp:222-236, the constructors of `Rate`. -/
def Rate.start (now : Time) (c : Config D) : Rate D :=
  { prev := now, hz := zero, error := zero, config := c, doHzInit := true, doErrorInit := true }

/-- `rclcpp::Time::operator-` (trusted): throws for different sources.  Overflow of 64 bits, which would also throw, is not
represented: both readings are non-negative. -/
def timeSub (a b : Time) : Except Fault Int :=
  if a.source ≠ b.source then .error .threw else .ok (a.ns - b.ns)

/-- The outcome of one pass through the loop of `compute_hz`. -/
inductive Pass (D : Type) where
  | done (valid : Bool) (r : Rate D)   -- returned false, or left the loop
  | again (r : Rate D)                 -- `continue` with `step_change_detected`

/-- latest_time.hpp:247-282, the body of the loop in `Rate::compute_hz`. -/
def Rate.pass (r : Rate D) (now : Time) : Pass D :=
  match timeSub now r.prev with
  | .error _ => .done false r
  | .ok d =>
    let period : D := seconds d
    if le period zero then .done false r
    else if r.doHzInit then .done true { r with hz := div one period, doHzInit := false }
    else
      let hz' := add (div r.config.rateAlpha period) (mul (sub one r.config.rateAlpha) r.hz)
      if r.doErrorInit then
        .done true { r with error := fabs (sub r.hz (div one period)), doErrorInit := false, hz := hz' }
      else if gt (fabs (sub r.hz (div one period))) (mul r.config.marginFactor r.error) then
        .again { r with doHzInit := true, doErrorInit := true }
      else
        .done true { r with
          error := add (mul r.config.errorAlpha (fabs (sub r.hz (div one period)))) (mul (sub one r.config.errorAlpha) r.error),
          hz := hz' }

/-- latest_time.hpp:243-286, `Rate::compute_hz` with at most `fuel` passes.  Line 284 sets `prev`. -/
def Rate.computeHz (fuel : Nat) (r : Rate D) (now : Time) : Except Fault (Bool × Rate D) :=
  match fuel with
  | 0 => .error .hang
  | fuel + 1 =>
    match r.pass now with
    | .done false r' => .ok (false, r')
    | .done true r' => .ok (true, { r' with prev := now })
    | .again r' => r'.computeHz fuel now

/-- Number of passes given to `compute_hz`; `C37_two_passes` shows that it is never exceeded. -/
def fuel : Nat := 2

/-- latest_time.hpp:371-380.  `out` logs the sets given to `parent_->signal`.  `parent_` and `ros_clock_` are assumed to be
set; the mutex is not represented. -/
structure State (n : Nat) (D : Type) where
  events : Fin n → Option Ev
  rates : List (Rate D)
  configs : List (Config D)
  out : List (Fin n → Ev)

/-- latest_time.hpp:98-107. -/
def construct (n : Nat) (D : Type) : State n D := { events := fun _ => none, rates := [], configs := [], out := [] }

/-- latest_time.hpp:129-132. -/
def setRateConfigPerMessage {n : Nat} (s : State n D) (configs : List (Config D)) : State n D :=
  { s with configs := configs }

/-- latest_time.hpp:134-137. -/
def setRateConfig {n : Nat} (s : State n D) (config : Config D) : State n D :=
  { s with configs := [config] }

/-- latest_time.hpp:172-199, the configuration chosen by `initialize_rate<i>`; `dflt` holds the three default constants
(lines 209-211). -/
def configFor {n : Nat} (dflt : Config D) (configs : List (Config D)) (i : Fin n) : Config D :=
  if configs.length = n then configs.getD i.val dflt
  else if configs.length = 1 then configs.getD 0 dflt
  else dflt

/-- latest_time.hpp:172-199, `initialize_rate<i>` at clock reading `now`. -/
def initializeRate {n : Nat} (dflt : Config D) (s : State n D) (i : Fin n) (now : Time) : State n D :=
  { s with rates := s.rates ++ [Rate.start now (configFor dflt s.configs i)] }

/-- `std::stable_sort` inserting one index before the first that does not compare before it. -/
def insertIdx (before : Nat → Nat → Bool) (a : Nat) : List Nat → List Nat
  | [] => [a]
  | b :: l => if before b a then b :: insertIdx before a l else a :: b :: l

/-- The requirement of `std::stable_sort` on its comparison: a strict weak order on the elements. -/
def strictWeak (gt : D → D → Bool) (l : List D) : Bool :=
  l.all fun a => !gt a a && l.all fun b => l.all fun c =>
    (!(gt a b && gt b c) || gt a c) && (!(gt a c) || gt a b || gt b c)

/-- latest_time.hpp:289-306 with 238-241, `sort_indices(rates_)`: `std::stable_sort` by decreasing rate.  Undefined behaviour
if the comparison is not a strict weak order on the rates (a NaN among them). -/
def sortIndices (v : List (Rate D)) : Except Fault (List Nat) :=
  if strictWeak gt (v.map (·.hz)) then
    .ok ((List.range v.length).foldr
      (insertIdx (fun i j => match v[i]?, v[j]? with
        | some a, some b => gt a.hz b.hz
        | _, _ => false)) [])
  else .error .ub

/-- latest_time.hpp:337-367, the loop of `find_pivot` over the sorted indices; `none` is `NO_PIVOT`. -/
def pivotLoop (v : List (Rate D)) (now : Time) : List Nat → Except Fault (Option Nat)
  | [] => .ok none
  | p :: l =>
    match v[p]? with
    | none => .error .ub
    | some r =>
      match timeSub now r.prev with
      | .error f => .error f
      | .ok d =>
        let period : D := seconds d
        if eq period zero then
          if gt r.hz zero then .ok (some p) else pivotLoop v now l
        else if !r.doErrorInit && gt (sub r.hz (div one period)) (mul r.config.marginFactor r.error) then pivotLoop v now l
        else if gt r.hz zero then .ok (some p)
        else pivotLoop v now l

/-- latest_time.hpp:331-369, `find_pivot`. -/
def findPivot (v : List (Rate D)) (now : Time) : Except Fault (Option Nat) :=
  match sortIndices v with
  | .error f => .error f
  | .ok idx => pivotLoop v now idx

/-- latest_time.hpp:316-328, `is_full`, returning the complete set. -/
def full {n : Nat} (t : Fin n → Option Ev) : Option (Fin n → Ev) :=
  if h : ∀ i, (t i).isSome then some (fun i => (t i).get (h i)) else none

/-- latest_time.hpp:144-168, `add<i>(evt)`; `now` is what the clock returns to the single call of `now()` made by it.
`rates_[i]` outside of the vector is undefined behaviour.  Messages are assumed not to be null. -/
def add {n : Nat} (dflt : Config D) (s : State n D) (i : Fin n) (e : Ev) (now : Time) : Except Fault (State n D) :=
  match s.events i with
  | none => .ok { initializeRate dflt s i now with events := upd s.events i (some e) }
  | some _ =>
    let events := upd s.events i (some e)
    match s.rates[i.val]? with
    | none => .error .ub
    | some r =>
      match r.computeHz fuel now with
      | .error f => .error f
      | .ok (false, r') => .ok { s with events := events, rates := s.rates.set i r' }
      | .ok (true, r') =>
        let rates := s.rates.set i r'
        match findPivot rates now with
        | .error f => .error f
        | .ok pivot =>
          match (if pivot = some i.val then full events else none) with
          | some t => .ok { s with events := events, rates := rates, out := s.out ++ [t] }
          | none => .ok { s with events := events, rates := rates }

/-- One delivery: input, message, clock reading. -/
structure Op (n : Nat) where
  input : Fin n
  msg : Ev
  now : Time

/-- A history of deliveries. -/
def run {n : Nat} (dflt : Config D) (s : State n D) (ops : List (Op n)) : Except Fault (State n D) :=
  runE (fun s op => add dflt s op.input op.msg op.now) s ops

end MF.Latest
