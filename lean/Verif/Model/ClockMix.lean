import Verif.Model.Cache
import Verif.Model.ExactTime
import Verif.Model.Epsilon
import Verif.Model.Aligner
/-
Messages whose stamps are of different clock types.  Comparing or subtracting two `rclcpp::Time`s of different clock types throws
`std::runtime_error` (rclcpp, trusted).  message_traits.hpp:88-102 gives every message a stamp of type `ros`; a user
specialisation of `TimeStamp` (for messages without a header) can give any type.

The clock type of the stamp is a property of the message: `src id` for the message with identity `id`, where `src` is arbitrary.
The functions below are those of the other model files with the exits by exception added; they return the state that is left
behind and whether an exception was thrown.  The callers catch the exceptions and go on.
-/
namespace MF.ClockMix

/-! ### Cache -/

/-- cache.hpp:143-155, the reverse walk and the insertion; `none` if a comparison (line 149) throws. -/
def insertBack (src : Nat → Source) (e : Ev) : (rev passed : List Ev) → Option (List Ev)
  | [], passed => some (e :: passed)
  | x :: rev, passed =>
    if src x.id ≠ src e.id then none
    else if x.stamp > e.stamp then insertBack src e rev (x :: passed)
    else some ((x :: rev).reverse ++ e :: passed)

/-- cache.hpp:125-159, `add(evt)`: the oldest messages are removed before the comparisons. -/
def cacheAdd (src : Nat → Source) (s : Cache.State) (e : Ev) : Except Fault (Cache.State × Bool) :=
  match s.size with
  | none => .error .ub
  | some n =>
    match Cache.popLoop n s.items with
    | .error f => .error f
    | .ok kept =>
      match insertBack src e kept.reverse [] with
      | none => .ok ({ s with items := kept }, true)
      | some items => .ok (Cache.forward { s with items := items } e, false)

def cacheStep (src : Nat → Source) (s : Cache.State) : Cache.Op → Except Fault Cache.State
  | .add e => (cacheAdd src s e).map (·.1)
  | .setSize n => .ok (Cache.setCacheSize s n)

/-- A history of a freshly constructed cache. -/
def cacheRun (src : Nat → Source) (n : Nat) (ops : List Cache.Op) : Except Fault Cache.State :=
  runE (cacheStep src) (Cache.construct n) ops

/-- A time given to a query: nanoseconds and clock type. -/
structure Time where
  ns : Int
  source : Source
deriving DecidableEq, Repr

/-- The index loops of cache.hpp:176-180, 184-188, 257-260, as `Cache.scanUp`; the comparison with `t` throws (`none`) if the
clock types differ. -/
def scanUp (src : Nat → Source) (t : Time) (p : Ev → Bool) (l : List Ev) : Nat → Nat → Option Nat
  | 0, i => some i
  | k + 1, i =>
    match l[i]? with
    | some x =>
      if src x.id ≠ t.source then none else if p x then scanUp src t p l k (i + 1) else some i
    | none => some i

/-- cache.hpp:169-197, `getInterval`; `none` if it throws. -/
def getInterval (src : Nat → Source) (s : Cache.State) (start end_ : Time) : Option (List Ev) :=
  match scanUp src start (fun x => decide (x.stamp < start.ns)) s.items s.items.length 0 with
  | none => none
  | some startIndex =>
    match scanUp src end_ (fun x => decide (x.stamp ≤ end_.ns)) s.items s.items.length startIndex with
    | none => none
    | some endIndex => some ((s.items.drop startIndex).take (endIndex - startIndex))

/-- cache.hpp:255-260, the loop of `getElemBeforeTime`; outer `none` if a comparison throws. -/
def beforeLoop (src : Nat → Source) (t : Time) (l : List Ev) : Nat → Nat → Option Nat → Option (Option Nat)
  | 0, _, elem => some elem
  | k + 1, i, elem =>
    match l[i]? with
    | some x =>
      if src x.id ≠ t.source then none
      else if x.stamp < t.ns then beforeLoop src t l k (i + 1) (some i) else some elem
    | none => some elem

/-- cache.hpp:247-267, `getElemBeforeTime`; outer `none` if it throws, inner `none` is the null pointer. -/
def getElemBeforeTime (src : Nat → Source) (s : Cache.State) (t : Time) : Option (Option Ev) :=
  match beforeLoop src t s.items s.items.length 0 none with
  | none => none
  | some (some i) => some s.items[i]?
  | some none => some none

/-- cache.hpp:282-287, the loop of `getElemAfterTime`; the first argument is `i + 1`; outer `none` if a comparison throws. -/
def afterLoop (src : Nat → Source) (t : Time) (l : List Ev) : Nat → Option Nat → Option (Option Nat)
  | 0, elem => some elem
  | i + 1, elem =>
    match l[i]? with
    | some x =>
      if src x.id ≠ t.source then none
      else if x.stamp > t.ns then afterLoop src t l i (some i) else some elem
    | none => some elem

/-- cache.hpp:274-296, `getElemAfterTime`; outer `none` if it throws, inner `none` is the null pointer. -/
def getElemAfterTime (src : Nat → Source) (s : Cache.State) (t : Time) : Option (Option Ev) :=
  match afterLoop src t s.items s.items.length none with
  | none => none
  | some (some i) => some s.items[i]?
  | some none => some none

/-- cache.hpp:220-224, `while (i > 0 && stamp(cache_[i]) > start) i--`; `none` if a comparison throws. -/
def scanDown (src : Nat → Source) (t : Time) (l : List Ev) : Nat → Option Nat
  | 0 => some 0
  | i + 1 =>
    match l[i + 1]? with
    | some x =>
      if src x.id ≠ t.source then none else if x.stamp > t.ns then scanDown src t l i else some (i + 1)
    | none => some (i + 1)

/-- cache.hpp:227-231, `while (i < size - 1 && stamp(cache_[i]) < end) i++`; `none` if a comparison throws. -/
def scanUpTo (src : Nat → Source) (t : Time) (l : List Ev) : Nat → Nat → Option Nat
  | 0, i => some i
  | k + 1, i =>
    if i < l.length - 1 then
      match l[i]? with
      | some x =>
        if src x.id ≠ t.source then none else if x.stamp < t.ns then scanUpTo src t l k (i + 1) else some i
      | none => some i
    else some i

/-- cache.hpp:206-240, `getSurroundingInterval`; `none` if it throws. -/
def getSurroundingInterval (src : Nat → Source) (s : Cache.State) (start end_ : Time) : Option (List Ev) :=
  if s.items.length = 0 then some []
  else
    match scanDown src start s.items (s.items.length - 1) with
    | none => none
    | some startIndex =>
      match scanUpTo src end_ s.items s.items.length startIndex with
      | none => none
      | some endIndex => some ((s.items.drop startIndex).take (endIndex - startIndex + 1))

/-! ### ExactTime -/

/-- exact_time.hpp:98: some key of the map has another clock type than the stamp of `e`.  A key is a copy of the stamp of the
message that created the entry. -/
def foreign {n : Nat} (src : Nat → Source) (tuples : List (Int × ExactTime.Tuple n)) (e : Ev) : Bool :=
  tuples.any (fun p => (List.finRange n).any (fun i =>
    match p.2 i with
    | some x => decide (src x.id ≠ src e.id)
    | none => false))

/-- exact_time.hpp:88-102, `add<i>(evt)`.  `tuples_[stamp]` compares the stamp with keys of the map, one at least unless the map is
empty, before anything is changed.  Simplification: it throws if any key is of another clock type; since all keys are of one clock
type (`C78_exact_one_clock`) it makes no difference which ones are compared.  The later comparisons (lines 150 and 167) are between
stamps of messages of the map. -/
def exactAdd {n : Nat} [NeZero n] (src : Nat → Source) (s : ExactTime.State n) (i : Fin n) (e : Ev) :
    Except Fault (ExactTime.State n × Bool) :=
  if foreign src s.tuples e then .ok (s, true)
  else (ExactTime.add s i e).map (fun s' => (s', false))

def exactRunFrom {n : Nat} [NeZero n] (src : Nat → Source) (s : ExactTime.State n) (ops : List (Fin n × Ev)) :
    Except Fault (ExactTime.State n) :=
  runE (fun s op => (exactAdd src s op.1 op.2).map (·.1)) s ops

/-! ### ApproximateEpsilonTime -/

/-- approximate_epsilon_time.hpp:118-136, `get_older_timestamp_between<i>`; the second component of `cur` is the clock type of the
first; `none` if the comparison of line 132 throws. -/
def olderBetween {n : Nat} (src : Nat → Source) (v : Fin n → List Ev) (cur : (Int × Option (Fin n)) × Source) (i : Fin n) :
    Option ((Int × Option (Fin n)) × Source) :=
  match v i with
  | [] => some cur
  | e :: _ =>
    if cur.2 ≠ src e.id then none
    else if cur.1.1 > e.stamp then some ((e.stamp, some i), src e.id) else some cur

/-- approximate_epsilon_time.hpp:138-153, `get_older_timestamp`: the search starts from a time of type `ros`. -/
def getOlder {n : Nat} (src : Nat → Source) (v : Fin n → List Ev) : Option ((Int × Option (Fin n)) × Source) :=
  (List.finRange n).foldlM (olderBetween src v) ((Epsilon.maxTime, none), .ros)

/-- approximate_epsilon_time.hpp:269-280, `process`.  If the search for the oldest front returns, all fronts are of type `ros`
(each was compared with a time of type `ros`), so that the comparisons of the rest of the iteration, which are between the fronts
and the oldest of them, do not throw. -/
def epsilonProcess {n : Nat} (src : Nat → Source) : Nat → Epsilon.State n → Except Fault (Epsilon.State n × Bool)
  | 0, s => if s.num = n then .error .hang else .ok (s, false)
  | fuel + 1, s =>
    if s.num = n then
      match getOlder src s.events with
      | none => .ok (s, true)
      | some (older, _) =>
        if Epsilon.checkAll s.events s.epsilon older then
          match Epsilon.signal s with
          | .error f => .error f
          | .ok s' => epsilonProcess src fuel (Epsilon.eraseFronts s')
        else epsilonProcess src fuel (Epsilon.eraseOld older.1 s)
    else .ok (s, false)

/-- approximate_epsilon_time.hpp:96-113, `add<i>(evt)`. -/
def epsilonAdd {n : Nat} (src : Nat → Source) (fuel : Nat) (s : Epsilon.State n) (i : Fin n) (e : Ev) :
    Except Fault (Epsilon.State n × Bool) :=
  let num := if (s.events i).length = 0 then s.num + 1 else s.num
  let s1 : Epsilon.State n := { s with num := num, events := upd s.events i (s.events i ++ [e]) }
  if s1.num = (n : Int) then epsilonProcess src fuel s1
  else if (s1.events i).length > s1.queueSize then .ok (Epsilon.eraseFront s1 i, false)
  else .ok (s1, false)

def epsilonRunFrom {n : Nat} (src : Nat → Source) (fuel : Nat) (s : Epsilon.State n) (ops : List (Fin n × Ev)) :
    Except Fault (Epsilon.State n) :=
  runE (fun s op => (epsilonAdd src fuel s op.1 op.2).map (·.1)) s ops

/-! ### InputAligner -/

/-- The aligner's state with the clock types of its times: `last_in_ts_`, `last_out_ts_` (input_aligner.hpp:423-424) and the `next_ts_`
of every queue (line 308). -/
structure AState (n : Nat) where
  base : Aligner.State n
  inSrc : Source
  outSrc : Source
  nextSrc : Fin n → Source

/-- input_aligner.hpp:95-109 and 260-262: the times are constructed with type `RCL_ROS_TIME`. -/
def alignerConstruct (n : Nat) (timeout : Int) : AState n :=
  { base := Aligner.construct n timeout, inSrc := .ros, outSrc := .ros, nextSrc := fun _ => .ros }

/-- input_aligner.hpp:339-364, `addEvent<I>`: the comparisons of lines 350 and 357 and those of the insertion (line 362, with messages of
the queue) can throw.  Simplification: the insertion throws if any message of the queue is of another clock type. -/
def alignerAdd {n : Nat} (src : Nat → Source) (s : AState n) (i : Fin n) (e : Ev) : AState n × Bool :=
  if src e.id ≠ s.outSrc then (s, true)
  else if e.stamp < s.base.lastOut then ({ s with base := Aligner.add s.base i e }, false)
  else if src e.id ≠ s.inSrc then (s, true)
  else
    let later := e.stamp > s.base.lastIn
    let s1 : AState n :=
      { s with base := { s.base with lastIn := if later then e.stamp else s.base.lastIn }, inSrc := if later then src e.id else s.inSrc }
    if (s.base.queues i).items.any (fun x => decide (src x.id ≠ src e.id)) then (s1, true)
    else ({ s1 with base := Aligner.add s.base i e }, false)

/-- Clock type of what `firstTimeStamp` returns (input_aligner.hpp:264-277) for the queue of input `i`. -/
def firstSrc {n : Nat} (src : Nat → Source) (s : AState n) (i : Fin n) : Source :=
  match (s.base.queues i).items with
  | e :: _ => src e.id
  | [] => if (s.base.queues i).active then s.nextSrc i else .ros

/-- input_aligner.hpp:379-380: `firstTimeStamp` is evaluated for every queue; it stores `next_ts_` for the queues that are not empty. -/
def alignerStamped {n : Nat} (src : Nat → Source) (s : AState n) : AState n :=
  { s with base := Aligner.stamped s.base,
           nextSrc := fun i => match (s.base.queues i).items with | e :: _ => src e.id | [] => s.nextSrc i }

/-- input_aligner.hpp:390-414, `dispatchFirstMessage<I>(idx)` for `I = idx`; the subtraction of line 406 can throw.  The results are the
state, whether to go on, and whether an exception was thrown. -/
def alignerDispatchAt {n : Nat} (src : Nat → Source) (s : AState n) (i : Fin n) : Except Fault (AState n × Bool × Bool) :=
  match (s.base.queues i).items with
  | e :: _ =>
    match Aligner.dispatchAt s.base i with
    | .error f => .error f
    | .ok (b, go) => .ok ({ s with base := b, outSrc := src e.id }, go, false)
  | [] =>
    if s.inSrc ≠ firstSrc src s i then .ok (s, false, true)
    else
      match Aligner.dispatchAt s.base i with
      | .error f => .error f
      | .ok (b, go) => .ok ({ s with base := b }, go, false)

/-- input_aligner.hpp:375-388, `dispatchFirstMessage()`: `std::min_element` (line 419) compares every time but the first with the
smallest so far, which throws unless all are of one clock type. -/
def alignerDispatchFirst {n : Nat} (src : Nat → Source) (s : AState n) : Except Fault (AState n × Bool × Bool) :=
  if (List.finRange n).any (fun i => (List.finRange n).any (fun j => decide (firstSrc src s i ≠ firstSrc src s j))) then
    .ok (alignerStamped src s, false, true)
  else
    match Aligner.getFirstSampleIdx (fun i => (s.base.queues i).firstTimeStamp.2) with
    | none => .ok (alignerStamped src s, false, false)
    | some i => alignerDispatchAt src (alignerStamped src s) i

/-- input_aligner.hpp:234-238: the loop of `dispatchMessages`; an exception leaves it. -/
def alignerLoop {n : Nat} (src : Nat → Source) : Nat → AState n → Except Fault (AState n × Bool)
  | 0, _ => .error .hang
  | fuel + 1, s =>
    match alignerDispatchFirst src s with
    | .error f => .error f
    | .ok (s', _, true) => .ok (s', true)
    | .ok (s', true, false) => alignerLoop src fuel s'
    | .ok (s', false, false) => .ok (s', false)

/-- input_aligner.hpp:226-240, `dispatchMessages`. -/
def alignerDispatch {n : Nat} (src : Nat → Source) (fuel : Nat) (s : AState n) : Except Fault (AState n × Bool) :=
  if Aligner.inputsAvailable s.base then alignerLoop src fuel s else .ok (s, false)

def alignerStep {n : Nat} (src : Nat → Source) (fuel : Nat) (s : AState n) : Aligner.Op n → Except Fault (AState n × Bool)
  | .add i e => .ok (alignerAdd src s i e)
  | .setPeriod i d => .ok ({ s with base := Aligner.setInputPeriod s.base i d }, false)
  | .dispatch => alignerDispatch src fuel s

/-- A history of a freshly constructed aligner. -/
def alignerRun {n : Nat} (src : Nat → Source) (fuel : Nat) (timeout : Int) (ops : List (Aligner.Op n)) : Except Fault (AState n) :=
  runE (fun s op => (alignerStep src fuel s op).map (·.1)) (alignerConstruct n timeout) ops

end MF.ClockMix
