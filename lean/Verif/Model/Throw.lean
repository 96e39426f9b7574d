import Verif.Model.Sequencer
import Verif.Model.Cache
import Verif.Model.Signal
import Verif.Model.Latest
import Verif.Model.Aligner
import Verif.Model.ExactTime
import Verif.Model.Epsilon
/-
Callbacks that throw.  An exception thrown by a user callback leaves `Signal1::call` / `Signal9::call` and then the member
function of the filter that made the call; the `lock_guard`s on the way release their mutexes.  Whether a call throws is given
by an arbitrary `boom : Nat → Bool`: the `k`-th call (counted from 0, over the life of the filter) throws if `boom k`.
The functions below are those of the other model files with the exits by exception added; they return the state that is left
behind and whether an exception was thrown.
-/
namespace MF.Throw

/-! ### Signals -/

/-- The loop of signal1.hpp:109-112 and signal9.hpp:144-147: an exception ends it.  `boom` tells which callback (by
registration number) throws. -/
def invoke {β : Type} (boom : Nat → Bool) (b : β) : List Nat → List (Nat × β) → List (Nat × β) × Bool
  | [], log => (log, false)
  | k :: ks, log => if boom k then (log ++ [(k, b)], true) else invoke boom b ks (log ++ [(k, b)])

/-- signal1.hpp:104-114, signal9.hpp:139-149, `call`. -/
def call {β : Type} (boom : Nat → Bool) (r : Signal.Registry β) (b : β) : Signal.Registry β × Bool :=
  let x := invoke boom b r.callbacks r.calls
  ({ r with calls := x.1 }, x.2)

/-! ### Cache -/

/-- cache.hpp:125-159, `add`: the message is in the cache when `signalMessage` is called, which is the last statement. -/
def cacheAdd (boom : Nat → Bool) (s : Cache.State) (e : Ev) : Except Fault (Cache.State × Bool) :=
  match Cache.insertLocked s e with
  | .error f => .error f
  | .ok s' => .ok (Cache.forward s' e, boom s'.out.length)

/-- A history in which the exceptions of `add` are caught by the callers. -/
def cacheStep (boom : Nat → Bool) (s : Cache.State) : Cache.Op → Except Fault Cache.State
  | .add e => (cacheAdd boom s e).map (·.1)
  | .setSize n => .ok (Cache.setCacheSize s n)

/-! ### TimeSequencer -/

/-- time_sequencer.hpp:215-217: the loop that passes on `to_call`; an exception ends it. -/
def passOn (boom : Nat → Bool) : List Ev → List Ev → List Ev × Bool
  | [], out => (out, false)
  | e :: l, out => if boom out.length then (out ++ [e], true) else passOn boom l (out ++ [e])

/-- time_sequencer.hpp:190-219, `dispatch`: `to_call` is a local variable. -/
def sequencerDispatch (boom : Nat → Bool) (s : Sequencer.State) (now : Nat → Int) : Sequencer.State × Bool :=
  let r := Sequencer.takeReady s.delay now 0 s.messages s.last
  let x := passOn boom r.1 s.out
  ({ s with messages := r.2.1, last := r.2.2, out := x.1 }, x.2)

def sequencerStep (boom : Nat → Bool) (s : Sequencer.State) : Sequencer.Op → Sequencer.State
  | .add m => Sequencer.step s (.add m)
  | .tick now => (sequencerDispatch boom s now).1

/-- A history of a freshly constructed sequencer. -/
def sequencerRun (boom : Nat → Bool) (delay : Int) (queueSize : Nat) (ops : List Sequencer.Op) : Sequencer.State :=
  ops.foldl (sequencerStep boom) (Sequencer.construct delay queueSize)

/-! ### LatestTime -/

/-- latest_time.hpp:144-168, `add<i>`: `publish()` is the last statement. -/
def latestAdd {n : Nat} {D : Type} [Latest.Arith D] (boom : Nat → Bool) (dflt : Latest.Config D) (s : Latest.State n D)
    (op : Latest.Op n) : Except Fault (Latest.State n D × Bool) :=
  match Latest.add dflt s op.input op.msg op.now with
  | .error f => .error f
  | .ok s' => .ok (s', decide (s.out.length < s'.out.length) && boom s.out.length)

/-! ### InputAligner -/

/-- input_aligner.hpp:390-414, `dispatchFirstMessage<I>(idx)` for `I = idx`: `last_out_ts_` is set before the call of the signal
(lines 400-402), the message is removed from its queue after it (line 403).  The result says whether the loop goes on (`some`)
or an exception was thrown (`none`). -/
def alignerDispatchAt {n : Nat} (boom : Nat → Bool) (s : Aligner.State n) (i : Fin n) :
    Except Fault (Aligner.State n × Option Bool) :=
  match (s.queues i).items with
  | e :: _ =>
    let s1 : Aligner.State n := { s with lastOut := e.stamp, out := s.out ++ [(i, e)] }
    if boom s.out.length then .ok (s1, none)
    else
      match (s1.queues i).popFirst with
      | .error f => .error f
      | .ok q => .ok ({ s1 with queues := upd s1.queues i q }, some true)
  | [] =>
    match Aligner.dispatchAt s i with
    | .error f => .error f
    | .ok (s', b) => .ok (s', some b)

/-- input_aligner.hpp:375-388, `dispatchFirstMessage()`. -/
def alignerDispatchFirst {n : Nat} (boom : Nat → Bool) (s : Aligner.State n) : Except Fault (Aligner.State n × Option Bool) :=
  let ts := fun i => (s.queues i).firstTimeStamp.2
  match Aligner.getFirstSampleIdx ts with
  | none => .ok (Aligner.stamped s, some false)
  | some i => alignerDispatchAt boom (Aligner.stamped s) i

/-- input_aligner.hpp:234-238: the loop of `dispatchMessages`; the first argument bounds the iterations. -/
def alignerLoop {n : Nat} (boom : Nat → Bool) : Nat → Aligner.State n → Except Fault (Aligner.State n × Bool)
  | 0, _ => .error .hang
  | fuel + 1, s =>
    match alignerDispatchFirst boom s with
    | .error f => .error f
    | .ok (s', some true) => alignerLoop boom fuel s'
    | .ok (s', some false) => .ok (s', false)
    | .ok (s', none) => .ok (s', true)

/-- input_aligner.hpp:226-240, `dispatchMessages`. -/
def alignerDispatch {n : Nat} (boom : Nat → Bool) (fuel : Nat) (s : Aligner.State n) : Except Fault (Aligner.State n × Bool) :=
  if Aligner.inputsAvailable s then alignerLoop boom fuel s else .ok (s, false)

def alignerStep {n : Nat} (boom : Nat → Bool) (fuel : Nat) (s : Aligner.State n) : Aligner.Op n → Except Fault (Aligner.State n)
  | .add i e => .ok (Aligner.add s i e)
  | .setPeriod i d => .ok (Aligner.setInputPeriod s i d)
  | .dispatch => (alignerDispatch boom fuel s).map (·.1)

/-- A history of calls of a freshly constructed aligner. -/
def alignerRun {n : Nat} (boom : Nat → Bool) (fuel : Nat) (timeout : Int) (ops : List (Aligner.Op n)) :
    Except Fault (Aligner.State n) :=
  runE (alignerStep boom fuel) (Aligner.construct n timeout) ops

/-! ### ExactTime -/

/-- exact_time.hpp:175-182, the `for_each` over the dropped range: an exception ends it.  The number of a call is its position
in the log (which also counts the ghost entries for replaced messages; `boom` being arbitrary, this does not matter). -/
def exactDropLoop {n : Nat} (boom : Nat → Bool) : List (Int × ExactTime.Tuple n) → List (ExactTime.Action n) →
    List (ExactTime.Action n) × Bool
  | [], log => (log, false)
  | p :: l, log => if boom log.length then (log ++ [.drop p.2], true) else exactDropLoop boom l (log ++ [.drop p.2])

/-- exact_time.hpp:180-184, `drop_range`: the range is erased after the drop signal was called for all of it. -/
def exactDropRange {n : Nat} (boom : Nat → Bool) (s : ExactTime.State n) (dropped kept : List (Int × ExactTime.Tuple n)) :
    ExactTime.State n × Bool :=
  let x := exactDropLoop boom dropped s.log
  if x.2 then ({ s with log := x.1 }, true) else ({ s with tuples := kept, log := x.1 }, false)

/-- exact_time.hpp:165-169, `clearOldTuples`. -/
def exactClearOld {n : Nat} (boom : Nat → Bool) (s : ExactTime.State n) : ExactTime.State n × Bool :=
  exactDropRange boom s (s.tuples.takeWhile (fun p => decide (p.1 ≤ s.last))) (s.tuples.dropWhile (fun p => decide (p.1 ≤ s.last)))

/-- exact_time.hpp:156-160, the overflow part of `checkTuple`. -/
def exactDropExceeding {n : Nat} (boom : Nat → Bool) (s : ExactTime.State n) : ExactTime.State n × Bool :=
  if s.queueSize > 0 ∧ s.tuples.length > s.queueSize then
    exactDropRange boom s (s.tuples.take (s.tuples.length - s.queueSize)) (s.tuples.drop (s.tuples.length - s.queueSize))
  else (s, false)

/-- exact_time.hpp:139-161, `checkTuple`: if the output signal throws (line 146), the set is still in the map. -/
def exactCheckTuple {n : Nat} [NeZero n] (boom : Nat → Bool) (s : ExactTime.State n) (t : ExactTime.Tuple n) :
    Except Fault (ExactTime.State n × Bool) :=
  if ExactTime.isFull t then
    match t 0 with
    | none => .error .ub
    | some e0 =>
      if boom s.log.length then .ok ({ s with log := s.log ++ [.out t] }, true)
      else
        let r := exactClearOld boom { s with log := s.log ++ [.out t], last := e0.stamp,
                                             tuples := s.tuples.filter (fun p => decide (p.1 ≠ e0.stamp)) }
        if r.2 then .ok (r.1, true) else .ok (exactDropExceeding boom r.1)
  else .ok (exactDropExceeding boom s)

/-- exact_time.hpp:88-102, `add<i>(evt)`. -/
def exactAdd {n : Nat} [NeZero n] (boom : Nat → Bool) (s : ExactTime.State n) (i : Fin n) (e : Ev) :
    Except Fault (ExactTime.State n × Bool) :=
  let t := ExactTime.tupleAt e.stamp s.tuples
  let t' := upd t i (some e)
  let ghost := (t i).toList.map (ExactTime.Action.replaced i)
  exactCheckTuple boom { s with tuples := ExactTime.store e.stamp t' s.tuples, log := s.log ++ ghost } t'

/-- A history of `add` calls whose exceptions are caught by the callers. -/
def exactRun {n : Nat} [NeZero n] (boom : Nat → Bool) (s : ExactTime.State n) (ops : List (Fin n × Ev)) :
    Except Fault (ExactTime.State n) :=
  runE (fun s op => (exactAdd boom s op.1 op.2).map (·.1)) s ops

/-! ### ApproximateEpsilonTime -/

/-- approximate_epsilon_time.hpp:269-280, `process`: if the signal throws (line 274), nothing has been erased. -/
def epsilonProcess {n : Nat} (boom : Nat → Bool) : Nat → Epsilon.State n → Except Fault (Epsilon.State n × Bool)
  | 0, s => if s.num = n then .error .hang else .ok (s, false)
  | fuel + 1, s =>
    if s.num = n then
      let older := Epsilon.getOlder s.events
      if Epsilon.checkAll s.events s.epsilon older then
        match Epsilon.signal s with
        | .error f => .error f
        | .ok s' => if boom s.out.length then .ok (s', true) else epsilonProcess boom fuel (Epsilon.eraseFronts s')
      else epsilonProcess boom fuel (Epsilon.eraseOld older.1 s)
    else .ok (s, false)

/-- approximate_epsilon_time.hpp:96-113, `add<i>(evt)`. -/
def epsilonAdd {n : Nat} (boom : Nat → Bool) (fuel : Nat) (s : Epsilon.State n) (i : Fin n) (e : Ev) :
    Except Fault (Epsilon.State n × Bool) :=
  let num := if (s.events i).length = 0 then s.num + 1 else s.num
  let s1 : Epsilon.State n := { s with num := num, events := upd s.events i (s.events i ++ [e]) }
  if s1.num = (n : Int) then epsilonProcess boom fuel s1
  else if (s1.events i).length > s1.queueSize then .ok (Epsilon.eraseFront s1 i, false)
  else .ok (s1, false)

/-- A history of `add` calls whose exceptions are caught by the callers. -/
def epsilonRun {n : Nat} (boom : Nat → Bool) (fuel : Nat) (s : Epsilon.State n) (ops : List (Fin n × Ev)) :
    Except Fault (Epsilon.State n) :=
  runE (fun s op => (epsilonAdd boom fuel s op.1 op.2).map (·.1)) s ops

end MF.Throw
