import Verif.Model.Basic
/-
Model of the Python classes TimeSynchronizer and ApproximateTimeSynchronizer of src/message_filters/__init__.py for `n` inputs.

Simplifications: stamps are unbounded integers (nanoseconds).  All stamps are ROS time: `Time.from_msg` and `ROSClock().now()`
give nothing else, and a header stamp that is already an `rclpy` time is taken to be one.
-/
namespace MF.Py

/-- A Python dict with integer keys: the items in the order in which their keys were inserted. -/
abbrev Dict (V : Type) := List (Int × V)

/-- Iteration over a dict gives its keys in insertion order. -/
def Dict.keys {V : Type} (d : Dict V) : List Int := d.map (·.1)

/-- `d[k]`; a missing key (`none`) raises KeyError. -/
def Dict.get {V : Type} (d : Dict V) (k : Int) : Option V := (d.find? (fun p => decide (p.1 = k))).map (·.2)

/-- `d[k] = v`: an existing key keeps its place. -/
def Dict.set {V : Type} (d : Dict V) (k : Int) (v : V) : Dict V :=
  if k ∈ d.keys then d.map (fun p => if p.1 = k then (k, v) else p) else d ++ [(k, v)]

/-- `del d[k]` for a key that is present. -/
def Dict.del {V : Type} (d : Dict V) (k : Int) : Dict V := d.filter (fun p => decide (p.1 ≠ k))

/-- `min(d)`; for an empty dict (`none`) it raises ValueError. -/
def Dict.minKey {V : Type} (d : Dict V) : Option Int :=
  match d.keys with
  | [] => none
  | k :: ks => some (ks.foldl min k)

/-- What a callback receives from an input filter.  `header` says whether the message has a `header.stamp` that can be
converted; `ev.stamp` is that stamp, or the reading of the ROS clock if the message has no header and such messages are
allowed. -/
structure Msg where
  ev : Ev
  header : Bool
deriving DecidableEq, Repr

/-- __init__.py:213-223: the members of a TimeSynchronizer.  `locked` is the state of `self.lock`, a `threading.Lock` (not
reentrant).  `out` logs the sets given to `signalMessage`. -/
structure State (n : Nat) where
  queueSize : Int
  queues : Fin n → Dict Ev
  locked : Bool
  out : List (Fin n → Ev)

/-- __init__.py:213-223, the constructor. -/
def construct (n : Nat) (queueSize : Int) : State n :=
  { queueSize := queueSize, queues := fun _ => [], locked := false, out := [] }

/-- __init__.py:229-230 and 281-282: `while len(my_queue) > self.queue_size: del my_queue[min(my_queue)]`.  `none`: `min` of an
empty dict raises ValueError.  The first argument bounds the number of iterations; running out of it is `hang`. -/
def evict (size : Int) : Nat → Dict Ev → Except Fault (Option (Dict Ev))
  | 0, _ => .error .hang
  | fuel + 1, d =>
    if (d.length : Int) > size then
      match d.minKey with
      | none => .ok none
      | some k => evict size fuel (d.del k)
    else .ok (some d)

/-- `set.intersection` of two sets given by the lists of their elements. -/
def inter (a b : List Int) : List Int := a.filter (fun k => decide (k ∈ b))

/-- __init__.py:232, `reduce(set.intersection, [set(q) for q in self.queues])`. -/
def common {n : Nat} (queues : Fin n → Dict Ev) : List Int :=
  match List.ofFn (fun j => (queues j).keys) with
  | [] => []
  | k :: ks => ks.foldl inter k

/-- Helper of `sorted`. -/
def insertBy {α : Type} (le : α → α → Bool) (a : α) : List α → List α
  | [] => [a]
  | b :: l => if le a b then a :: b :: l else b :: insertBy le a l

/-- Python's `sorted`, a stable sort (lines 233 and 303), written as an insertion sort. -/
def sorted {α : Type} (le : α → α → Bool) : List α → List α
  | [] => []
  | a :: l => insertBy le a (sorted le l)

/-- `[q[t] for q, t in ...]`: one element from every queue; a missing key (`none`) raises KeyError. -/
def allSome {n : Nat} (f : Fin n → Option Ev) : Option (Fin n → Ev) :=
  if h : ∀ j, (f j).isSome then some (fun j => (f j).get (h j)) else none

/-- __init__.py:233-238: the loop over the common stamps.  `boom k` says whether the `k`-th call of `signalMessage` raises.  The
second component of the result says whether the loop was left by an exception. -/
def tsLoop {n : Nat} (boom : Nat → Bool) : List Int → State n → State n × Bool
  | [], s => (s, false)
  | t :: ts, s =>
    match allSome (fun j => (s.queues j).get t) with
    | none => (s, true)
    | some msgs =>
      if boom s.out.length then ({ s with out := s.out ++ [msgs] }, true)
      else tsLoop boom ts { s with out := s.out ++ [msgs], queues := fun j => (s.queues j).del t }

/-- __init__.py:225-239, `TimeSynchronizer.add`.  The result is the state and whether the call raised; a call that finds the
lock taken waits for it forever (`hang`), because whoever took it is gone.  The lock is released on line 239 only. -/
def tsAdd {n : Nat} (boom : Nat → Bool) (s : State n) (i : Fin n) (m : Msg) : Except Fault (State n × Bool) :=
  if s.locked then .error .hang
  else if !m.header then .ok ({ s with locked := true }, true)
  else
    let d := (s.queues i).set m.ev.stamp m.ev
    match evict s.queueSize (d.length + 1) d with
    | .error f => .error f
    | .ok none => .ok ({ s with queues := upd s.queues i [], locked := true }, true)
    | .ok (some d') =>
      let s1 := { s with queues := upd s.queues i d' }
      let r := tsLoop boom (sorted (fun a b => decide (a ≤ b)) (common s1.queues)) s1
      .ok ({ r.1 with locked := r.2 }, r.2)

/-- A history of calls of `TimeSynchronizer.add`; a caller that gets an exception carries on with its next call. -/
def tsRun {n : Nat} (boom : Nat → Bool) (s : State n) (ops : List (Fin n × Msg)) : Except Fault (State n) :=
  runE (fun s op => (tsAdd boom s op.1 op.2).map (·.1)) s ops

/-- __init__.py:291-299: the stamps of one queue that are not farther than `slop` from the new stamp, with their distance, in the
order of the queue. -/
def topicStamps (slop stamp : Int) (d : Dict Ev) : List (Int × Int) :=
  d.keys.filterMap (fun s =>
    let delta := ((s - stamp).natAbs : Int)
    if delta > slop then none else some (s, delta))

/-- __init__.py:290-304: for each of the searched queues the stamps near the new one, nearest first (`sorted` is stable);
`none` is the return of lines 300-302. -/
def nearStamps (slop stamp : Int) : List (Dict Ev) → Option (List (List Int))
  | [] => some []
  | d :: ds =>
    let ts := topicStamps slop stamp d
    if ts.isEmpty then none
    else match nearStamps slop stamp ds with
      | none => none
      | some r => some ((sorted (fun a b => decide (a.2 ≤ b.2)) ts).map (·.1) :: r)

/-- `itertools.product(*ls)`: the last list varies fastest. -/
def product : List (List Int) → List (List Int)
  | [] => [[]]
  | l :: ls => l.flatMap (fun x => (product ls).map (fun v => x :: v))

/-- `max(vv) - min(vv)` (line 311) for a list that is not empty. -/
def spread : List Int → Int
  | [] => 0
  | x :: l => l.foldl max x - l.foldl min x

/-- __init__.py:305-317: the loop over the combinations `vs`.  Result as in `tsLoop`. -/
def approxLoop {n : Nat} (boom : Nat → Bool) (slop : Int) (i : Fin n) (stamp : Int) :
    List (List Int) → State n → State n × Bool
  | [], s => (s, false)
  | v :: vs, s =>
    let vv := v.insertIdx i stamp
    match allSome (fun j => (vv[j.1]?).bind (fun t => (s.queues j).get t)) with
    | some msgs =>
      if spread vv < slop then
        if boom s.out.length then ({ s with out := s.out ++ [msgs] }, true)
        else ({ s with out := s.out ++ [msgs], queues := fun j => (s.queues j).del (vv[j.1]?.getD 0) }, false)
      else approxLoop boom slop i stamp vs s
    | none => approxLoop boom slop i stamp vs s

/-- __init__.py:260-318, `ApproximateTimeSynchronizer.add` as registered by `connectInput` (with the index `i` of its queue).
The lock is taken on line 279, after the stamp has been found. -/
def approxAdd {n : Nat} (boom : Nat → Bool) (slop : Int) (allowHeaderless : Bool) (s : State n) (i : Fin n) (m : Msg) :
    Except Fault (State n × Bool) :=
  if !m.header && !allowHeaderless then .ok (s, false)
  else if s.locked then .error .hang
  else
    let d := (s.queues i).set m.ev.stamp m.ev
    match evict s.queueSize (d.length + 1) d with
    | .error f => .error f
    | .ok none => .ok ({ s with queues := upd s.queues i [], locked := true }, true)
    | .ok (some d') =>
      let s1 := { s with queues := upd s.queues i d' }
      let qs := List.ofFn s1.queues
      match nearStamps slop m.ev.stamp (qs.take i ++ qs.drop (i + 1)) with
      | none => .ok (s1, false)
      | some stamps =>
        let r := approxLoop boom slop i m.ev.stamp (product stamps) s1
        .ok ({ r.1 with locked := r.2 }, r.2)

/-- A history of calls of `ApproximateTimeSynchronizer.add`. -/
def approxRun {n : Nat} (boom : Nat → Bool) (slop : Int) (allowHeaderless : Bool) (s : State n) (ops : List (Fin n × Msg)) :
    Except Fault (State n) :=
  runE (fun s op => (approxAdd boom slop allowHeaderless s op.1 op.2).map (·.1)) s ops

end MF.Py
