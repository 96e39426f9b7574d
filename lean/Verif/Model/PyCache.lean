import Verif.Model.Basic
/-
Model of the Python class Cache of src/message_filters/__init__.py, called by one thread.  The constructor registers the
callback before it creates the lists; see Model/PyConstruct.lean.
-/
namespace MF.PyCache

/-- An `rclpy` time: clock type and nanoseconds (rclpy, trusted). -/
structure PTime where
  clock : Source
  ns : Int
deriving DecidableEq, Repr

/-- `a <= b` for `rclpy` times; times of different clock types cannot be compared, TypeError (rclpy, trusted). -/
def ple (a b : PTime) : Except Fault Bool := if a.clock = b.clock then .ok (decide (a.ns ≤ b.ns)) else .error .threw

/-- A message.  `stamp` is the stamp of its header, converted by `Time.from_msg` on line 139 unless it is an `rclpy` time
already; `none` if it has no header or no stamp in it. -/
structure Msg where
  id : Nat
  stamp : Option PTime
deriving DecidableEq, Repr

/-- __init__.py:105-116: the members of a Cache.  `out` logs what is given to `signalMessage`. -/
structure State where
  cacheSize : Int
  allowHeaderless : Bool
  msgs : List Msg
  times : List PTime
  out : List Msg

/-- __init__.py:105-116, the constructor. -/
def construct (cacheSize : Int) (allowHeaderless : Bool) : State :=
  { cacheSize := cacheSize, allowHeaderless := allowHeaderless, msgs := [], times := [], out := [] }

/-- __init__.py:141-150: the end of `add`, once the stamp is known.  `tail` is `del l[0]`.  An exception raised by a callback on
line 150 leaves the same state. -/
def store (s : State) (m : Msg) (t : PTime) : State :=
  let times := s.times ++ [t]
  let msgs := s.msgs ++ [m]
  if (msgs.length : Int) > s.cacheSize then { s with msgs := msgs.tail, times := times.tail, out := s.out ++ [m] }
  else { s with msgs := msgs, times := times, out := s.out ++ [m] }

/-- __init__.py:121-150, `add`.  `now` is the reading of the ROS clock on line 135. -/
def add (s : State) (m : Msg) (now : Int) : State :=
  match m.stamp with
  | none => if s.allowHeaderless then store s m ⟨.ros, now⟩ else s
  | some t => store s m t

/-- A history of calls of `add`. -/
def run (s : State) (ops : List (Msg × Int)) : State := ops.foldl (fun s o => add s o.1 o.2) s

/-- The list comprehension `[msg for (msg, time) in zip(...) if p(time)]`, where evaluating the condition may raise. -/
def comprehension (p : PTime → Except Fault Bool) : List (Msg × PTime) → Except Fault (List Msg)
  | [] => .ok []
  | x :: l =>
    match p x.2 with
    | .error f => .error f
    | .ok b =>
      match comprehension p l with
      | .error f => .error f
      | .ok r => .ok (if b then x.1 :: r else r)

/-- The chained comparison `a <= x <= b`; the second half is not evaluated if the first is false. -/
def between (a b x : PTime) : Except Fault Bool :=
  match ple a x with
  | .error f => .error f
  | .ok false => .ok false
  | .ok true => ple x b

/-- __init__.py:152-157, `getInterval`. -/
def getInterval (s : State) (a b : PTime) : Except Fault (List Msg) :=
  match ple a b with
  | .error f => .error f
  | .ok false => .error .assertFailed
  | .ok true => comprehension (between a b) (s.msgs.zip s.times)

/-- __init__.py:159-165, `getElemAfterTime`; `time >= stamp` is `stamp <= time`. -/
def getElemAfterTime (s : State) (t : PTime) : Except Fault (Option Msg) :=
  match comprehension (fun x => ple t x) (s.msgs.zip s.times) with
  | .error f => .error f
  | .ok newer => .ok newer.head?

/-- __init__.py:167-173, `getElemBeforeTime`. -/
def getElemBeforeTime (s : State) (t : PTime) : Except Fault (Option Msg) :=
  match comprehension (fun x => ple x t) (s.msgs.zip s.times) with
  | .error f => .error f
  | .ok older => .ok older.getLast?

/-- __init__.py:175-179, `getLastestTime`. -/
def getLastestTime (s : State) : Option PTime := s.times.getLast?

/-- __init__.py:181-185, `getOldestTime`. -/
def getOldestTime (s : State) : Option PTime := s.times.head?

/-- __init__.py:187-190, `getLast`. -/
def getLast (s : State) : Except Fault (Option Msg) :=
  match getLastestTime s with
  | none => .ok none
  | some t => getElemAfterTime s t

end MF.PyCache
