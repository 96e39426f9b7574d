import Verif.Model.PySync
import Verif.Model.PyCache
/-
The constructors of the Python filters run statement by statement, with messages arriving in between (another thread executes the
input filters).  All of them register their callbacks before they create the members that the callbacks use.
-/
namespace MF.Py

/-- What can happen: the constructor executes its next statement, or input `i` outputs the message `m`. -/
inductive BOp (n : Nat) where
  | ctor
  | deliver (i : Fin n) (m : Msg)

/-- A synchronizer under construction, after `stage` statements.  Statement `k < n` registers the callback on input `k`
(__init__.py:220-223; the queues exist before); statement `n` sets `queue_size` (line 216), `n + 1` the lock (line 217), and for
an ApproximateTimeSynchronizer `n + 2` the slop (line 257) and `n + 3` `allow_headerless` (line 258).  `raised` logs the
messages whose delivery raised an AttributeError. -/
structure Build (n : Nat) where
  stage : Nat
  s : State n
  raised : List (Fin n × Msg)

/-- The object at the beginning of __init__.py:221. -/
def buildStart (n : Nat) (queueSize : Int) : Build n := { stage := 0, s := construct n queueSize, raised := [] }

/-- TimeSynchronizer: __init__.py:213-226.  Without the lock, line 226 raises AttributeError before anything is changed. -/
def tsBuild {n : Nat} (boom : Nat → Bool) (b : Build n) : BOp n → Except Fault (Build n)
  | .ctor => .ok { b with stage := b.stage + 1 }
  | .deliver i m =>
    if b.stage ≤ i.1 then .ok b
    else if b.stage < n + 2 then .ok { b with raised := b.raised ++ [(i, m)] }
    else (tsAdd boom b.s i m).map (fun r => { b with s := r.1 })

/-- ApproximateTimeSynchronizer with the slop and the `allow_headerless` given to the constructor: __init__.py:255-318.
Line 262 needs `allow_headerless`, for messages without header only.  Line 279 needs the lock.  Line 295 needs the slop, for
the first stamp looked at; the queues are searched in order and an empty one ends the search, so `self.slop` is used exactly if
the first of the other queues is not empty (or there are none: line 311).  The lock is held then. -/
def approxBuild {n : Nat} (boom : Nat → Bool) (slop : Int) (allow : Bool) (b : Build n) : BOp n → Except Fault (Build n)
  | .ctor => .ok { b with stage := b.stage + 1 }
  | .deliver i m =>
    if b.stage ≤ i.1 then .ok b
    else if !m.header && decide (b.stage < n + 4) then .ok { b with raised := b.raised ++ [(i, m)] }
    else if b.stage < n + 2 then .ok { b with raised := b.raised ++ [(i, m)] }
    else if b.stage < n + 3 then
      if b.s.locked then .error .hang
      else
        let d := (b.s.queues i).set m.ev.stamp m.ev
        match evict b.s.queueSize (d.length + 1) d with
        | .error f => .error f
        | .ok none =>
          .ok { b with s := { b.s with queues := upd b.s.queues i [], locked := true }, raised := b.raised ++ [(i, m)] }
        | .ok (some d') =>
          let s1 := { b.s with queues := upd b.s.queues i d' }
          let qs := List.ofFn s1.queues
          match qs.take i ++ qs.drop (i + 1) with
          | [] :: _ => .ok { b with s := s1 }
          | _ => .ok { b with s := { s1 with locked := true }, raised := b.raised ++ [(i, m)] }
    else (approxAdd boom slop allow b.s i m).map (fun r => { b with s := r.1 })

end MF.Py

namespace MF.PyCache

/-- What can happen while a Cache is constructed: the constructor executes its next statement, or the input outputs. -/
inductive BOp where
  | ctor
  | deliver (m : Msg) (now : Int)

/-- A Cache under construction, after `stage` statements: 1 callback registered (__init__.py:107), 2 `cache_size` (108), 3
`cache_msgs` (110), 4 `cache_times` (113), 5 `allow_headerless` (116). -/
structure Build where
  stage : Nat
  s : State
  raised : List Msg

/-- The object at the beginning of __init__.py:107. -/
def buildStart (cacheSize : Int) (allowHeaderless : Bool) : Build :=
  { stage := 0, s := construct cacheSize allowHeaderless, raised := [] }

/-- __init__.py:105-150.  Line 123 needs `allow_headerless`, for messages without header only; line 141 needs `cache_times`. -/
def build (b : Build) : BOp → Build
  | .ctor => { b with stage := b.stage + 1 }
  | .deliver m now =>
    if b.stage < 1 then b
    else if m.stamp = none ∧ b.stage < 5 then { b with raised := b.raised ++ [m] }
    else if b.stage < 4 then { b with raised := b.raised ++ [m] }
    else { b with s := add b.s m now }

end MF.PyCache
