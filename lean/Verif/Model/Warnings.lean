import Verif.Model.Approx
/-
Model of the warnings that ApproximateTime writes to the log.

Simplification: the log level is such that warnings are printed.
-/
namespace MF.Approx

variable {n : Nat}

/-- The two warnings of `checkInterMessageBound<i>`, with the values they print: approximate_time.hpp:150 and 153-159. -/
inductive Warning (n : Nat) where
  | outOfOrder (i : Fin n)
  | tooClose (i : Fin n) (gap bound : Int)
deriving DecidableEq

/-- approximate_time.hpp:117-162: the warning that `checkInterMessageBound<i>` passes to `RCUTILS_LOG_WARN_ONCE`, if it does. -/
def boundWarning (s : State n) (i : Fin n) : Option (Warning n) :=
  if s.warned i then none
  else
    match (s.deques i).getLast? with
    | none => none
    | some msg =>
      match (if (s.deques i).length = 1 then (s.past i).getLast? else (s.deques i)[(s.deques i).length - 2]?) with
      | none => none
      | some prev =>
        if msg.stamp < prev.stamp then some (.outOfOrder i)
        else if msg.stamp - prev.stamp < s.cfg.lower i then some (.tooClose i (msg.stamp - prev.stamp) (s.cfg.lower i))
        else none

/-- approximate_time.hpp:170-181: the warning of `add<i>(evt)`, which calls `checkInterMessageBound<i>` only if the message is
not alone in its deque. -/
def addWarning (s : State n) (i : Fin n) (e : Ev) : Option (Warning n) :=
  let s1 : State n := { s with deques := upd s.deques i (s.deques i ++ [e]) }
  if (s1.deques i).length = 1 then none else boundWarning s1 i

/-- A process with `m` synchronizers of the same type.  `RCUTILS_LOG_WARN_ONCE` (rcutils, trusted) has a static variable for each
place in the code it is used at; `checkInterMessageBound<i>` is a member template of a class template, so there is one for each
policy type and each `i`, and all synchronizers of the type share it: `orderOnce i` and `closeOnce i`.  `lines` is what was
printed, with the number of the synchronizer, which the line itself does not contain. -/
structure Proc (n m : Nat) where
  syncs : Fin m → State n
  orderOnce : Fin n → Bool
  closeOnce : Fin n → Bool
  lines : List (Fin m × Warning n)

/-- `RCUTILS_LOG_WARN_ONCE` at approximate_time.hpp:150 and 153: print, unless this place has printed before. -/
def warnOnce {m : Nat} (p : Proc n m) (k : Fin m) : Warning n → Proc n m
  | .outOfOrder i =>
    if p.orderOnce i then p else { p with orderOnce := upd p.orderOnce i true, lines := p.lines ++ [(k, .outOfOrder i)] }
  | .tooClose i gap bound =>
    if p.closeOnce i then p else { p with closeOnce := upd p.closeOnce i true, lines := p.lines ++ [(k, .tooClose i gap bound)] }

/-- approximate_time.hpp:165-201: `add<i>(evt)` of synchronizer `k`, with its log output. -/
def procAdd {m : Nat} [NeZero n] (fuel : Nat) (p : Proc n m) (op : Fin m × Fin n × Ev) : Except Fault (Proc n m) :=
  match add fuel (p.syncs op.1) op.2.1 op.2.2 with
  | .error f => .error f
  | .ok s' =>
    let p1 := match addWarning (p.syncs op.1) op.2.1 op.2.2 with
      | none => p
      | some w => warnOnce p op.1 w
    .ok { p1 with syncs := upd p1.syncs op.1 s' }

/-- Synchronizers that were constructed and have not received anything; nothing was printed. -/
def procInit {m : Nat} (s : Fin m → State n) : Proc n m :=
  { syncs := s, orderOnce := fun _ => false, closeOnce := fun _ => false, lines := [] }

/-- A history of a process: which synchronizer receives which message on which input. -/
def procRun {m : Nat} [NeZero n] (fuel : Nat) (p : Proc n m) (ops : List (Fin m × Fin n × Ev)) : Except Fault (Proc n m) :=
  runE (procAdd fuel) p ops

end MF.Approx
